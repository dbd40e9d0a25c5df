import Verif.Lemmas.AngleTie
import Verif.Lemmas.Float64
import Verif.Model.Angle64
import Verif.Spec.Angle64

/-!
# Lemmas about computed angles
-/

namespace Capi

namespace AngleSorter

theorem mPi_near : |2 * ((mPi : ℚ) : ℝ) - 2 * Real.pi| ≤ 1 / 4000000000000000 := by
  have h1 := Real.pi_gt_d20
  have h2 := Real.pi_lt_d20
  unfold mPi
  push_cast
  rw [abs_le]
  norm_num at h1 h2 ⊢
  constructor <;> linarith

theorem fl_twoPi : fl (2 * mPi) = 2 * mPi := by
  have h := fl_exact 884279719003555 (-47) (by norm_num)
  have e : (2 : ℚ) * mPi = ((884279719003555 : ℤ) : ℚ) * 2 ^ (-47 : ℤ) := by
    unfold mPi; norm_num
  rw [e]
  exact h

/-- The computed angle is within `2⁻⁴⁹` of the real one. -/
theorem horizontal_near {atan2 : ℚ → ℚ → ℚ} (h : Atan2Ok atan2) (v : Coord) :
    |(horizontal atan2 v : ℝ) - ccwAngle v| ≤ 1 / 2 ^ 49 := by
  have hn := h.near v.lon v.lat
  have e : (⟨((v.lon : ℚ) : ℝ), ((v.lat : ℚ) : ℝ)⟩ : ℂ) = v.toC := by
    unfold Coord.toC; push_cast; rfl
  rw [e] at hn
  unfold horizontal ccwAngle
  rw [fl_twoPi]
  set a := atan2 v.lat v.lon
  set θ := v.toC.arg
  have p1 := Real.pi_pos
  have p2 : Real.pi < 3.1416 := Real.pi_lt_d4
  have t1 : -Real.pi < θ := Complex.neg_pi_lt_arg _
  have t2 : θ ≤ Real.pi := Complex.arg_le_pi _
  rcases lt_or_ge θ 0 with ht | ht
  · rw [abs_of_neg ht] at hn
    have b := abs_le.1 hn
    have ha : (a : ℝ) < 0 := by norm_num at b; linarith
    have ha' : a < 0 := by exact_mod_cast ha
    rw [if_pos ht]
    simp only [ha', if_true]
    have hm := abs_le.1 mPi_near
    have hx : ((|a + 2 * mPi| : ℚ) : ℝ) ≤ 6.3 := by
      push_cast
      rw [abs_le]
      norm_num at b hm p2 ⊢
      constructor <;> linarith
    have he : ((|fl (a + 2 * mPi) - (a + 2 * mPi)| : ℚ) : ℝ) ≤ 6.3 / 2 ^ 53 := by
      have h0 : ((|fl (a + 2 * mPi) - (a + 2 * mPi)| : ℚ) : ℝ) ≤ ((|a + 2 * mPi| / 2 ^ 53 : ℚ) : ℝ) :=
        by exact_mod_cast fl_err _
      push_cast at h0 hx ⊢
      refine h0.trans ?_
      gcongr
    push_cast at he
    have he' := abs_le.1 he
    rw [abs_le]
    norm_num at b hm he' p2 ⊢
    constructor <;> linarith
  · rw [abs_of_nonneg ht] at hn
    have b := abs_le.1 hn
    have ha : (0 : ℝ) ≤ a := by norm_num at b; linarith
    have ha' : ¬ a < 0 := by push Not; exact_mod_cast ha
    rw [if_neg ha', if_neg (not_lt.2 ht)]
    rw [abs_le]
    norm_num at b p2 ⊢
    constructor <;> linarith

theorem horizontal_double {atan2 : ℚ → ℚ → ℚ} (h : Atan2Ok atan2) (v : Coord) :
    fl (horizontal atan2 v) = horizontal atan2 v := by
  unfold horizontal
  simp only
  split
  · exact fl_idem _
  · exact h.double _ _

/-- Vectors that are apart, in terms of their lengths. -/
theorem apart_gap {u v : Coord} (h : Apart u v) :
    u.cross v = 0 ∨ u.dot v < 0 ∨ 2 * (1 / 2 ^ 49) * (u.len * v.len) < |((u.cross v : ℤ) : ℝ)| := by
  have e : u.cross v = u.lon * v.lat - u.lat * v.lon := by unfold Coord.cross; ring
  unfold Apart at h
  rw [← e] at h
  rcases h with h | h | h
  · exact .inl h
  · exact .inr (.inl h)
  · right; right
    have hu : 0 ≤ u.len := norm_nonneg _
    have hv : 0 ≤ v.len := norm_nonneg _
    have hr : (((u.lon * u.lon + u.lat * u.lat) * (v.lon * v.lon + v.lat * v.lat) : ℤ) : ℝ) <
        ((2 ^ 96 * (u.cross v) ^ 2 : ℤ) : ℝ) := Int.cast_lt.2 h
    rw [Int.cast_mul, ← len_sq, ← len_sq, Int.cast_mul, Int.cast_pow, Int.cast_pow,
      Int.cast_ofNat] at hr
    have hk : (2 : ℝ) ^ 96 = (2 ^ 48) ^ 2 := by norm_num
    have h2 : (u.len * v.len) ^ 2 < (2 ^ 48 * |((u.cross v : ℤ) : ℝ)|) ^ 2 := by
      rw [mul_pow, mul_pow, sq_abs, ← hk]
      exact hr
    have h3 : u.len * v.len < 2 ^ 48 * |((u.cross v : ℤ) : ℝ)| := by
      exact lt_of_pow_lt_pow_left₀ 2 (mul_nonneg (by norm_num) (abs_nonneg _)) h2
    generalize u.len * v.len = x at h3 ⊢
    generalize |((u.cross v : ℤ) : ℝ)| = y at h3 ⊢
    norm_num at h3 ⊢
    linarith

end AngleSorter

end Capi
