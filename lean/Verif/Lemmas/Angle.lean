import Verif.Spec.Angle
import Verif.Model.AngleSorter
import Verif.Lemmas.Polyline
import Mathlib.Analysis.SpecialFunctions.Trigonometric.Bounds

/-!
# Helper lemmas about angles and the sweep order
-/

namespace Capi

open AngleSorter

/-- Length of a vector as a real number. -/
noncomputable def Coord.len (v : Coord) : ℝ := ‖v.toC‖

theorem toC_ne {v : Coord} (h : v ≠ ⟨0, 0⟩) : v.toC ≠ 0 := by
  intro h0
  apply h
  have h1 := congrArg Complex.re h0
  have h2 := congrArg Complex.im h0
  simp only [Coord.toC, Complex.zero_re, Complex.zero_im] at h1 h2
  exact Coord.ext' (by exact_mod_cast h1) (by exact_mod_cast h2)

theorem len_pos {v : Coord} (h : v ≠ ⟨0, 0⟩) : 0 < v.len := norm_pos_iff.2 (toC_ne h)

theorem len_sq (v : Coord) : v.len ^ 2 = (v.lon * v.lon + v.lat * v.lat : ℤ) := by
  unfold Coord.len
  rw [← Complex.normSq_eq_norm_sq, Complex.normSq_apply]
  simp [Coord.toC]

theorem angle_range (v : Coord) : 0 ≤ ccwAngle v ∧ ccwAngle v < 2 * Real.pi := by
  unfold ccwAngle
  have h1 := Complex.neg_pi_lt_arg v.toC
  have h2 := Complex.arg_le_pi v.toC
  have := Real.pi_pos
  split_ifs <;> constructor <;> linarith

theorem angle_polar (v : Coord) :
    (v.lon : ℝ) = v.len * Real.cos (ccwAngle v) ∧ (v.lat : ℝ) = v.len * Real.sin (ccwAngle v) := by
  have hc : Real.cos (ccwAngle v) = Real.cos v.toC.arg := by
    unfold ccwAngle; split_ifs <;> simp [Real.cos_add_two_pi]
  have hs : Real.sin (ccwAngle v) = Real.sin v.toC.arg := by
    unfold ccwAngle; split_ifs <;> simp [Real.sin_add_two_pi]
  rw [hc, hs]
  unfold Coord.len
  constructor
  · rw [Complex.norm_mul_cos_arg]; rfl
  · rw [Complex.norm_mul_sin_arg]; rfl

theorem cross_sin (u v : Coord) :
    ((u.cross v : ℤ) : ℝ) = u.len * v.len * Real.sin (ccwAngle v - ccwAngle u) := by
  obtain ⟨a, b⟩ := angle_polar u
  obtain ⟨c, d⟩ := angle_polar v
  rw [Real.sin_sub]
  unfold Coord.cross
  push_cast
  rw [a, b, c, d]; ring

theorem dot_cos (u v : Coord) :
    ((u.dot v : ℤ) : ℝ) = u.len * v.len * Real.cos (ccwAngle v - ccwAngle u) := by
  obtain ⟨a, b⟩ := angle_polar u
  obtain ⟨c, d⟩ := angle_polar v
  rw [Real.cos_sub]
  unfold Coord.dot
  push_cast
  rw [a, b, c, d]; ring

theorem lowerHalf_iff {v : Coord} (h : v ≠ ⟨0, 0⟩) :
    lowerHalf v = true ↔ Real.pi ≤ ccwAngle v := by
  obtain ⟨hx, hy⟩ := angle_polar v
  obtain ⟨h0, h1⟩ := angle_range v
  have hl := len_pos h
  have hpi := Real.pi_pos
  unfold lowerHalf
  rw [Bool.or_eq_true, Bool.and_eq_true, decide_eq_true_eq, decide_eq_true_eq, decide_eq_true_eq]
  have c1 : v.lat < 0 ↔ (v.lat : ℝ) < 0 := by norm_cast
  have c2 : v.lat = 0 ↔ (v.lat : ℝ) = 0 := by norm_cast
  have c3 : v.lon < 0 ↔ (v.lon : ℝ) < 0 := by norm_cast
  rw [c1, c2, c3, hx, hy]
  constructor
  · intro h
    by_contra hlt
    push Not at hlt
    have hs : 0 ≤ Real.sin (ccwAngle v) := Real.sin_nonneg_of_nonneg_of_le_pi h0 hlt.le
    rcases h with h | ⟨ha, hb⟩
    · have := mul_nonneg hl.le hs; linarith
    · have hs0 : Real.sin (ccwAngle v) = 0 := by
        rcases mul_eq_zero.1 ha with h | h
        · linarith
        · exact h
      rcases eq_or_lt_of_le h0 with h | h
      · rw [← h] at hb; simp at hb; linarith
      · have := Real.sin_pos_of_pos_of_lt_pi h hlt; linarith
  · intro hge
    rcases eq_or_lt_of_le hge with he | hlt
    · right
      rw [← he]; simp [hl]
    · left
      have : Real.sin (ccwAngle v) < 0 := by
        have h2 := Real.sin_pos_of_pos_of_lt_pi (x := ccwAngle v - Real.pi) (by linarith) (by linarith)
        rw [Real.sin_sub_pi] at h2
        linarith
      exact mul_neg_of_pos_of_neg hl this

theorem angleLt_iff {u v : Coord} (hu : u ≠ ⟨0, 0⟩) (hv : v ≠ ⟨0, 0⟩) :
    angleLt u v = true ↔ ccwAngle u < ccwAngle v := by
  have lu := lowerHalf_iff hu
  have lv := lowerHalf_iff hv
  obtain ⟨u0, u1⟩ := angle_range u
  obtain ⟨v0, v1⟩ := angle_range v
  have pu := len_pos hu
  have pv := len_pos hv
  have hpi := Real.pi_pos
  unfold angleLt
  by_cases hh : lowerHalf u = lowerHalf v
  · rw [if_pos hh, decide_eq_true_eq]
    have hc : 0 < u.cross v ↔ (0 : ℝ) < ((u.cross v : ℤ) : ℝ) := by norm_cast
    rw [hc, cross_sin]
    have hrange : |ccwAngle v - ccwAngle u| < Real.pi := by
      rw [abs_lt]
      cases hb : lowerHalf v
      · have n1 : ¬ Real.pi ≤ ccwAngle u := by rw [← lu, hh, hb]; simp
        have n2 : ¬ Real.pi ≤ ccwAngle v := by rw [← lv, hb]; simp
        constructor <;> linarith
      · have n1 := lu.1 (hh.trans hb)
        have n2 := lv.1 hb
        constructor <;> linarith
    have hr := abs_lt.1 hrange
    constructor
    · intro h
      by_contra hle
      push Not at hle
      have : Real.sin (ccwAngle v - ccwAngle u) ≤ 0 :=
        Real.sin_nonpos_of_nonpos_of_neg_pi_le (by linarith) (by linarith)
      have := mul_nonpos_of_nonneg_of_nonpos (mul_pos pu pv).le this
      linarith
    · intro h
      exact mul_pos (mul_pos pu pv) (Real.sin_pos_of_pos_of_lt_pi (by linarith) (by linarith))
  · rw [if_neg hh, Bool.and_eq_true, Bool.not_eq_true']
    constructor
    · rintro ⟨h1, h2⟩
      have n1 : ¬ Real.pi ≤ ccwAngle u := by rw [← lu, h1]; simp
      have n2 := lv.1 h2
      linarith
    · intro h
      cases h1 : lowerHalf u
      · refine ⟨rfl, ?_⟩
        cases h2 : lowerHalf v
        · rw [h1, h2] at hh; exact absurd rfl hh
        · rfl
      · cases h2 : lowerHalf v
        · have n1 := lu.1 h1
          have n2 : ¬ Real.pi ≤ ccwAngle v := by rw [← lv, h2]; simp
          linarith
        · rw [h1, h2] at hh; exact absurd rfl hh

theorem SD_iff_angle {u v : Coord} (hu : u ≠ ⟨0, 0⟩) (hv : v ≠ ⟨0, 0⟩) :
    SD u v ↔ ccwAngle u = ccwAngle v := by
  obtain ⟨u0, u1⟩ := angle_range u
  obtain ⟨v0, v1⟩ := angle_range v
  have pu := len_pos hu
  have pv := len_pos hv
  have hpi := Real.pi_pos
  constructor
  · rintro ⟨h1, h2⟩
    have e1 := cross_sin u v
    have e2 := dot_cos u v
    rw [h1] at e1
    have h2' : (0 : ℝ) < ((u.dot v : ℤ) : ℝ) := by exact_mod_cast h2
    have s0 : Real.sin (ccwAngle v - ccwAngle u) = 0 := by
      have := e1.symm
      simp only [Int.cast_zero] at this
      rcases mul_eq_zero.1 this with h | h
      · exact absurd h (mul_pos pu pv).ne'
      · exact h
    have c0 : 0 < Real.cos (ccwAngle v - ccwAngle u) := by
      rw [e2] at h2'
      exact pos_of_mul_pos_right h2' (mul_pos pu pv).le
    have c1 : Real.cos (ccwAngle v - ccwAngle u) = 1 := by
      have := Real.sin_sq_add_cos_sq (ccwAngle v - ccwAngle u)
      rw [s0] at this
      nlinarith
    have := (Real.cos_eq_one_iff_of_lt_of_lt (by linarith) (by linarith)).1 c1
    linarith
  · intro h
    have e1 := cross_sin u v
    have e2 := dot_cos u v
    rw [h, sub_self, Real.sin_zero, mul_zero] at e1
    rw [h, sub_self, Real.cos_zero, mul_one] at e2
    refine ⟨by exact_mod_cast e1, ?_⟩
    have : (0 : ℝ) < ((u.dot v : ℤ) : ℝ) := by rw [e2]; exact mul_pos pu pv
    exact_mod_cast this

theorem neg_le_sin {x : ℝ} (h : 0 ≤ x) : -x ≤ Real.sin x := by
  rcases le_total x Real.pi with hp | hp
  · have := Real.sin_nonneg_of_nonneg_of_le_pi h hp
    linarith
  · have := Real.neg_one_le_sin x
    have := Real.two_le_pi
    linarith

theorem abs_sin_le (x : ℝ) : |Real.sin x| ≤ |x| := by
  rcases le_total 0 x with h | h
  · rw [abs_of_nonneg h, abs_le]
    exact ⟨neg_le_sin h, Real.sin_le h⟩
  · rw [abs_of_nonpos h, abs_le]
    have h1 := Real.sin_le (x := -x) (by linarith)
    have h2 := neg_le_sin (x := -x) (by linarith)
    rw [Real.sin_neg] at h1 h2
    constructor <;> linarith

/-! ### The distance comparison on one ray -/

/-- The rounded sum of two squares. -/
theorem magSq_err_of {v : Coord} {X Y : ℚ}
    (e1 : |X - v.lon * v.lon / 1000000000000| ≤ 6 * |(v.lon : ℚ) * v.lon| / 1000000000000 / 2 ^ 53)
    (e2 : |Y - v.lat * v.lat / 1000000000000| ≤ 6 * |(v.lat : ℚ) * v.lat| / 1000000000000 / 2 ^ 53) :
    |fl (X + Y) - (v.lon * v.lon + v.lat * v.lat : ℤ) / 1000000000000| ≤
      8 * ((v.lon * v.lon + v.lat * v.lat : ℤ) : ℚ) / 1000000000000 / 2 ^ 53 := by
  have e1 := abs_le.1 e1
  have e2 := abs_le.1 e2
  rw [abs_mul_self] at e1 e2
  push_cast
  set A := (v.lon : ℚ) * v.lon with hA
  set B := (v.lat : ℚ) * v.lat with hB
  have hA0 : 0 ≤ A := mul_self_nonneg _
  have hB0 : 0 ≤ B := mul_self_nonneg _
  have h1 : |X + Y - (A + B) / 1000000000000| ≤ 6 * (A + B) / 1000000000000 / 2 ^ 53 := by
    rw [abs_le]
    have i1 : 6 * (A + B) / 1000000000000 / 2 ^ 53 =
      6 * A / 1000000000000 / 2 ^ 53 + 6 * B / 1000000000000 / 2 ^ 53 := by ring
    have i2 : (A + B) / 1000000000000 = A / 1000000000000 + B / 1000000000000 := by ring
    constructor <;> linarith [e1.1, e1.2, e2.1, e2.2]
  have h2 : |X + Y| ≤ (A + B) / 1000000000000 * 2 := by
    have h := abs_le.1 h1
    have : 6 * (A + B) / 1000000000000 / 2 ^ 53 ≤ (A + B) / 1000000000000 := by
      rw [div_le_iff₀ (by positivity)]
      have : 0 ≤ (A + B) / 1000000000000 := by positivity
      have e : 6 * (A + B) / 1000000000000 = 6 * ((A + B) / 1000000000000) := by ring
      rw [e]; nlinarith
    have : 0 ≤ (A + B) / 1000000000000 := by positivity
    rw [abs_le]; constructor <;> linarith [h.1, h.2]
  have h3 : |fl (X + Y) - (X + Y)| ≤ (A + B) / 1000000000000 * 2 / 2 ^ 53 :=
    (fl_err _).trans (by gcongr)
  rw [show fl (X + Y) - (A + B) / 1000000000000 =
    (fl (X + Y) - (X + Y)) + (X + Y - (A + B) / 1000000000000) by ring]
  refine (abs_add_le _ _).trans ((add_le_add h3 h1).trans (le_of_eq ?_))
  ring

theorem magSqDeg_err (v : Coord) :
    |v.magSqDeg - (v.lon * v.lon + v.lat * v.lat : ℤ) / 1000000000000| ≤
      8 * ((v.lon * v.lon + v.lat * v.lat : ℤ) : ℚ) / 1000000000000 / 2 ^ 53 :=
  magSq_err_of (prod_deg_err _ _) (prod_deg_err _ _)

theorem abs_gap {x y : ℤ} {k : ℚ} (hk : 1 < k) (hx : x ≠ 0) (h : (y : ℚ) = k * x) :
    |x| + 1 ≤ |y| := by
  have hxq : (0 : ℚ) < |(x : ℚ)| := by
    rw [abs_pos]; exact_mod_cast hx
  have : |(y : ℚ)| = k * |(x : ℚ)| := by rw [h, abs_mul, abs_of_pos (by linarith)]
  have h2 : |(x : ℚ)| < |(y : ℚ)| := by rw [this]; nlinarith
  have : |x| < |y| := by exact_mod_cast h2
  omega

theorem magSq_lt_of {f : Coord → ℚ}
    (hf : ∀ v : Coord, |f v - (v.lon * v.lon + v.lat * v.lat : ℤ) / 1000000000000| ≤
      8 * ((v.lon * v.lon + v.lat * v.lat : ℤ) : ℚ) / 1000000000000 / 2 ^ 53)
    {u v : Coord} (hu : FitsI32 u.lon ∧ FitsI32 u.lat) (h : SD u v)
    (hm : u.lon * u.lon + u.lat * u.lat < v.lon * v.lon + v.lat * v.lat) :
    f u < f v := by
  have hun := h.left_ne
  have hmu := magSq_pos hun
  obtain ⟨k, k1, k2⟩ := (cross_eq_zero_iff hun).1 h.1
  set Mu := u.lon * u.lon + u.lat * u.lat with hMu
  set Mv := v.lon * v.lon + v.lat * v.lat with hMv
  have hMuq : (0 : ℚ) < Mu := by exact_mod_cast hmu
  have hdot : ((u.dot v : ℤ) : ℚ) = k * Mu := by
    rw [hMu]; unfold Coord.dot; push_cast; rw [k1, k2]; ring
  have hk0 : 0 < k := by
    have : (0 : ℚ) < ((u.dot v : ℤ) : ℚ) := by exact_mod_cast h.2
    rw [hdot] at this
    exact pos_of_mul_pos_left this hMuq.le
  have hMvq : (Mv : ℚ) = k ^ 2 * Mu := by
    rw [hMu, hMv]; push_cast; rw [k1, k2]; ring
  have hmq : (Mu : ℚ) < Mv := by exact_mod_cast hm
  have hk1 : 1 < k := by
    by_contra hc
    push Not at hc
    have : k ^ 2 ≤ 1 := by nlinarith
    nlinarith
  -- the relative gap
  have hgap : (Mu : ℚ) * (1 + 1 / 2 ^ 31) ≤ Mv := by
    have hk2 : 1 + 1 / 2 ^ 31 ≤ k := by
      have key : ∀ x y : ℤ, FitsI32 x → x ≠ 0 → (y : ℚ) = k * x → 1 + 1 / 2 ^ 31 ≤ k := by
        intro x y hx hx0 hy
        have g := abs_gap hk1 hx0 hy
        have hxa : |x| ≤ 2147483648 := by unfold FitsI32 at hx; rw [abs_le]; omega
        have hxq : (0 : ℚ) < |(x : ℚ)| := by rw [abs_pos]; exact_mod_cast hx0
        have hyq : |(y : ℚ)| = k * |(x : ℚ)| := by rw [hy, abs_mul, abs_of_pos hk0]
        have gq : |(x : ℚ)| + 1 ≤ |(y : ℚ)| := by exact_mod_cast g
        have hxaq : |(x : ℚ)| ≤ 2147483648 := by exact_mod_cast hxa
        rw [hyq] at gq
        by_contra hc
        push Not at hc
        have : k * |(x : ℚ)| < (1 + 1 / 2 ^ 31) * |(x : ℚ)| := by gcongr
        have : (1 + 1 / 2 ^ 31) * |(x : ℚ)| ≤ |(x : ℚ)| + 1 := by
          have : (1 : ℚ) / 2 ^ 31 * |(x : ℚ)| ≤ 1 / 2 ^ 31 * 2147483648 := by gcongr
          norm_num at this ⊢
          linarith
        linarith
      by_cases hx : u.lon = 0
      · have hy : u.lat ≠ 0 := fun hy => hun (Coord.ext' hx hy)
        exact key _ _ hu.2 hy k2
      · exact key _ _ hu.1 hx k1
    rw [hMvq]
    have : 1 + 1 / 2 ^ 31 ≤ k ^ 2 := by nlinarith
    nlinarith
  have eu := (abs_le.1 (hf u)).2
  have ev := (abs_le.1 (hf v)).1
  rw [← hMu] at eu
  rw [← hMv] at ev
  have hfin : (Mu : ℚ) / 1000000000000 + 8 * Mu / 1000000000000 / 2 ^ 53 <
      (Mv : ℚ) / 1000000000000 - 8 * Mv / 1000000000000 / 2 ^ 53 := by
    rw [show (Mu : ℚ) / 1000000000000 + 8 * Mu / 1000000000000 / 2 ^ 53 =
      Mu * (1 + 8 / 2 ^ 53) / 1000000000000 by ring,
      show (Mv : ℚ) / 1000000000000 - 8 * Mv / 1000000000000 / 2 ^ 53 =
      Mv * (1 - 8 / 2 ^ 53) / 1000000000000 by ring]
    refine div_lt_div_of_pos_right ?_ (by norm_num)
    have h1 : (Mu : ℚ) * (1 + 1 / 2 ^ 31) * (1 - 8 / 2 ^ 53) ≤ Mv * (1 - 8 / 2 ^ 53) :=
      mul_le_mul_of_nonneg_right hgap (by norm_num)
    have h2 : (Mu : ℚ) * (1 + 8 / 2 ^ 53) < Mu * (1 + 1 / 2 ^ 31) * (1 - 8 / 2 ^ 53) := by
      rw [mul_assoc]
      exact mul_lt_mul_of_pos_left (by norm_num) hMuq
    linarith
  linarith

theorem SD_eq_of_magSq {u v : Coord} (h : SD u v)
    (hm : u.lon * u.lon + u.lat * u.lat = v.lon * v.lon + v.lat * v.lat) : u = v := by
  obtain ⟨h1, h2⟩ := h
  unfold Coord.cross at h1
  unfold Coord.dot at h2
  have e : (u.lon * v.lon + u.lat * v.lat) ^ 2 =
      (u.lon * u.lon + u.lat * u.lat) * (v.lon * v.lon + v.lat * v.lat) := by
    have : (u.lon * u.lon + u.lat * u.lat) * (v.lon * v.lon + v.lat * v.lat) =
      (u.lon * v.lon + u.lat * v.lat) ^ 2 + (u.lon * v.lat - v.lon * u.lat) ^ 2 := by ring
    rw [this, h1]; ring
  rw [← hm, ← sq] at e
  have hnn : 0 ≤ u.lon * u.lon + u.lat * u.lat :=
    add_nonneg (mul_self_nonneg _) (mul_self_nonneg _)
  have e2 : u.lon * v.lon + u.lat * v.lat = u.lon * u.lon + u.lat * u.lat := by
    rcases sq_eq_sq_iff_eq_or_eq_neg.1 e with h | h <;> omega
  have e3 : (u.lon - v.lon) * (u.lon - v.lon) + (u.lat - v.lat) * (u.lat - v.lat) = 0 := by
    linarith
  have s1 := mul_self_nonneg (u.lon - v.lon)
  have s2 := mul_self_nonneg (u.lat - v.lat)
  have t1 : u.lon - v.lon = 0 := mul_self_eq_zero.1 (by linarith)
  have t2 : u.lat - v.lat = 0 := mul_self_eq_zero.1 (by linarith)
  exact Coord.ext' (by omega) (by omega)

/-- On one ray, lengths up to rounding compare as the lengths do. -/
theorem magSq_lt_iff_of {f : Coord → ℚ}
    (hf : ∀ v : Coord, |f v - (v.lon * v.lon + v.lat * v.lat : ℤ) / 1000000000000| ≤
      8 * ((v.lon * v.lon + v.lat * v.lat : ℤ) : ℚ) / 1000000000000 / 2 ^ 53)
    {u v : Coord} (hu : FitsI32 u.lon ∧ FitsI32 u.lat)
    (hv : FitsI32 v.lon ∧ FitsI32 v.lat) (h : SD u v) :
    f u < f v ↔
      u.lon * u.lon + u.lat * u.lat < v.lon * v.lon + v.lat * v.lat := by
  refine ⟨fun hlt => ?_, magSq_lt_of hf hu h⟩
  rcases lt_trichotomy (u.lon * u.lon + u.lat * u.lat) (v.lon * v.lon + v.lat * v.lat) with
    h' | h' | h'
  · exact h'
  · rw [SD_eq_of_magSq h h'] at hlt; exact absurd hlt (lt_irrefl _)
  · exact absurd (magSq_lt_of hf hv h.symm h') (not_lt.2 hlt.le)

theorem magSqDeg_lt {u v : Coord} (hu : FitsI32 u.lon ∧ FitsI32 u.lat) (h : SD u v)
    (hm : u.lon * u.lon + u.lat * u.lat < v.lon * v.lon + v.lat * v.lat) :
    u.magSqDeg < v.magSqDeg := magSq_lt_of magSqDeg_err hu h hm

theorem magSqDeg_lt_iff {u v : Coord} (hu : FitsI32 u.lon ∧ FitsI32 u.lat)
    (hv : FitsI32 v.lon ∧ FitsI32 v.lat) (h : SD u v) :
    u.magSqDeg < v.magSqDeg ↔
      u.lon * u.lon + u.lat * u.lat < v.lon * v.lon + v.lat * v.lat :=
  magSq_lt_iff_of magSqDeg_err hu hv h

/-! ### The comparison lambda -/

theorem offset_eq (obs c : Coord) : offset obs c = c.sub obs :=
  Coord.ext' (by rw [sub_lon]; rfl) (by rw [sub_lat]; rfl)

theorem fits_vec {c : Coord} (h : c.Vec) : FitsI32 c.lon ∧ FitsI32 c.lat := by
  unfold Coord.Vec at h; unfold FitsI32
  have := abs_le.1 h.1
  have := abs_le.1 h.2
  omega

theorem less_iff {obs a b : Coord} (ho : obs.Per) (ha : a.Per) (hb : b.Per) (hab : a ≠ b) :
    less obs a b = true ↔ SweepBefore obs a b := by
  unfold less lessWith SweepBefore
  rw [offset_eq, offset_eq]
  by_cases h1 : a = obs
  · subst h1
    simp only [if_true, true_and, ne_eq, not_true_eq_false, false_and, or_false, true_iff]
    exact fun h => hab h.symm
  · by_cases h2 : b = obs
    · subst h2; simp [h1]
    · rw [if_neg h1, if_neg h2]
      have n1 : a.sub obs ≠ ⟨0, 0⟩ := fun h => h1 (sub_eq_zero_iff.1 h)
      have n2 : b.sub obs ≠ ⟨0, 0⟩ := fun h => h2 (sub_eq_zero_iff.1 h)
      simp only [h1, h2, ne_eq, not_false_eq_true, and_true, true_and, false_or]
      have hsd : ¬ (((a.sub obs).orient (b.sub obs) ≠ .collinear ∨
          (a.sub obs).dot (b.sub obs) < 0)) ↔ SD (a.sub obs) (b.sub obs) := by
        have ho := (orient_cases (a.sub obs) (b.sub obs)).2.2
        have hc : ((((a.sub obs).cross (b.sub obs) : ℤ)) : ℚ) = 0 ↔
          (a.sub obs).cross (b.sub obs) = 0 := by norm_cast
        rw [hc] at ho
        push Not
        rw [ho]
        unfold SD
        refine and_congr_right fun hcr => ⟨fun h => lt_of_le_of_ne h fun hd => ?_, fun h => h.le⟩
        have p1 := magSq_pos n1
        have p2 := magSq_pos n2
        have : ((a.sub obs).lon * (a.sub obs).lon + (a.sub obs).lat * (a.sub obs).lat) *
          ((b.sub obs).lon * (b.sub obs).lon + (b.sub obs).lat * (b.sub obs).lat) =
          (a.sub obs).cross (b.sub obs) ^ 2 + (a.sub obs).dot (b.sub obs) ^ 2 := by
          simp only [Coord.cross, Coord.dot]; ring
        rw [hcr, ← hd] at this
        have := mul_pos p1 p2
        simp at *
        omega
      by_cases hs : SD (a.sub obs) (b.sub obs)
      · rw [if_neg (hsd.2 hs), decide_eq_true_eq,
          magSqDeg_lt_iff (fits_vec (Coord.Per.vec_sub ha ho)) (fits_vec (Coord.Per.vec_sub hb ho)) hs]
        have he := (SD_iff_angle n1 n2).1 hs
        rw [he]
        simp only [lt_self_iff_false, true_and, false_or, sub_lon, sub_lat, sq]
      · rw [if_pos (by by_contra hc; exact hs (hsd.1 hc)), angleLt_iff n1 n2]
        have hne : ccwAngle (a.sub obs) ≠ ccwAngle (b.sub obs) := fun h =>
          hs ((SD_iff_angle n1 n2).2 h)
        simp [hne]

theorem sweep_trans {obs a b c : Coord} (h1 : SweepBefore obs a b) (h2 : SweepBefore obs b c) :
    SweepBefore obs a c := by
  unfold SweepBefore at *
  rcases h1 with ⟨h1, h1'⟩ | ⟨h1, h1', h1''⟩
  · rcases h2 with ⟨h2, _⟩ | ⟨_, h2', _⟩
    · exact absurd h2 h1'
    · exact Or.inl ⟨h1, h2'⟩
  · rcases h2 with ⟨h2, _⟩ | ⟨_, h2', h2''⟩
    · exact absurd h2 h1'
    · refine Or.inr ⟨h1, h2', ?_⟩
      rcases h1'' with h | ⟨h, h'⟩ <;> rcases h2'' with g | ⟨g, g'⟩
      · exact Or.inl (h.trans g)
      · exact Or.inl (g ▸ h)
      · exact Or.inl (h ▸ g)
      · exact Or.inr ⟨h.trans g, h'.trans g'⟩

theorem sweep_irrefl (obs a : Coord) : ¬ SweepBefore obs a a := by
  rintro (⟨h, h'⟩ | ⟨_, _, h | ⟨_, h⟩⟩)
  · exact h' h
  · exact lt_irrefl _ h
  · exact lt_irrefl _ h

theorem sweep_total {obs a b : Coord} (hab : a ≠ b) : SweepBefore obs a b ∨ SweepBefore obs b a := by
  unfold SweepBefore
  by_cases h1 : a = obs
  · exact Or.inl (Or.inl ⟨h1, fun h => hab (h1.trans h.symm)⟩)
  · by_cases h2 : b = obs
    · exact Or.inr (Or.inl ⟨h2, h1⟩)
    · rcases lt_trichotomy (ccwAngle (offset obs a)) (ccwAngle (offset obs b)) with h | h | h
      · exact Or.inl (Or.inr ⟨h1, h2, Or.inl h⟩)
      · rcases lt_trichotomy ((a.lon - obs.lon) ^ 2 + (a.lat - obs.lat) ^ 2)
          ((b.lon - obs.lon) ^ 2 + (b.lat - obs.lat) ^ 2) with g | g | g
        · exact Or.inl (Or.inr ⟨h1, h2, Or.inr ⟨h, g⟩⟩)
        · exfalso; apply hab
          rw [offset_eq, offset_eq] at h
          have n1 : a.sub obs ≠ ⟨0, 0⟩ := fun h => h1 (sub_eq_zero_iff.1 h)
          have n2 : b.sub obs ≠ ⟨0, 0⟩ := fun h => h2 (sub_eq_zero_iff.1 h)
          have hs := (SD_iff_angle n1 n2).2 h
          have := SD_eq_of_magSq hs (by simp only [sub_lon, sub_lat]; linarith [g])
          have e1 := congrArg Coord.lon this
          have e2 := congrArg Coord.lat this
          rw [sub_lon, sub_lon] at e1
          rw [sub_lat, sub_lat] at e2
          exact Coord.ext' (by omega) (by omega)
        · exact Or.inr (Or.inr ⟨h2, h1, Or.inr ⟨h.symm, g⟩⟩)
      · exact Or.inr (Or.inr ⟨h2, h1, Or.inl h⟩)

/-! ### Sorting -/

theorem insertBy_perm (obs c : Coord) (l : List Coord) : (insertBy obs c l).Perm (c :: l) := by
  induction l with
  | nil => exact List.Perm.refl _
  | cons d r ih =>
    rw [insertBy]
    split_ifs
    · exact List.Perm.refl _
    · exact (List.Perm.cons d ih).trans (List.Perm.swap c d r)

theorem sort_perm (obs : Coord) (l : List Coord) : (sort obs l).Perm l := by
  induction l with
  | nil => exact List.Perm.refl _
  | cons c r ih => exact (insertBy_perm obs c _).trans (List.Perm.cons c ih)

theorem insertBy_sorted {obs c : Coord} {l : List Coord} (ho : obs.Per) (hc : c.Per)
    (hl : ∀ x ∈ l, x.Per) (hn : c ∉ l) (h : l.Pairwise (SweepBefore obs)) :
    (insertBy obs c l).Pairwise (SweepBefore obs) := by
  induction l with
  | nil => simp [insertBy]
  | cons d r ih =>
    rw [insertBy]
    have hcd : c ≠ d := fun h => hn (by simp [h])
    rw [List.pairwise_cons] at h
    have hd := hl d (by simp)
    split_ifs with hk
    · have hb := (less_iff ho hc hd hcd).1 hk
      rw [List.pairwise_cons, List.pairwise_cons]
      refine ⟨?_, h⟩
      intro x hx
      rcases List.mem_cons.1 hx with rfl | hx
      · exact hb
      · exact sweep_trans hb (h.1 x hx)
    · rw [List.pairwise_cons]
      refine ⟨?_, ih (fun x hx => hl x (by simp [hx])) (fun h => hn (by simp [h])) h.2⟩
      intro x hx
      rcases List.mem_cons.1 ((insertBy_perm obs c r).subset hx) with rfl | hx
      · rcases sweep_total (obs := obs) hcd with g | g
        · exact absurd ((less_iff ho hc hd hcd).2 g) hk
        · exact g
      · exact h.1 x hx

theorem sort_sorted {obs : Coord} {l : List Coord} (ho : obs.Per) (hl : ∀ x ∈ l, x.Per)
    (hn : l.Nodup) : (sort obs l).Pairwise (SweepBefore obs) := by
  induction l with
  | nil => simp [sort]
  | cons c r ih =>
    rw [List.nodup_cons] at hn
    have hr : ∀ x ∈ r, x.Per := fun x hx => hl x (by simp [hx])
    exact insertBy_sorted ho (hl c (by simp))
      (fun x hx => hr x ((sort_perm obs r).subset hx))
      (fun h => hn.1 ((sort_perm obs r).subset h)) (ih hr hn.2)

end Capi
