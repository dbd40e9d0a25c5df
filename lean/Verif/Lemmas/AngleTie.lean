import Verif.Lemmas.Angle
import Mathlib.Analysis.SpecialFunctions.Trigonometric.Bounds
import Mathlib.Analysis.Real.Pi.Bounds
import Mathlib.Combinatorics.Pigeonhole
import Mathlib.Data.Int.Interval

/-!
# Rounded angles collide

Steep vectors whose exact angles are closer together than doubles in `[4, 8)`.
-/

namespace Capi

namespace AngleSorter

/-- Doubles in `[4, 8)` are multiples of `2⁻⁵⁰`. -/
theorem double_grid {x : ℚ} (h : fl x = x) (h4 : 4 ≤ x) (h8 : x < 8) :
    ∃ k : ℤ, x = k / 2 ^ 50 := by
  refine ⟨rne (x / 2 ^ ((2 : ℤ) - 52)), ?_⟩
  have h0 : |x| = x := abs_of_nonneg (by linarith)
  have := fl_eval (x := x) 2 _ (by rw [h0]; norm_num; exact h4) (by rw [h0]; norm_num; exact h8) rfl
  rw [h] at this
  conv_lhs => rw [this]
  rw [div_eq_mul_inv, ← zpow_natCast, ← zpow_neg]
  norm_num [div_eq_mul_inv]

/-- The vectors used: almost straight down. -/
def steep (b : ℤ) : Coord := ⟨2, -2 * b⟩

theorem steep_ne (b : ℤ) : steep b ≠ ⟨0, 0⟩ := by
  unfold steep; intro h; injection h with h1; omega

theorem steep_len {b : ℤ} (h : 0 ≤ b) : 2 * (b : ℝ) ≤ (steep b).len := by
  have e := len_sq (steep b)
  have hl := (len_pos (steep_ne b)).le
  have hb : (0 : ℝ) ≤ b := by exact_mod_cast h
  unfold steep at e
  push_cast at e
  by_contra hc
  push Not at hc
  have : (steep b).len ^ 2 < (2 * (b : ℝ)) ^ 2 := by
    apply pow_lt_pow_left₀ hc hl; norm_num
  unfold steep at this
  nlinarith

theorem steep_angle {b : ℤ} (h : 0 < b) :
    3 * Real.pi / 2 < ccwAngle (steep b) ∧ ccwAngle (steep b) < 2 * Real.pi := by
  have hr := angle_range (steep b)
  refine ⟨?_, hr.2⟩
  have hlow : lowerHalf (steep b) = true := by
    unfold lowerHalf steep; simp; omega
  have hpi := (lowerHalf_iff (steep_ne b)).1 hlow
  have hp := (angle_polar (steep b)).1
  have hl := len_pos (steep_ne b)
  by_contra hc
  push Not at hc
  have : 0 ≤ Real.cos (ccwAngle (steep b) - Real.pi) :=
    Real.cos_nonneg_of_neg_pi_div_two_le_of_le (by linarith [Real.pi_pos]) (by linarith)
  rw [Real.cos_sub_pi] at this
  have h2 : ((steep b).lon : ℝ) = 2 := by simp [steep]
  rw [h2] at hp
  nlinarith

theorem steep_near {b : ℤ} (h : 89000000 ≤ b) (h' : b ≤ 90000000) :
    |ccwAngle (steep b) - ccwAngle (steep 89000000)| ≤ 1 / 5000000000 := by
  set x := ccwAngle (steep b) - ccwAngle (steep 89000000) with hx
  have hb := steep_angle (b := b) (by omega)
  have h0 := steep_angle (b := 89000000) (by omega)
  have hx1 : |x| ≤ Real.pi / 2 := by rw [abs_le]; constructor <;> linarith
  have hc := cross_sin (steep 89000000) (steep b)
  rw [← hx] at hc
  have l0 := steep_len (b := 89000000) (by norm_num)
  have lb := steep_len (b := b) (by omega)
  have hbr : (89000000 : ℝ) ≤ b := by exact_mod_cast h
  have hprod : (178000000 : ℝ) * 178000000 ≤ (steep 89000000).len * (steep b).len := by
    apply mul_le_mul <;> norm_num at * <;> linarith
  have hcr : |(((steep 89000000).cross (steep b) : ℤ) : ℝ)| ≤ 4000000 := by
    have : |(steep 89000000).cross (steep b)| ≤ 4000000 := by
      unfold steep Coord.cross; rw [abs_le]; constructor <;> simp only <;> omega
    exact_mod_cast this
  rw [hc, abs_mul, abs_of_pos (by linarith)] at hcr
  have hs : |Real.sin x| ≤ 4000000 / (178000000 * 178000000) := by
    rw [le_div_iff₀ (by norm_num)]
    have := mul_le_mul_of_nonneg_right hprod (abs_nonneg (Real.sin x))
    linarith
  have hj : 2 / Real.pi * |x| ≤ |Real.sin x| := Real.mul_abs_le_abs_sin hx1
  have hpi := Real.pi_lt_d2
  have hpp := Real.pi_pos
  have : 2 * |x| ≤ |Real.sin x| * Real.pi := by
    rw [div_mul_eq_mul_div, div_le_iff₀ hpp] at hj; exact hj
  have h5 : |Real.sin x| * Real.pi ≤ 4000000 / (178000000 * 178000000) * 3.15 := by
    apply mul_le_mul hs hpi.le hpp.le; norm_num
  norm_num at h5 ⊢
  linarith

/-- Two different steep vectors with the same rounded angle. -/
theorem steep_tie (at2 : Coord → ℚ) (hd : ∀ v, fl (at2 v) = at2 v)
    (hη : ∀ v, |(at2 v : ℝ) - ccwAngle v| ≤ 1 / 2 ^ 49) :
    ∃ b c : ℤ, 89000000 ≤ b ∧ b < c ∧ c ≤ 90000000 ∧ at2 (steep b) = at2 (steep c) := by
  have hg : ∀ b : ℤ, ∃ k : ℤ, 0 < b → at2 (steep b) = k / 2 ^ 50 := by
    intro b
    by_cases h : 0 < b
    · have ha := steep_angle h
      have he := abs_le.1 (hη (steep b))
      have p1 := Real.pi_gt_d2
      have p2 := Real.pi_lt_d2
      have h4 : (4 : ℝ) ≤ at2 (steep b) := by norm_num at he p1 p2 ⊢; linarith
      have h8 : (at2 (steep b) : ℝ) < 8 := by norm_num at he p1 p2 ⊢; linarith
      obtain ⟨k, hk⟩ := double_grid (hd _) (by exact_mod_cast h4) (by exact_mod_cast h8)
      exact ⟨k, fun _ => hk⟩
    · exact ⟨0, fun h' => absurd h' h⟩
  choose k hk using hg
  have hin : ∀ b ∈ Finset.Icc (89000000 : ℤ) 90000000,
      k b ∈ Finset.Icc (k 89000000 - 230000) (k 89000000 + 230000) := by
    intro b hb
    rw [Finset.mem_Icc] at hb
    have hn := abs_le.1 (steep_near hb.1 hb.2)
    have e1 := abs_le.1 (hη (steep b))
    have e0 := abs_le.1 (hη (steep 89000000))
    have r1 : (at2 (steep b) : ℝ) = k b / 2 ^ 50 := by rw [hk b (by omega)]; push_cast; ring
    have r0 : (at2 (steep 89000000) : ℝ) = k 89000000 / 2 ^ 50 := by
      rw [hk 89000000 (by omega)]; push_cast; ring
    rw [r1] at e1
    rw [r0] at e0
    have hdiff : |(k b : ℝ) - k 89000000| ≤ 230000 := by
      rw [abs_le]
      norm_num at e1 e0 hn
      constructor <;> linarith
    have hz : |k b - k 89000000| ≤ 230000 := by exact_mod_cast hdiff
    rw [Finset.mem_Icc]
    have := abs_le.1 hz
    omega
  obtain ⟨b, hb, c, hc, hbc, he⟩ := Finset.exists_ne_map_eq_of_card_lt_of_maps_to
    (s := Finset.Icc (89000000 : ℤ) 90000000)
    (t := Finset.Icc (k 89000000 - 230000) (k 89000000 + 230000)) (f := k)
    (by rw [Int.card_Icc, Int.card_Icc]; omega) hin
  rw [Finset.mem_Icc] at hb hc
  have hat : at2 (steep b) = at2 (steep c) := by
    rw [hk b (by omega), hk c (by omega), he]
  rcases lt_or_gt_of_ne hbc with h | h
  · exact ⟨b, c, hb.1, h, hc.2, hat⟩
  · exact ⟨c, b, hc.1, h, hb.2, hat.symm⟩

/-- The comparison of two vectors in different directions is the comparison of angles. -/
theorem lessWith_angle (lt : Coord → Coord → Bool) {obs u v : Coord} (hc : u.cross v ≠ 0) :
    lessWith lt obs (obs.add u) (obs.add v) = lt u v := by
  have su : (obs.add u).sub obs = u := Coord.ext' (by simp [Coord.sub, Coord.add, Coord.neg])
    (by simp [Coord.sub, Coord.add, Coord.neg])
  have sv : (obs.add v).sub obs = v := Coord.ext' (by simp [Coord.sub, Coord.add, Coord.neg])
    (by simp [Coord.sub, Coord.add, Coord.neg])
  have hu : obs.add u ≠ obs := by
    intro h
    apply hc
    rw [← su, h]
    simp [Coord.sub, Coord.add, Coord.neg, Coord.cross]
  have hv : obs.add v ≠ obs := by
    intro h
    apply hc
    rw [← sv, h]
    simp [Coord.sub, Coord.add, Coord.neg, Coord.cross]
  unfold lessWith
  simp only [hu, hv, if_false, su, sv]
  rw [if_pos (Or.inl (by rw [Ne, (orient_cases u v).2.2]; exact_mod_cast hc))]

/-- The comparison of two vectors in the same direction is the comparison of lengths. -/
theorem lessWith_dist (lt : Coord → Coord → Bool) {obs u v : Coord} (h : SD u v) :
    lessWith lt obs (obs.add u) (obs.add v) = decide (u.magSqDeg < v.magSqDeg) := by
  have su : (obs.add u).sub obs = u := Coord.ext' (by simp [Coord.sub, Coord.add, Coord.neg])
    (by simp [Coord.sub, Coord.add, Coord.neg])
  have sv : (obs.add v).sub obs = v := Coord.ext' (by simp [Coord.sub, Coord.add, Coord.neg])
    (by simp [Coord.sub, Coord.add, Coord.neg])
  have hu : obs.add u ≠ obs := by
    intro hh
    have := h.2
    rw [← su, hh] at this
    simp [Coord.sub, Coord.add, Coord.neg, Coord.dot] at this
  have hv : obs.add v ≠ obs := by
    intro hh
    have := h.2
    rw [← sv, hh] at this
    simp [Coord.sub, Coord.add, Coord.neg, Coord.dot] at this
  unfold lessWith
  simp only [hu, hv, if_false, su, sv]
  rw [if_neg]
  rintro (hh | hh)
  · exact hh ((orient_cases u v).2.2.2 (by exact_mod_cast h.1))
  · have := h.2; omega

/-- The real angle rounded down to a multiple of `2⁻⁵⁰`: as good an `atan2` as doubles in
`[4, 8)` allow. -/
noncomputable def floorAngle (v : Coord) : ℚ := ⌊ccwAngle v * 2 ^ 50⌋ / 2 ^ 50

theorem floorAngle_double (v : Coord) : fl (floorAngle v) = floorAngle v := by
  have hr := angle_range v
  have p2 := Real.pi_lt_d2
  have h0 : 0 ≤ ⌊ccwAngle v * 2 ^ 50⌋ := Int.floor_nonneg.2 (by nlinarith)
  have h1 : ⌊ccwAngle v * 2 ^ 50⌋ ≤ 2 ^ 53 := by
    have := Int.floor_le (ccwAngle v * 2 ^ 50)
    have h : (⌊ccwAngle v * 2 ^ 50⌋ : ℝ) ≤ 2 ^ 53 := by norm_num at this p2 ⊢; linarith
    exact_mod_cast h
  have := fl_exact ⌊ccwAngle v * 2 ^ 50⌋ (-50) (by rw [abs_of_nonneg h0]; exact h1)
  have e : floorAngle v = ⌊ccwAngle v * 2 ^ 50⌋ * 2 ^ (-50 : ℤ) := by
    unfold floorAngle; rw [zpow_neg, div_eq_mul_inv]; norm_cast
  rw [e]; exact this

theorem floorAngle_near (v : Coord) : |(floorAngle v : ℝ) - ccwAngle v| ≤ 1 / 2 ^ 50 := by
  have h1 := Int.floor_le (ccwAngle v * 2 ^ 50)
  have h2 := Int.lt_floor_add_one (ccwAngle v * 2 ^ 50)
  unfold floorAngle
  push_cast
  generalize ((⌊ccwAngle v * 2 ^ 50⌋ : ℤ) : ℝ) = k at h1 h2 ⊢
  rw [abs_le]
  norm_num at h1 h2 ⊢
  constructor <;> linarith

theorem floorAngle_twice (v : Coord) : floorAngle ⟨2 * v.lon, 2 * v.lat⟩ = floorAngle v := by
  by_cases h : v = ⟨0, 0⟩
  · subst h; rfl
  · unfold floorAngle
    have h2 : (⟨2 * v.lon, 2 * v.lat⟩ : Coord) ≠ ⟨0, 0⟩ := by
      intro hh; injection hh with a b
      exact h (Coord.ext' (by simp only; omega) (by simp only; omega))
    rw [(SD_iff_angle h2 h).1 ⟨by unfold Coord.cross; simp only; ring, by
      have := magSq_pos h
      unfold Coord.dot; simp only; linarith⟩]

end AngleSorter

end Capi
