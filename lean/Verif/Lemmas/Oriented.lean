import Verif.Lemmas.Crossing

/-!
# A line that goes round nothing counter-clockwise has no positive area
-/

namespace Capi

namespace Jordan

open Complex Filter Topology MeasureTheory

variable {P : ℕ → ℂ} {n : ℕ}

/-- Whether the segment has a place straight above or below `x`, and its direction. -/
noncomputable def over (a b : ℂ) (x : ℝ) : ℝ :=
  if a.re < x ∧ x < b.re then 1 else if b.re < x ∧ x < a.re then -1 else 0

/-- The height of this place. -/
noncomputable def height (a b : ℂ) (x : ℝ) : ℝ :=
  a.im + (b.im - a.im) * (x - a.re) / (b.re - a.re)

theorem pass_over (a b : ℂ) (x y : ℝ) :
    (pass a b ⟨x, y⟩ : ℝ) = over a b x * (if height a b x < y then 1 else 0) := by
  unfold pass over
  by_cases h1 : a.re < x ∧ x < b.re
  · have hd : 0 < b.re - a.re := by linarith [h1.1, h1.2]
    have ht : 0 < turn a b ⟨x, y⟩ ↔ height a b x < y := by
      unfold turn height
      rw [← sub_pos (b := a.im + _)]
      have : y - (a.im + (b.im - a.im) * (x - a.re) / (b.re - a.re)) =
          ((b.re - a.re) * (y - a.im) - (b.im - a.im) * (x - a.re)) / (b.re - a.re) := by
        field_simp
        ring
      rw [this]
      simp only
      constructor
      · intro h; positivity
      · intro h
        by_contra hc
        have := div_nonpos_of_nonpos_of_nonneg (not_lt.1 hc) hd.le
        linarith
    simp only [h1, true_and, ht, if_true, one_mul]
    split
    · simp
    · rw [if_neg (fun h => by linarith [h.1, h1.1])]
      simp
  · rw [if_neg h1, if_neg (fun h => h1 ⟨h.1, h.2.1⟩)]
    by_cases h2 : b.re < x ∧ x < a.re
    · have hd : b.re - a.re < 0 := by linarith [h2.1, h2.2]
      have ht : turn a b ⟨x, y⟩ < 0 ↔ height a b x < y := by
        unfold turn height
        rw [← sub_pos (b := a.im + _)]
        have : y - (a.im + (b.im - a.im) * (x - a.re) / (b.re - a.re)) =
            ((b.re - a.re) * (y - a.im) - (b.im - a.im) * (x - a.re)) / (b.re - a.re) := by
          have := hd.ne
          field_simp
          ring
        rw [this]
        simp only
        constructor
        · intro h; exact div_pos_of_neg_of_neg h hd
        · intro h
          by_contra hc
          have := div_nonpos_of_nonneg_of_nonpos (not_lt.1 hc) hd.le
          linarith
      simp only [h2, true_and, ht, if_true]
      split <;> simp
    · rw [if_neg h2, if_neg (fun h => h2 ⟨h.1, h.2.1⟩)]
      simp

/-- A place of the segment has the height of the segment. -/
theorem height_on {a b z : ℂ} (hz : z ∈ segment ℝ a b) (ha : a.re ≠ z.re) (hb : b.re ≠ z.re) :
    height a b z.re = z.im ∧ over a b z.re ≠ 0 := by
  obtain ⟨u, t, hu, ht, hut, rfl⟩ := hz
  obtain rfl : u = 1 - t := by linarith
  simp only [add_re, real_smul, mul_re, ofReal_re, ofReal_im, zero_mul, sub_zero, add_im, mul_im,
    add_zero] at *
  have hne : b.re - a.re ≠ 0 := by
    intro h0
    apply ha
    rw [sub_eq_zero] at h0
    rw [h0]
    ring
  have ht0 : 0 < t := by
    refine lt_of_le_of_ne ht fun h0 => ha ?_
    rw [← h0]; ring
  have ht1 : t < 1 := by
    refine lt_of_le_of_ne (by linarith) fun h0 => hb ?_
    rw [h0]; ring
  constructor
  · unfold height
    field_simp
    ring
  · unfold over
    rcases lt_or_gt_of_ne hne with h | h
    · rw [if_neg (fun k => by nlinarith [k.1]), if_pos ⟨by nlinarith, by nlinarith⟩]
      norm_num
    · rw [if_pos ⟨by nlinarith, by nlinarith⟩]
      norm_num

/-- On a vertical line the heights count with their signs. -/
theorem heights_nonneg (hn : P n = P 0) (hneg : ∀ x, x ∉ curve P n → total P n x ≤ 0)
    (hzero : ∃ R : ℝ, ∀ x : ℂ, R < x.im → total P n x = 0 ∧ x ∉ curve P n) {x : ℝ}
    (hx : ∀ i ≤ n, (P i).re ≠ x) :
    0 ≤ ∑ i ∈ Finset.range n, over (P i) (P (i + 1)) x * height (P i) (P (i + 1)) x := by
  have hpi := Real.pi_pos
  set s : ℕ → ℝ := fun i => over (P i) (P (i + 1)) x with hs
  set y : ℕ → ℝ := fun i => height (P i) (P (i + 1)) x with hy
  have hcount : ∀ t : ℝ, (⟨x, t⟩ : ℂ) ∉ curve P n → total P n ⟨x, t⟩ =
      2 * Real.pi * ∑ i ∈ Finset.range n, s i * (if y i < t then 1 else 0) := by
    intro t ht
    rw [total_pass hn ht hx]
    push_cast
    congr 1
    exact Finset.sum_congr rfl fun i _ => pass_over _ _ _ _
  obtain ⟨R, hR⟩ := hzero
  obtain ⟨Y, hY⟩ : ∃ Y : ℝ, R < Y ∧ ∀ i < n, y i < Y := by
    obtain ⟨M, hM⟩ := ((Finset.range n).image y).exists_le
    refine ⟨max R M + 1, by linarith [le_max_left R M], fun i hi => ?_⟩
    have := hM (y i) (Finset.mem_image_of_mem y (Finset.mem_range.2 hi))
    linarith [le_max_right R M]
  have hsum : ∑ i ∈ Finset.range n, s i = 0 := by
    obtain ⟨h1, h2⟩ := hR ⟨x, Y⟩ hY.1
    rw [hcount Y h2] at h1
    have h3 := (mul_eq_zero.1 h1).resolve_left (by positivity)
    rw [← h3]
    refine Finset.sum_congr rfl fun i hi => ?_
    rw [if_pos (hY.2 i (Finset.mem_range.1 hi)), mul_one]
  have hint : ∫ t, ∑ i ∈ Finset.range n, s i * (Set.Ioc (y i) Y).indicator (fun _ => (1 : ℝ)) t =
      ∑ i ∈ Finset.range n, s i * (Y - y i) := by
    rw [integral_finsetSum]
    · refine Finset.sum_congr rfl fun i hi => ?_
      rw [integral_const_mul, integral_indicator measurableSet_Ioc]
      simp [(hY.2 i (Finset.mem_range.1 hi)).le]
    · intro i _
      refine Integrable.const_mul ?_ _
      rw [integrable_indicator_iff measurableSet_Ioc]
      exact (continuous_const.integrableOn_Icc).mono_set Set.Ioc_subset_Icc_self
  have hle : ∫ t, ∑ i ∈ Finset.range n, s i * (Set.Ioc (y i) Y).indicator (fun _ => (1 : ℝ)) t ≤ 0 := by
    refine integral_nonpos_of_ae ?_
    have hfin : (y '' (Finset.range n : Set ℕ)).Finite := (Finset.finite_toSet _).image y
    have hae : ∀ᵐ t : ℝ, t ∉ y '' (Finset.range n : Set ℕ) :=
      measure_eq_zero_iff_ae_notMem.1 (hfin.measure_zero volume)
    filter_upwards [hae] with t ht
    simp only [Pi.zero_apply]
    by_cases htY : t ≤ Y
    · have hoff : (⟨x, t⟩ : ℂ) ∉ curve P n := by
        rintro ⟨i, hi, hz⟩
        have := (height_on hz (hx i (by omega)) (hx (i + 1) (by omega))).1
        exact ht ⟨i, by simpa using hi, this⟩
      have h1 := hneg _ hoff
      rw [hcount t hoff] at h1
      have h2 : ∑ i ∈ Finset.range n, s i * (if y i < t then 1 else 0) ≤ 0 := by
        by_contra hc
        have := mul_pos (mul_pos two_pos hpi) (not_le.1 hc)
        linarith
      refine le_trans (le_of_eq ?_) h2
      refine Finset.sum_congr rfl fun i hi => ?_
      simp only [Set.indicator, Set.mem_Ioc, htY, and_true]
    · refine le_of_eq (Finset.sum_eq_zero fun i hi => ?_)
      simp [Set.indicator, htY]
  rw [hint] at hle
  have : ∑ i ∈ Finset.range n, s i * (Y - y i) = Y * ∑ i ∈ Finset.range n, s i -
      ∑ i ∈ Finset.range n, s i * y i := by
    rw [Finset.mul_sum, ← Finset.sum_sub_distrib]
    exact Finset.sum_congr rfl fun i _ => by ring
  rw [this, hsum] at hle
  linarith

/-- The area between a segment and the axis. -/
theorem integral_over (a b : ℂ) :
    Integrable (fun x => over a b x * height a b x) ∧
    ∫ x, over a b x * height a b x = (b.re - a.re) * (a.im + b.im) / 2 := by
  have lin : ∀ p q : ℝ, ∫ x in p..q, height a b x =
      (q - p) * a.im + (b.im - a.im) / (b.re - a.re) * ((q - a.re) ^ 2 - (p - a.re) ^ 2) / 2 := by
    intro p q
    have hd : ∀ x ∈ Set.uIcc p q, HasDerivAt (fun x => x * a.im +
        (b.im - a.im) / (b.re - a.re) * (x - a.re) ^ 2 / 2) (height a b x) x := by
      intro x _
      have h1 : HasDerivAt (fun x : ℝ => x * a.im) (1 * a.im) x := (hasDerivAt_id x).mul_const _
      have h2 : HasDerivAt (fun x : ℝ => (x - a.re) ^ 2) (2 * (x - a.re)) x := by
        have := ((hasDerivAt_id x).sub_const a.re).fun_pow 2
        refine this.congr_deriv ?_
        simp
      have h3 := (h2.const_mul ((b.im - a.im) / (b.re - a.re))).div_const 2
      have := h1.add h3
      refine this.congr_deriv ?_
      unfold height
      ring
    rw [intervalIntegral.integral_eq_sub_of_hasDerivAt hd]
    · ring
    · refine Continuous.intervalIntegrable ?_ _ _
      unfold height
      fun_prop
  have hcont : Continuous (height a b) := by unfold height; fun_prop
  rcases lt_trichotomy a.re b.re with h | h | h
  · have e : (fun x => over a b x * height a b x) = (Set.Ioo a.re b.re).indicator (height a b) := by
      funext x
      unfold over
      by_cases hx : a.re < x ∧ x < b.re
      · rw [if_pos hx, Set.indicator_of_mem (show x ∈ Set.Ioo a.re b.re from hx), one_mul]
      · rw [if_neg hx, Set.indicator_of_notMem (show x ∉ Set.Ioo a.re b.re from hx),
          if_neg (fun k => by linarith [k.1, k.2]), zero_mul]
    rw [e]
    constructor
    · rw [integrable_indicator_iff measurableSet_Ioo]
      exact (hcont.integrableOn_Icc).mono_set Set.Ioo_subset_Icc_self
    · rw [integral_indicator measurableSet_Ioo, ← integral_Ioc_eq_integral_Ioo,
        ← intervalIntegral.integral_of_le h.le, lin]
      have : b.re - a.re ≠ 0 := by linarith
      field_simp
      ring
  · have e : (fun x => over a b x * height a b x) = fun _ => 0 := by
      funext x
      unfold over
      rw [if_neg (fun k => by linarith [k.1, k.2]), if_neg (fun k => by linarith [k.1, k.2]), zero_mul]
    rw [e, h]
    simp
  · have e : (fun x => over a b x * height a b x) =
        (Set.Ioo b.re a.re).indicator (fun x => -height a b x) := by
      funext x
      unfold over
      by_cases hx : b.re < x ∧ x < a.re
      · rw [if_neg (fun k => by linarith [k.1, k.2, hx.1, hx.2]), if_pos hx,
          Set.indicator_of_mem (show x ∈ Set.Ioo b.re a.re from hx)]
        ring
      · rw [if_neg (fun k => by linarith [k.1, k.2]), if_neg hx,
          Set.indicator_of_notMem (show x ∉ Set.Ioo b.re a.re from hx), zero_mul]
    rw [e]
    constructor
    · rw [integrable_indicator_iff measurableSet_Ioo]
      exact (hcont.neg.integrableOn_Icc).mono_set Set.Ioo_subset_Icc_self
    · rw [integral_indicator measurableSet_Ioo, ← integral_Ioc_eq_integral_Ioo,
        ← intervalIntegral.integral_of_le h.le, intervalIntegral.integral_neg, lin]
      have : b.re - a.re ≠ 0 := by linarith
      field_simp
      ring

/-- A line that goes round nothing counter-clockwise has no positive area. -/
theorem area_nonpos (hn : P n = P 0) (hneg : ∀ x, x ∉ curve P n → total P n x ≤ 0)
    (hzero : ∃ R : ℝ, ∀ x : ℂ, R < x.im → total P n x = 0 ∧ x ∉ curve P n) :
    ∑ i ∈ Finset.range n, ((P i).re * (P (i + 1)).im - (P (i + 1)).re * (P i).im) ≤ 0 := by
  have h1 : 0 ≤ ∫ x, ∑ i ∈ Finset.range n, over (P i) (P (i + 1)) x * height (P i) (P (i + 1)) x := by
    refine integral_nonneg_of_ae ?_
    have hfin : ((fun i => (P i).re) '' (Finset.range (n + 1) : Set ℕ)).Finite :=
      (Finset.finite_toSet _).image _
    have hae : ∀ᵐ t : ℝ, t ∉ (fun i => (P i).re) '' (Finset.range (n + 1) : Set ℕ) :=
      measure_eq_zero_iff_ae_notMem.1 (hfin.measure_zero volume)
    filter_upwards [hae] with t ht
    refine heights_nonneg hn hneg hzero fun i hi h => ht ⟨i, ?_, h⟩
    simp only [Finset.coe_range, Set.mem_Iio]
    omega
  rw [integral_finsetSum _ fun i _ => (integral_over _ _).1] at h1
  have h2 : ∑ i ∈ Finset.range n, ∫ x, over (P i) (P (i + 1)) x * height (P i) (P (i + 1)) x =
      -(∑ i ∈ Finset.range n, ((P i).re * (P (i + 1)).im - (P (i + 1)).re * (P i).im)) / 2 := by
    have h3 := Finset.sum_range_sub (fun i => (P i).re * (P i).im) n
    rw [hn, sub_self] at h3
    have : ∀ i ∈ Finset.range n, ∫ x, over (P i) (P (i + 1)) x * height (P i) (P (i + 1)) x =
        -((P i).re * (P (i + 1)).im - (P (i + 1)).re * (P i).im) / 2 +
        ((P (i + 1)).re * (P (i + 1)).im - (P i).re * (P i).im) / 2 := by
      intro i _
      rw [(integral_over _ _).2]
      ring
    rw [Finset.sum_congr rfl this, Finset.sum_add_distrib, ← Finset.sum_div, ← Finset.sum_div, h3,
      Finset.sum_neg_distrib]
    ring
  rw [h2] at h1
  linarith

end Jordan

end Capi
