import Mathlib.MeasureTheory.Integral.IntervalIntegral.FundThmCalculus
import Mathlib.Analysis.SpecialFunctions.Integrals.Basic
import Mathlib.Analysis.SpecialFunctions.Complex.Arg
import Verif.Lemmas.Inside

/-!
# Winding numbers by counting crossings, and the area
-/

namespace Capi

namespace Jordan

open Complex Filter Topology

variable {P : ℕ → ℂ} {n : ℕ}

/-- Whether the segment passes below `x`: to the right (1) or to the left (-1). -/
noncomputable def pass (a b x : ℂ) : ℤ :=
  if a.re < x.re ∧ x.re < b.re ∧ 0 < turn a b x then 1
  else if b.re < x.re ∧ x.re < a.re ∧ turn a b x < 0 then -1 else 0

theorem arg_pos {z : ℂ} (h : 0 < z.im) : 0 < arg z ∧ arg z < Real.pi := by
  constructor
  · refine lt_of_le_of_ne (arg_nonneg_iff.2 h.le) fun h0 => ?_
    have := (arg_eq_zero_iff.1 h0.symm).2
    linarith
  · refine lt_of_le_of_ne (arg_le_pi z) fun h0 => ?_
    have := (arg_eq_pi_iff.1 h0).2
    linarith

theorem arg_neg {z : ℂ} (h : z.im < 0) : -Real.pi < arg z ∧ arg z < 0 :=
  ⟨neg_pi_lt_arg z, arg_neg_iff.2 h⟩

/-- The angle of a segment as a difference of directions, with a jump straight below. -/
theorem angle_pass {a b x : ℂ} (hx : x ∉ segment ℝ a b) (ha : a.re ≠ x.re) (hb : b.re ≠ x.re) :
    angle a b x = arg (-I * (b - x)) - arg (-I * (a - x)) + 2 * Real.pi * pass a b x := by
  have hpi := Real.pi_pos
  have ha0 : a - x ≠ 0 := fun h => ha (by rw [sub_eq_zero] at h; rw [h])
  have hb0 : b - x ≠ 0 := fun h => hb (by rw [sub_eq_zero] at h; rw [h])
  have hI : -I ≠ 0 := neg_ne_zero.2 I_ne_zero
  have hratio : (b - x) / (a - x) = (-I * (b - x)) / (-I * (a - x)) := by
    rw [mul_div_mul_left _ _ hI]
  obtain ⟨k, hk⟩ := Real.Angle.angle_eq_iff_two_pi_dvd_sub.1
    (arg_div_coe_angle (mul_ne_zero hI hb0) (mul_ne_zero hI ha0))
  rw [← hratio] at hk
  change angle a b x - _ = _ at hk
  have him : ∀ z : ℂ, (-I * (z - x)).im = -(z.re - x.re) := by
    intro z
    simp
  have hturn : ((b - x) / (a - x)).im = turn a b x / normSq (a - x) := ratio_im a b x
  have hns : 0 < normSq (a - x) := normSq_pos.2 ha0
  have hlo : -Real.pi < angle a b x := neg_pi_lt_arg _
  have hhi : angle a b x ≤ Real.pi := arg_le_pi _
  have tpos : 0 < turn a b x → 0 < angle a b x ∧ angle a b x < Real.pi := fun h =>
    arg_pos (by rw [hturn]; positivity)
  have tneg : turn a b x < 0 → angle a b x < 0 := fun h =>
    (arg_neg (by rw [hturn]; exact div_neg_of_neg_of_pos h hns)).2
  have key : ∀ m : ℤ, (k : ℝ) - m < 1 → (m : ℝ) - k < 1 → k = m := by
    intro m h1 h2
    have h1' : k - m < 1 := by exact_mod_cast h1
    have h2' : m - k < 1 := by exact_mod_cast h2
    omega
  have close : ∀ m : ℤ, angle a b x - (arg (-I * (b - x)) - arg (-I * (a - x))) - 2 * Real.pi * m
        < 2 * Real.pi → -(2 * Real.pi) < angle a b x - (arg (-I * (b - x)) - arg (-I * (a - x))) -
        2 * Real.pi * m → k = m := by
    intro m h1 h2
    rw [hk] at h1 h2
    apply key
    · by_contra hc
      push Not at hc
      nlinarith
    · by_contra hc
      push Not at hc
      nlinarith
  have finish : k = pass a b x → angle a b x =
      arg (-I * (b - x)) - arg (-I * (a - x)) + 2 * Real.pi * pass a b x := by
    intro h
    rw [← h]
    linarith
  -- with the ends on different sides the line does not pass through `x`
  have hline : (a.re < x.re ∧ x.re < b.re ∨ b.re < x.re ∧ x.re < a.re) → turn a b x ≠ 0 := by
    intro hside h0
    have hab : a ≠ b := by
      rintro rfl
      rcases hside with h | h <;> linarith
    obtain ⟨t, ht⟩ := on_line hab h0
    have hre : x.re = (1 - t) * a.re + t * b.re := by
      conv_lhs => rw [ht]
      simp
    apply hx
    refine ⟨1 - t, t, ?_, ?_, by ring, ht.symm⟩
    · rcases hside with h | h
      · by_contra hc
        nlinarith
      · by_contra hc
        nlinarith
    · rcases hside with h | h
      · by_contra hc
        nlinarith
      · by_contra hc
        nlinarith
  apply finish
  rcases lt_or_gt_of_ne ha with ha' | ha' <;> rcases lt_or_gt_of_ne hb with hb' | hb'
  · have h1 := arg_pos (z := -I * (a - x)) (by rw [him]; linarith)
    have h2 := arg_pos (z := -I * (b - x)) (by rw [him]; linarith)
    have : pass a b x = 0 := by
      unfold pass
      rw [if_neg (fun h => by linarith [h.2.1]), if_neg (fun h => by linarith [h.2.1])]
    rw [this]
    apply close <;> push_cast <;> linarith
  · have h1 := arg_pos (z := -I * (a - x)) (by rw [him]; linarith)
    have h2 := arg_neg (z := -I * (b - x)) (by rw [him]; linarith)
    rcases lt_or_gt_of_ne (hline (Or.inl ⟨ha', hb'⟩)) with ht | ht
    · have : pass a b x = 0 := by
        unfold pass
        rw [if_neg (fun h => by linarith [h.2.2]), if_neg (fun h => by linarith [h.2.1])]
      have := tneg ht
      rw [‹pass a b x = 0›]
      apply close <;> push_cast <;> linarith
    · have : pass a b x = 1 := by
        unfold pass
        rw [if_pos ⟨ha', hb', ht⟩]
      have := tpos ht
      rw [‹pass a b x = 1›]
      apply close <;> push_cast <;> linarith
  · have h1 := arg_neg (z := -I * (a - x)) (by rw [him]; linarith)
    have h2 := arg_pos (z := -I * (b - x)) (by rw [him]; linarith)
    rcases lt_or_gt_of_ne (hline (Or.inr ⟨hb', ha'⟩)) with ht | ht
    · have : pass a b x = -1 := by
        unfold pass
        rw [if_neg (fun h => by linarith [h.2.2]), if_pos ⟨hb', ha', ht⟩]
      have := tneg ht
      rw [‹pass a b x = -1›]
      apply close <;> push_cast <;> linarith
    · have : pass a b x = 0 := by
        unfold pass
        rw [if_neg (fun h => by linarith [h.1]), if_neg (fun h => by linarith [h.2.2])]
      have := tpos ht
      rw [‹pass a b x = 0›]
      apply close <;> push_cast <;> linarith
  · have h1 := arg_neg (z := -I * (a - x)) (by rw [him]; linarith)
    have h2 := arg_neg (z := -I * (b - x)) (by rw [him]; linarith)
    have : pass a b x = 0 := by
      unfold pass
      rw [if_neg (fun h => by linarith [h.1]), if_neg (fun h => by linarith [h.1])]
    rw [this]
    apply close <;> push_cast <;> linarith

/-- The sum of the angles counts how often the line passes below. -/
theorem total_pass (hn : P n = P 0) {x : ℂ} (hx : x ∉ curve P n) (hv : ∀ i ≤ n, (P i).re ≠ x.re) :
    total P n x = 2 * Real.pi * ((∑ i ∈ Finset.range n, pass (P i) (P (i + 1)) x : ℤ) : ℝ) := by
  have h1 : total P n x = ∑ i ∈ Finset.range n, (arg (-I * (P (i + 1) - x)) - arg (-I * (P i - x)) +
      2 * Real.pi * pass (P i) (P (i + 1)) x) := by
    unfold total
    refine Finset.sum_congr rfl fun i hi => ?_
    rw [Finset.mem_range] at hi
    exact angle_pass (fun h => hx ⟨i, hi, h⟩) (hv i (by omega)) (hv (i + 1) (by omega))
  rw [h1, Finset.sum_add_distrib, Finset.sum_range_sub (fun i => arg (-I * (P i - x))), hn, sub_self,
    zero_add, ← Finset.mul_sum]
  push_cast
  rfl

end Jordan

end Capi
