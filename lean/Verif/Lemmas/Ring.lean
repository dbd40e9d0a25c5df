import Verif.Lemmas.Oriented
import Verif.Lemmas.Polygon
import Verif.Spec.Coast

/-!
# What a simple ring goes round
-/

namespace Capi

namespace Jordan

open Complex Filter Topology

variable {P : ℕ → ℂ} {n : ℕ}

/-- A line seen in a half of the horizon does not go round. -/
theorem total_half (hn : P n = P 0) {x u : ℂ} (h : ∀ i ≤ n, 0 < ((P i - x) * u).re) :
    total P n x = 0 := by
  have hpi := Real.pi_pos
  have hu : u ≠ 0 := by
    rintro rfl
    have := h 0 (by omega)
    simp at this
  have hb : ∀ i ≤ n, (P i - x) * u ≠ 0 ∧ |arg ((P i - x) * u)| < Real.pi / 2 := by
    intro i hi
    refine ⟨fun h0 => ?_, abs_arg_lt_pi_div_two_iff.2 (Or.inl (h i hi))⟩
    have := h i hi
    rw [h0] at this
    simp at this
  have key : ∀ i < n, angle (P i) (P (i + 1)) x =
      arg ((P (i + 1) - x) * u) - arg ((P i - x) * u) := by
    intro i hi
    obtain ⟨a0, a1⟩ := hb i (by omega)
    obtain ⟨b0, b1⟩ := hb (i + 1) (by omega)
    unfold angle
    rw [← mul_div_mul_right _ _ hu, div_eq_mul_inv]
    rw [abs_lt] at a1 b1
    have hinv : arg ((P i - x) * u)⁻¹ = -arg ((P i - x) * u) := by
      rw [arg_inv, if_neg (by linarith)]
    rw [arg_mul b0 (inv_ne_zero a0) (by
      rw [hinv]
      constructor <;> linarith), hinv]
    ring
  unfold total
  rw [Finset.sum_congr rfl fun i hi => key i (Finset.mem_range.1 hi),
    Finset.sum_range_sub (fun i => arg ((P i - x) * u)), hn, sub_self]

theorem half_off {x u : ℂ} (h : ∀ i ≤ n, 0 < ((P i - x) * u).re) : x ∉ curve P n := by
  rintro ⟨i, hi, s, t, hs, ht, hst, e⟩
  have h1 := h i (by omega)
  have h2 := h (i + 1) (by omega)
  have h3 : s * ((P i - x) * u).re + t * ((P (i + 1) - x) * u).re = 0 := by
    have : s • (P i - x) + t • (P (i + 1) - x) = 0 := by
      have e2 : s • (P i - x) + t • (P (i + 1) - x) = (s • P i + t • P (i + 1)) - (s + t) • x := by
        module
      rw [e2, hst, e, one_smul, sub_self]
    have := congrArg (fun z => (z * u).re) this
    simp only [real_smul, add_mul, add_re, mul_assoc, re_ofReal_mul, zero_mul, zero_re] at this
    exact this
  rcases hs.lt_or_eq with hs | rfl
  · have := mul_pos hs h1
    have := mul_nonneg ht h2.le
    linarith
  · obtain rfl : t = 1 := by linarith
    linarith

theorem above (hn : P n = P 0) :
    ∃ R : ℝ, ∀ x : ℂ, R < x.im → total P n x = 0 ∧ x ∉ curve P n := by
  obtain ⟨M, hM⟩ := ((Finset.range (n + 1)).image fun i => (P i).im).exists_le
  refine ⟨M, fun x hx => ?_⟩
  have : ∀ i ≤ n, 0 < ((P i - x) * I).re := by
    intro i hi
    have := hM _ (Finset.mem_image_of_mem (fun i => (P i).im) (Finset.mem_range.2 (by omega : i < n + 1)))
    simp only [mul_re, sub_re, I_re, mul_zero, sub_im, I_im, mul_one, zero_sub]
    linarith
  exact ⟨total_half hn this, half_off this⟩

/-- The value off the line: one for each side. -/
theorem Loop.values (h : Loop P n) {c : ℝ}
    (hc1 : ∀ i, ∀ z ∈ openSegment ℝ (P i) (P (i + 1)), ∃ ε > 0, ∀ x, ‖x - z‖ < ε →
      (0 < turn (P i) (P (i + 1)) x → x ∉ curve P n ∧ total P n x = c) ∧
      (turn (P i) (P (i + 1)) x < 0 → x ∉ curve P n ∧ total P n x = c - 2 * Real.pi))
    (hc2 : ∀ i, ∃ ε > 0, ∀ x, ‖x - P (i + 1)‖ < ε →
      (Into (P i) (P (i + 1)) (P (i + 2)) x → x ∉ curve P n ∧ total P n x = c) ∧
      (Outof (P i) (P (i + 1)) (P (i + 2)) x → x ∉ curve P n ∧ total P n x = c - 2 * Real.pi))
    {x : ℂ} (hx : x ∉ curve P n) : total P n x = c ∨ total P n x = c - 2 * Real.pi := by
  have hn : 0 < n := by have := h.size; omega
  classical
  choose! εe he1 he2 using hc1
  choose εv hv1 hv2 using hc2
  obtain ⟨y, hy, hcase⟩ := h.approach εe εv (fun i z hz => he1 i z hz) hv1 hx
  have hxy : total P n x = total P n y :=
    total_const h.closed hn (convex_segment x y).isPreconnected hy (left_mem_segment ℝ x y)
      (right_mem_segment ℝ x y)
  rw [hxy]
  rcases hcase with ⟨i, z, hz, hd, ht⟩ | ⟨i, hd, hio⟩
  · rcases lt_or_gt_of_ne ht with ht | ht
    · exact Or.inr ((he2 i z hz y hd).2 ht).2
    · exact Or.inl ((he2 i z hz y hd).1 ht).2
  · rcases hio with hi | ho
    · exact Or.inl ((hv2 i y hd).1 hi).2
    · exact Or.inr ((hv2 i y hd).2 ho).2

/-- A line of positive area has on its left what it goes round once, and on its right what it does
not go round. -/
theorem Loop.oriented (h : Loop P n)
    (hA : 0 < ∑ i ∈ Finset.range n, ((P i).re * (P (i + 1)).im - (P (i + 1)).re * (P i).im)) :
    (∀ i, ∀ z ∈ openSegment ℝ (P i) (P (i + 1)), ∃ ε > 0, ∀ x, ‖x - z‖ < ε →
      (0 < turn (P i) (P (i + 1)) x → x ∉ curve P n ∧ total P n x = 2 * Real.pi) ∧
      (turn (P i) (P (i + 1)) x < 0 → x ∉ curve P n ∧ total P n x = 0)) ∧
    (∀ i, ∃ ε > 0, ∀ x, ‖x - P (i + 1)‖ < ε →
      (Into (P i) (P (i + 1)) (P (i + 2)) x → x ∉ curve P n ∧ total P n x = 2 * Real.pi) ∧
      (Outof (P i) (P (i + 1)) (P (i + 2)) x → x ∉ curve P n ∧ total P n x = 0)) ∧
    ∀ x, x ∉ curve P n → total P n x = 0 ∨ total P n x = 2 * Real.pi := by
  have hpi := Real.pi_pos
  obtain ⟨c, hc1, hc2⟩ := h.constant
  have hv : ∀ x, x ∉ curve P n → total P n x = c ∨ total P n x = c - 2 * Real.pi :=
    fun x hx => h.values hc1 hc2 hx
  obtain ⟨R, hR⟩ := above h.closed
  obtain ⟨h0, hoff⟩ := hR (I * ((R + 1 : ℝ) : ℂ)) (by simp)
  have hcc : c = 2 * Real.pi := by
    have h1 := hv _ hoff
    rw [h0] at h1
    rcases h1 with h1 | h1
    · exfalso
      have : ∀ x, x ∉ curve P n → total P n x ≤ 0 := by
        intro x hx
        rcases hv x hx with k | k <;> linarith
      have := area_nonpos h.closed this ⟨R, hR⟩
      linarith
    · linarith
  subst hcc
  rw [sub_self] at hc1 hc2 hv
  exact ⟨hc1, hc2, fun x hx => (hv x hx).symm⟩

end Jordan

open Jordan

/-- The ring as a closed line. -/
def line (p : List Coord) (i : ℕ) : ℂ := (ringAt p i).pt

theorem line_period (p : List Coord) (i : ℕ) : line p (i + p.length) = line p i := by
  unfold line ringAt
  rw [Nat.add_mod_right]

theorem simple_loop {p : List Coord} (h : SimpleRing p) : Loop (line p) p.length :=
  ⟨h.size, line_period p, h.apart⟩

theorem coast_curve (p : List Coord) : Coast p = curve (line p) p.length := rfl

theorem turning_total (p : List Coord) (x : ℂ) : turning p x = total (line p) p.length x := rfl

theorem area_line (p : List Coord) : ((twiceArea p : ℤ) : ℝ) = ∑ i ∈ Finset.range p.length,
    ((line p i).re * (line p (i + 1)).im - (line p (i + 1)).re * (line p i).im) := by
  unfold twiceArea line Coord.pt
  push_cast
  rfl

theorem turning_values {p : List Coord} (h : SimpleRing p) (hA : 0 < twiceArea p) {x : ℂ}
    (hx : x ∉ Coast p) : turning p x = 0 ∨ turning p x = 2 * Real.pi := by
  refine ((simple_loop h).oriented ?_).2.2 x hx
  rw [← area_line]
  exact_mod_cast hA

theorem mem_coast {p : List Coord} {z : ℂ} :
    z ∈ Coast p ↔ ∃ e, EdgeOf [p] e ∧ z ∈ segment ℝ e.p.pt e.q.pt := by
  constructor
  · rintro ⟨i, hi, hz⟩
    exact ⟨_, ⟨p, by simp, i, hi, rfl⟩, hz⟩
  · rintro ⟨e, ⟨q, hq, i, hi, rfl⟩, hz⟩
    obtain rfl := List.mem_singleton.1 hq
    exact ⟨i, hi, hz⟩

/-- A simple ring of positive area encloses what it goes round. -/
theorem simple_encloses {p : List Coord} (h : SimpleRing p) (hA : 0 < twiceArea p) :
    Encloses p (Interior p) := by
  have hpi := Real.pi_pos
  have hn : 0 < p.length := by have := h.size; omega
  have hl := simple_loop h
  obtain ⟨h1, h2, h3⟩ := hl.oriented (by rw [← area_line]; exact_mod_cast hA)
  have hopenC : IsOpen (Coast p)ᶜ := by
    rw [coast_curve]
    exact (curve_compact (P := line p) (n := p.length)).isClosed.isOpen_compl
  -- near a place off the coast nothing changes
  have near : ∀ z, z ∉ Coast p → ∃ ε > 0, ∀ x ∈ Metric.ball z ε, x ∉ Coast p ∧
      turning p x = turning p z := by
    intro z hz
    obtain ⟨ε, hε, hb⟩ := Metric.isOpen_iff.1 hopenC z hz
    refine ⟨ε, hε, fun x hx => ⟨hb hx, ?_⟩⟩
    exact total_const hl.closed hn (convex_ball z ε).isPreconnected (fun y hy => hb hy) hx
      (Metric.mem_ball_self hε)
  have hopen : IsOpen (Interior p) := by
    rw [Metric.isOpen_iff]
    intro z hz
    obtain ⟨ε, hε, hb⟩ := near z hz.1
    exact ⟨ε, hε, fun x hx => ⟨(hb x hx).1, by rw [(hb x hx).2]; exact hz.2⟩⟩
  have edges : ∀ e, EdgeOf [p] e → ∃ i, e.p.pt = line p i ∧ e.q.pt = line p (i + 1) := by
    rintro e ⟨q, hq, i, hi, rfl⟩
    obtain rfl := List.mem_singleton.1 hq
    exact ⟨i, rfl, rfl⟩
  have corners : ∀ a v b, CornerOf [p] a v b → ∃ i, a.pt = line p i ∧ v.pt = line p (i + 1) ∧
      b.pt = line p (i + 2) := by
    rintro a v b ⟨q, hq, i, hi, rfl, rfl, rfl⟩
    obtain rfl := List.mem_singleton.1 hq
    refine ⟨i + q.length - 1, rfl, ?_, ?_⟩
    · rw [show i + q.length - 1 + 1 = i + q.length by omega, line_period]
      rfl
    · rw [show i + q.length - 1 + 2 = i + 1 + q.length by omega, line_period]
      rfl
  refine ⟨hopen, ?_, ?_, ?_, ?_, ?_⟩
  · intro z hz
    rw [← mem_coast]
    by_contra hc
    obtain ⟨ε, hε, hb⟩ := near z hc
    rw [hopen.frontier_eq] at hz
    obtain ⟨x, hx1, hx2⟩ := Metric.mem_closure_iff.1 hz.1 ε hε
    refine hz.2 ⟨hc, ?_⟩
    rw [← (hb x (by rw [Metric.mem_ball, dist_comm]; exact hx2)).2]
    exact hx1.2
  · intro e he z hz
    obtain ⟨i, ep, eq⟩ := edges e he
    rw [ep, eq] at hz ⊢
    obtain ⟨ε, hε, hb⟩ := h1 i z hz
    refine ⟨ε, hε, fun x hx ht => ?_⟩
    obtain ⟨k1, k2⟩ := (hb x hx).1 ht
    exact ⟨k1, by rw [turning_total, k2]; positivity⟩
  · intro e he z hz
    obtain ⟨i, ep, eq⟩ := edges e he
    rw [ep, eq] at hz ⊢
    obtain ⟨ε, hε, hb⟩ := h1 i z hz
    exact ⟨ε, hε, fun x hx ht hin => hin.2 ((hb x hx).2 ht).2⟩
  · intro a v b hc
    obtain ⟨i, ea, ev, eb⟩ := corners a v b hc
    rw [ea, ev, eb]
    obtain ⟨ε, hε, hb⟩ := h2 i
    refine ⟨ε, hε, fun x hx ht => ?_⟩
    obtain ⟨k1, k2⟩ := (hb x hx).1 ht
    exact ⟨k1, by rw [turning_total, k2]; positivity⟩
  · intro a v b hc
    obtain ⟨i, ea, ev, eb⟩ := corners a v b hc
    rw [ea, ev, eb]
    obtain ⟨ε, hε, hb⟩ := h2 i
    exact ⟨ε, hε, fun x hx ht hin => hin.2 ((hb x hx).2 ht).2⟩

end Capi
