import Mathlib.Analysis.SpecialFunctions.Complex.Arg
import Mathlib.Analysis.SpecialFunctions.Complex.Log
import Mathlib.Topology.MetricSpace.Thickening
import Mathlib.Analysis.Normed.Module.Convex
import Verif.Lemmas.SeaRoute

/-!
# Winding numbers of closed polygonal lines
-/

namespace Capi

namespace Jordan

open Complex Filter Topology

/-- The angle under which the segment from `a` to `b` is seen from `x`, with a sign. -/
noncomputable def angle (a b x : ℂ) : ℝ := arg ((b - x) / (a - x))

theorem slit {a b x : ℂ} (h : x ∉ segment ℝ a b) : (b - x) / (a - x) ∈ slitPlane := by
  by_contra hs
  rw [mem_slitPlane_iff, not_or, not_lt, not_not] at hs
  apply h
  have ha : a - x ≠ 0 := by
    intro h0
    rw [sub_eq_zero] at h0
    exact h (h0 ▸ left_mem_segment ℝ a b)
  set r := ((b - x) / (a - x)).re with hr
  have e : (b - x) / (a - x) = (r : ℂ) := Complex.ext rfl (by simpa using hs.2)
  rw [div_eq_iff ha] at e
  have h1 : (0 : ℝ) < 1 - r := by linarith [hs.1]
  refine ⟨-r / (1 - r), 1 / (1 - r), div_nonneg (by linarith [hs.1]) h1.le, by positivity, ?_, ?_⟩
  · field_simp
    ring
  · have h2 : ((1 - r : ℝ) : ℂ) ≠ 0 := by exact_mod_cast h1.ne'
    rw [real_smul, real_smul]
    push_cast at h2 ⊢
    field_simp
    linear_combination e

theorem angle_continuousAt {a b x : ℂ} (h : x ∉ segment ℝ a b) : ContinuousAt (angle a b) x := by
  have ha : a - x ≠ 0 := by
    intro h0
    rw [sub_eq_zero] at h0
    exact h (h0 ▸ left_mem_segment ℝ a b)
  unfold angle
  exact (continuousAt_arg (slit h)).comp
    (f := fun x => (b - x) / (a - x))
    (((continuous_const.sub continuous_id).continuousAt).div
      ((continuous_const.sub continuous_id).continuousAt) ha)

variable (P : ℕ → ℂ) (n : ℕ)

/-- The `i`-th edge. -/
def edge (i : ℕ) : Set ℂ := segment ℝ (P i) (P (i + 1))

/-- The closed line. -/
def curve : Set ℂ := {z | ∃ i < n, z ∈ edge P i}

/-- The sum of the angles under which the edges are seen. -/
noncomputable def total (x : ℂ) : ℝ := ∑ i ∈ Finset.range n, angle (P i) (P (i + 1)) x

variable {P n}

theorem total_int (hn : P n = P 0) {x : ℂ} (hx : ∀ i ≤ n, P i ≠ x) :
    ∃ k : ℤ, total P n x = 2 * Real.pi * k := by
  have hne : ∀ i ≤ n, P i - x ≠ 0 := fun i hi h => hx i hi (sub_eq_zero.1 h)
  have key : ∀ m ≤ n, ((‖P m - x‖ : ℝ) : ℂ) * exp ((total P m x : ℝ) * I) * (P 0 - x) =
      (P m - x) * (‖P 0 - x‖ : ℝ) := by
    intro m hm
    induction m with
    | zero => simp [total]; ring
    | succ m ih =>
      have := ih (by omega)
      have h1 := hne m (by omega)
      have ha := norm_mul_exp_arg_mul_I ((P (m + 1) - x) / (P m - x))
      have hst : total P (m + 1) x = total P m x + arg ((P (m + 1) - x) / (P m - x)) := by
        unfold total angle
        rw [Finset.sum_range_succ]
      rw [hst, ofReal_add, add_mul, exp_add]
      rw [norm_div, ofReal_div] at ha
      have h2 : ((‖P m - x‖ : ℝ) : ℂ) ≠ 0 := by exact_mod_cast norm_ne_zero_iff.2 h1
      field_simp at ha
      have h3 : (‖P m - x‖ : ℂ) * (P m - x) ≠ 0 := mul_ne_zero h2 h1
      apply mul_left_cancel₀ h3
      linear_combination (‖P (m + 1) - x‖ : ℂ) * exp (arg ((P (m + 1) - x) / (P m - x)) * I) *
        (P m - x) * this + (P m - x) * (‖P 0 - x‖ : ℂ) * ha
  have := key n le_rfl
  rw [hn] at this
  have h0 := hne 0 (by omega)
  have h1 : ((‖P 0 - x‖ : ℝ) : ℂ) ≠ 0 := by exact_mod_cast norm_ne_zero_iff.2 h0
  have h2 : exp ((total P n x : ℝ) * I) = 1 := by
    apply mul_left_cancel₀ (mul_ne_zero h1 h0)
    linear_combination this
  obtain ⟨k, hk⟩ := exp_eq_one_iff.1 h2
  refine ⟨k, ?_⟩
  have : ((total P n x : ℝ) : ℂ) = (k : ℂ) * (2 * Real.pi) := by
    apply mul_right_cancel₀ I_ne_zero
    linear_combination hk
  have h3 : ((total P n x : ℝ) : ℂ) = ((2 * Real.pi * k : ℝ) : ℂ) := by
    rw [this]; push_cast; ring
  exact_mod_cast h3

theorem total_continuousAt {x : ℂ} (hx : x ∉ curve P n) : ContinuousAt (total P n) x := by
  unfold total
  refine tendsto_finsetSum _ fun i hi => ?_
  exact angle_continuousAt fun h => hx ⟨i, Finset.mem_range.1 hi, h⟩

theorem off_vertices (hn : P n = P 0) (h0 : 0 < n) {x : ℂ} (hx : x ∉ curve P n) :
    ∀ i ≤ n, P i ≠ x := by
  intro i hi h
  rcases hi.lt_or_eq with hi | rfl
  · exact hx ⟨i, hi, h ▸ left_mem_segment ℝ _ _⟩
  · exact hx ⟨0, h0, by rw [← h, hn]; exact left_mem_segment ℝ _ _⟩

/-- On a connected set off the line the sum is constant. -/
theorem total_const (hn : P n = P 0) (h0 : 0 < n) {S : Set ℂ} (hS : IsPreconnected S)
    (hoff : ∀ x ∈ S, x ∉ curve P n) {x y : ℂ} (hx : x ∈ S) (hy : y ∈ S) :
    total P n x = total P n y := by
  have hc : ContinuousOn (total P n) S := fun z hz =>
    (total_continuousAt (hoff z hz)).continuousWithinAt
  have hi := (hS.image _ hc).ordConnected
  by_contra hne
  have main : ∀ x ∈ S, ∀ y ∈ S, ¬ total P n x < total P n y := by
    intro x hx y hy hlt
    obtain ⟨k, hk⟩ := total_int hn (off_vertices hn h0 (hoff x hx))
    obtain ⟨m, hm⟩ := total_int hn (off_vertices hn h0 (hoff y hy))
    have hpi := Real.pi_pos
    have hkm : k + 1 ≤ m := by
      rw [hk, hm] at hlt
      have := lt_of_mul_lt_mul_left hlt (by positivity)
      exact_mod_cast this
    have hkm' : (k : ℝ) + 1 ≤ m := by exact_mod_cast hkm
    obtain ⟨z, hz, hzv⟩ := hi.out ⟨x, hx, rfl⟩ ⟨y, hy, rfl⟩
      (show 2 * Real.pi * (k + 1 / 2) ∈ Set.Icc (total P n x) (total P n y) by
        rw [hk, hm]
        constructor <;> nlinarith)
    obtain ⟨l, hl⟩ := total_int hn (off_vertices hn h0 (hoff z hz))
    rw [hl] at hzv
    have := mul_left_cancel₀ (by positivity) hzv
    have h2 : (2 : ℝ) * l = 2 * k + 1 := by linarith
    have h3 : 2 * l = 2 * k + 1 := by exact_mod_cast h2
    omega
  rcases lt_or_gt_of_ne hne with h | h
  · exact main x hx y hy h
  · exact main y hy x hx h

theorem turn_eq (a b x : ℂ) : turn a b x = ((b - x) * (starRingEnd ℂ) (a - x)).im := by
  unfold turn
  simp
  ring

theorem ratio_im (a b x : ℂ) : ((b - x) / (a - x)).im = turn a b x / normSq (a - x) := by
  rw [turn_eq, div_eq_mul_inv, inv_def, ← mul_assoc, im_mul_ofReal, div_eq_mul_inv]

/-- Points near a place on an edge, to the left of it or to the right. -/
theorem near_side {a b z : ℂ} (hab : a ≠ b) (hz : turn a b z = 0) {U : Set ℂ} (hU : U ∈ 𝓝 z) :
    (∃ x ∈ U, 0 < turn a b x) ∧ ∃ x ∈ U, turn a b x < 0 := by
  have hcont : Continuous fun t : ℝ => z + (t : ℂ) * (I * (b - a)) := by fun_prop
  have h0 : Tendsto (fun t : ℝ => z + (t : ℂ) * (I * (b - a))) (𝓝 0) (𝓝 z) := by
    have := hcont.tendsto 0
    simpa using this
  have hev := h0 hU
  rw [mem_map, Metric.mem_nhds_iff] at hev
  obtain ⟨ε, hε, hb⟩ := hev
  have ht : ∀ t : ℝ, turn a b (z + (t : ℂ) * (I * (b - a))) = t * ((b.re - a.re) ^ 2 + (b.im - a.im) ^ 2) := by
    intro t
    have : turn a b (z + (t : ℂ) * (I * (b - a))) = turn a b z + t * ((b.re - a.re) ^ 2 + (b.im - a.im) ^ 2) := by
      unfold turn
      simp
      ring
    rw [this, hz, zero_add]
  have hp : 0 < (b.re - a.re) ^ 2 + (b.im - a.im) ^ 2 := by
    by_contra hc
    apply hab
    apply Complex.ext <;> nlinarith [sq_nonneg (b.re - a.re), sq_nonneg (b.im - a.im)]
  refine ⟨⟨_, hb (show ε / 2 ∈ Metric.ball 0 ε by
      rw [Metric.mem_ball, dist_zero_right, Real.norm_eq_abs, abs_of_pos] <;> linarith), ?_⟩,
    ⟨_, hb (show -(ε / 2) ∈ Metric.ball 0 ε by
      rw [Metric.mem_ball, dist_zero_right, Real.norm_eq_abs, abs_neg, abs_of_pos] <;> linarith), ?_⟩⟩
  · rw [ht]; positivity
  · rw [ht]; nlinarith

/-- Seen from nearby on the left an edge covers half the horizon, from the right as well but with
the other sign. -/
theorem angle_limit {a b z : ℂ} (hz : z ∈ openSegment ℝ a b) (hab : a ≠ b) :
    Tendsto (angle a b) (𝓝[{x | 0 < turn a b x}] z) (𝓝 Real.pi) ∧
    Tendsto (angle a b) (𝓝[{x | turn a b x < 0}] z) (𝓝 (-Real.pi)) := by
  obtain ⟨u, t, hu, ht, hut, rfl⟩ := hz
  set z := u • a + t • b with hzdef
  have hba : b - a ≠ 0 := sub_ne_zero.2 hab.symm
  have h1 : a - z = -((t : ℂ) * (b - a)) := by
    rw [hzdef, real_smul, real_smul]
    have : (u : ℂ) = 1 - t := by
      rw [eq_sub_iff_add_eq]; exact_mod_cast hut
    rw [this]; ring
  have h2 : b - z = (u : ℂ) * (b - a) := by
    rw [hzdef, real_smul, real_smul]
    have : (t : ℂ) = 1 - u := by
      rw [eq_sub_iff_add_eq, add_comm]; exact_mod_cast hut
    rw [this]; ring
  have ht' : (t : ℂ) ≠ 0 := by exact_mod_cast ht.ne'
  have haz : a - z ≠ 0 := by rw [h1]; exact neg_ne_zero.2 (mul_ne_zero ht' hba)
  have hr : (b - z) / (a - z) = ((-(u / t) : ℝ) : ℂ) := by
    rw [h1, h2]
    push_cast
    field_simp
  have hre : ((b - z) / (a - z)).re < 0 := by
    rw [hr, ofReal_re]
    have : 0 < u / t := by positivity
    linarith
  have him : ((b - z) / (a - z)).im = 0 := by rw [hr, ofReal_im]
  have hc : ContinuousAt (fun x => (b - x) / (a - x)) z :=
    ((continuous_const.sub continuous_id).continuousAt).div
      ((continuous_const.sub continuous_id).continuousAt) haz
  have hpos : ∀ᶠ x in 𝓝 z, 0 < normSq (a - x) := by
    have : ContinuousAt (fun x => normSq (a - x)) z :=
      (continuous_normSq.comp (continuous_const.sub continuous_id)).continuousAt
    exact this.eventually (lt_mem_nhds (normSq_pos.2 haz))
  constructor
  · refine (tendsto_arg_nhdsWithin_im_nonneg_of_re_neg_of_im_zero hre him).comp
      (tendsto_nhdsWithin_iff.2 ⟨hc.tendsto.mono_left nhdsWithin_le_nhds, ?_⟩)
    filter_upwards [self_mem_nhdsWithin, nhdsWithin_le_nhds hpos] with x hx hn
    rw [ratio_im]
    exact div_nonneg (le_of_lt hx) hn.le
  · refine (tendsto_arg_nhdsWithin_im_neg_of_re_neg_of_im_zero hre him).comp
      (tendsto_nhdsWithin_iff.2 ⟨hc.tendsto.mono_left nhdsWithin_le_nhds, ?_⟩)
    filter_upwards [self_mem_nhdsWithin, nhdsWithin_le_nhds hpos] with x hx hn
    rw [ratio_im]
    exact div_neg_of_neg_of_pos hx hn

/-- A closed line that does not meet itself. -/
structure Loop (P : ℕ → ℂ) (n : ℕ) : Prop where
  size : 3 ≤ n
  period : ∀ i, P (i + n) = P i
  simple : ∀ i < n, ∀ j < n, i ≠ j → ∀ s t : ℝ, 0 ≤ s → s < 1 → 0 ≤ t → t < 1 →
    P i + s • (P (i + 1) - P i) ≠ P j + t • (P (j + 1) - P j)

namespace Loop

variable (h : Loop P n)
include h

theorem mod (i : ℕ) : P (i % n) = P i := by
  conv_rhs => rw [← Nat.mod_add_div i n]
  generalize i / n = k
  induction k with
  | zero => simp
  | succ k ih => rw [Nat.mul_succ, ← add_assoc, h.period]; exact ih

theorem mod_succ (i : ℕ) : P (i % n + 1) = P (i + 1) := by
  rw [← h.mod (i % n + 1), ← h.mod (i + 1)]
  congr 1
  exact Nat.mod_add_mod i n 1

theorem edge_mod (i : ℕ) : edge P (i % n) = edge P i := by
  unfold edge
  rw [h.mod, h.mod_succ]

theorem on_curve (i : ℕ) {z : ℂ} (hz : z ∈ edge P i) : z ∈ curve P n :=
  ⟨i % n, Nat.mod_lt _ (by have := h.size; omega), by rw [h.edge_mod]; exact hz⟩

theorem apart {i j : ℕ} (hij : i % n ≠ j % n) {s t : ℝ} (h1 : 0 ≤ s) (h2 : s < 1) (h3 : 0 ≤ t)
    (h4 : t < 1) : P i + s • (P (i + 1) - P i) ≠ P j + t • (P (j + 1) - P j) := by
  have hn : 0 < n := by have := h.size; omega
  have := h.simple _ (Nat.mod_lt i hn) _ (Nat.mod_lt j hn) hij s t h1 h2 h3 h4
  rwa [h.mod, h.mod_succ, h.mod, h.mod_succ] at this

theorem succ_mod_ne (i : ℕ) : i % n ≠ (i + 1) % n := by
  have := h.size
  rw [Nat.add_mod, Nat.mod_eq_of_lt (by omega : 1 < n)]
  have := Nat.mod_lt i (by omega : 0 < n)
  by_cases hc : i % n + 1 < n
  · rw [Nat.mod_eq_of_lt hc]; omega
  · rw [show i % n + 1 = n by omega, Nat.mod_self]; omega

theorem ne (i : ℕ) : P i ≠ P (i + 1) := by
  have := h.apart (h.succ_mod_ne i) (s := 0) (t := 0) le_rfl one_pos le_rfl one_pos
  simpa using this

theorem closed : P n = P 0 := by
  have := h.period 0
  rwa [zero_add] at this

/-- A place within an edge is on no other edge. -/
theorem within {i j : ℕ} (hij : i % n ≠ j % n) {z : ℂ} (hz : z ∈ openSegment ℝ (P i) (P (i + 1))) :
    z ∉ edge P j := by
  intro hj
  rw [openSegment_eq_image'] at hz
  unfold edge at hj
  rw [segment_eq_image'] at hj
  obtain ⟨s, ⟨hs0, hs1⟩, rfl⟩ := hz
  obtain ⟨t, ⟨ht0, ht1⟩, e⟩ := hj
  simp only at e
  rcases ht1.lt_or_eq with ht | rfl
  · exact h.apart hij hs0.le hs1 ht0 ht e.symm
  · by_cases hc : i % n = (j + 1) % n
    · have e1 : P i = P (j + 1) := by rw [← h.mod i, hc, h.mod]
      rw [one_smul, add_sub_cancel, ← e1] at e
      have : s • (P (i + 1) - P i) = 0 := by
        have h0 : P i + s • (P (i + 1) - P i) = P i + 0 := by rw [add_zero]; exact e.symm
        exact add_left_cancel h0
      rw [smul_eq_zero] at this
      rcases this with h0 | h0
      · exact hs0.ne' h0
      · exact h.ne i (sub_eq_zero.1 h0).symm
    · have := h.apart hc hs0.le hs1 (t := 0) le_rfl one_pos
      rw [zero_smul, add_zero] at this
      rw [one_smul, add_sub_cancel] at e
      exact this e.symm

/-- A corner is on its two edges only. -/
theorem vertex {i j : ℕ} (h1 : j % n ≠ i % n) (h2 : j % n ≠ (i + 1) % n) : P (i + 1) ∉ edge P j := by
  intro hj
  unfold edge at hj
  rw [segment_eq_image'] at hj
  obtain ⟨t, ⟨ht0, ht1⟩, e⟩ := hj
  simp only at e
  rcases ht1.lt_or_eq with ht | rfl
  · have := h.apart h2 ht0 ht (t := 0) le_rfl one_pos
    rw [zero_smul, add_zero] at this
    exact this e
  · rw [one_smul, add_sub_cancel] at e
    have hc : (j + 1) % n = (i + 1) % n := by
      by_contra hc
      have := h.apart hc (s := 0) (t := 0) le_rfl one_pos le_rfl one_pos
      rw [zero_smul, zero_smul, add_zero, add_zero] at this
      exact this e
    have : j % n = i % n := Nat.ModEq.add_right_cancel' 1 hc
    exact h1 this

/-- The two edges of a corner do not lie on each other. -/
theorem no_spike (i : ℕ) {c : ℝ} (hc : 0 < c) : P (i + 2) - P (i + 1) ≠ c • (P i - P (i + 1)) := by
  intro e
  have hm : 0 < min (1 / 2) (1 / (2 * c)) := by positivity
  set m := min (1 / 2) (1 / (2 * c)) with hmd
  have hm1 : m ≤ 1 / 2 := min_le_left _ _
  have hm2 : m * c ≤ 1 / 2 := by
    have : m ≤ 1 / (2 * c) := min_le_right _ _
    calc m * c ≤ 1 / (2 * c) * c := by gcongr
      _ = 1 / 2 := by field_simp
  have hmc : 0 < m * c := by positivity
  refine h.apart (h.succ_mod_ne i) (s := 1 - m * c) (t := m) (by linarith) (by linarith) hm.le
    (by linarith) ?_
  rw [e, sub_smul, one_smul, smul_smul, add_sub, add_sub_cancel, smul_sub, smul_sub]
  abel

end Loop

theorem edge_closed (i : ℕ) : IsClosed (edge P i) := by
  unfold edge
  rw [segment_eq_image']
  exact (isCompact_Icc.image (by fun_prop)).isClosed

theorem edge_compact (i : ℕ) : IsCompact (edge P i) := by
  unfold edge
  rw [segment_eq_image']
  exact isCompact_Icc.image (by fun_prop)

/-- The part of the line made of the edges with certain numbers. -/
def part (P : ℕ → ℂ) (n : ℕ) (Q : ℕ → Prop) : Set ℂ := {z | ∃ i < n, Q i ∧ z ∈ edge P i}

theorem part_eq (Q : ℕ → Prop) : part P n Q = ⋃ i ∈ {i | i < n ∧ Q i}, edge P i := by
  ext z
  simp only [part, Set.mem_ofPred_eq, Set.mem_iUnion, exists_prop, and_assoc]

theorem finite_below (Q : ℕ → Prop) : {i | i < n ∧ Q i}.Finite :=
  (Set.finite_Iio n).subset fun _ hi => hi.1

theorem part_compact (Q : ℕ → Prop) : IsCompact (part P n Q) := by
  rw [part_eq]
  exact (finite_below Q).isCompact_biUnion fun i _ => edge_compact i

theorem part_closed (Q : ℕ → Prop) : IsClosed (part P n Q) := (part_compact Q).isClosed

theorem curve_eq : curve P n = part P n fun _ => True := by
  ext z
  simp [curve, part]

theorem curve_compact : IsCompact (curve P n) := by rw [curve_eq]; exact part_compact _

theorem side_convex (a b : ℂ) : Convex ℝ {x | 0 < turn a b x} ∧ Convex ℝ {x | turn a b x < 0} := by
  constructor
  · intro x hx y hy u v hu hv huv
    simp only [Set.mem_ofPred_eq] at hx hy ⊢
    rw [turn_comb2 _ _ _ _ huv]
    rcases hu.lt_or_eq with hu | rfl
    · have := mul_pos hu hx
      have := mul_nonneg hv hy.le
      linarith
    · obtain rfl : v = 1 := by linarith
      linarith
  · intro x hx y hy u v hu hv huv
    simp only [Set.mem_ofPred_eq] at hx hy ⊢
    rw [turn_comb2 _ _ _ _ huv]
    rcases hu.lt_or_eq with hu | rfl
    · have := mul_neg_of_pos_of_neg hu hx
      have := mul_nonpos_of_nonneg_of_nonpos hv hy.le
      linarith
    · obtain rfl : v = 1 := by linarith
      linarith

theorem on_edge_turn {a b z : ℂ} (hz : z ∈ segment ℝ a b) : turn a b z = 0 := by
  obtain ⟨u, v, _, _, huv, rfl⟩ := hz
  rw [turn_comb2 _ _ _ _ huv, turn_first, turn_second]
  ring

/-- Along an edge there are strips on both sides off the line. -/
theorem Loop.strips (h : Loop P n) {i : ℕ} (hi : i < n) {z w : ℂ}
    (hz : z ∈ openSegment ℝ (P i) (P (i + 1))) (hw : w ∈ openSegment ℝ (P i) (P (i + 1))) :
    ∃ δ > 0, ∀ x ∈ Metric.thickening δ (segment ℝ z w), turn (P i) (P (i + 1)) x ≠ 0 →
      x ∉ curve P n := by
  have hsub : segment ℝ z w ⊆ openSegment ℝ (P i) (P (i + 1)) :=
    (convex_openSegment _ _).segment_subset hz hw
  have hdis : Disjoint (segment ℝ z w) (part P n fun j => j ≠ i) := by
    rw [Set.disjoint_left]
    rintro x hx ⟨j, hj, hji, hxj⟩
    refine h.within (i := i) (j := j) ?_ (hsub hx) hxj
    rw [Nat.mod_eq_of_lt hi, Nat.mod_eq_of_lt hj]
    exact hji.symm
  have hcomp : IsCompact (segment ℝ z w) := by
    rw [segment_eq_image']
    exact isCompact_Icc.image (by fun_prop)
  obtain ⟨δ, hδ, hd⟩ := hdis.exists_thickenings hcomp (part_closed _)
  refine ⟨δ, hδ, fun x hx hne => ?_⟩
  rintro ⟨j, hj, hxj⟩
  by_cases hji : j = i
  · subst hji
    exact hne (on_edge_turn hxj)
  · exact Set.disjoint_left.1 hd hx (Metric.self_subset_thickening hδ _ ⟨j, hj, hji, hxj⟩)

/-- On the left of an edge the line goes round once more than on the right. -/
theorem Loop.sides (h : Loop P n) {i : ℕ} (hi : i < n) : ∃ c : ℝ,
    ∀ z ∈ openSegment ℝ (P i) (P (i + 1)), ∃ ε > 0, ∀ x, ‖x - z‖ < ε →
      (0 < turn (P i) (P (i + 1)) x → x ∉ curve P n ∧ total P n x = c) ∧
      (turn (P i) (P (i + 1)) x < 0 → x ∉ curve P n ∧ total P n x = c - 2 * Real.pi) := by
  have hn : 0 < n := by omega
  have hne := h.ne i
  set a := P i
  set b := P (i + 1)
  have hz0 : midpoint ℝ a b ∈ openSegment ℝ a b := by
    refine ⟨1 / 2, 1 / 2, by norm_num, by norm_num, by norm_num, ?_⟩
    rw [midpoint_eq_smul_add, smul_add, invOf_eq_inv, one_div]
  set z0 := midpoint ℝ a b
  -- the values next to the middle
  obtain ⟨δ, hδ, hoff⟩ := h.strips hi hz0 hz0
  rw [segment_same] at hoff
  have hT : ∀ x, x ∈ Metric.thickening δ {z0} ↔ dist x z0 < δ := by
    intro x
    rw [Metric.thickening_singleton, Metric.mem_ball]
  obtain ⟨⟨p, hp1, hp2⟩, ⟨q, hq1, hq2⟩⟩ := near_side hne
    (on_edge_turn (openSegment_subset_segment ℝ a b hz0)) (Metric.ball_mem_nhds z0 hδ)
  have hconv : Convex ℝ (Metric.ball z0 δ) := convex_ball z0 δ
  have hL : ∀ x ∈ Metric.ball z0 δ, 0 < turn a b x → total P n x = total P n p := by
    intro x hx hxt
    refine total_const h.closed hn (S := Metric.ball z0 δ ∩ {x | 0 < turn a b x})
      (hconv.inter (side_convex a b).1).isPreconnected (fun y hy => ?_) ⟨hx, hxt⟩ ⟨hp1, hp2⟩
    exact hoff y ((hT y).2 hy.1) (ne_of_gt hy.2)
  have hR : ∀ x ∈ Metric.ball z0 δ, turn a b x < 0 → total P n x = total P n q := by
    intro x hx hxt
    refine total_const h.closed hn (S := Metric.ball z0 δ ∩ {x | turn a b x < 0})
      (hconv.inter (side_convex a b).2).isPreconnected (fun y hy => ?_) ⟨hx, hxt⟩ ⟨hq1, hq2⟩
    exact hoff y ((hT y).2 hy.1) (ne_of_lt hy.2)
  have hjump : total P n q = total P n p - 2 * Real.pi := by
    set g : ℂ → ℝ := fun x => ∑ j ∈ (Finset.range n).erase i, angle (P j) (P (j + 1)) x with hg
    have hsplit : ∀ x, total P n x = angle a b x + g x := by
      intro x
      unfold total
      exact (Finset.add_sum_erase _ (fun j => angle (P j) (P (j + 1)) x) (Finset.mem_range.2 hi)).symm
    have hgc : ContinuousAt g z0 := by
      refine tendsto_finsetSum _ fun j hj => ?_
      rw [Finset.mem_erase, Finset.mem_range] at hj
      refine angle_continuousAt fun hzj => h.within (i := i) (j := j) ?_ hz0 hzj
      rw [Nat.mod_eq_of_lt hi, Nat.mod_eq_of_lt hj.2]
      exact hj.1.symm
    obtain ⟨lim1, lim2⟩ := angle_limit hz0 hne
    have nb : ∀ S : Set ℂ, (∀ U ∈ 𝓝 z0, ∃ x ∈ U, x ∈ S) → (𝓝[S] z0).NeBot := by
      intro S hS
      rw [← mem_closure_iff_nhdsWithin_neBot, mem_closure_iff_nhds]
      intro U hU
      obtain ⟨x, h1, h2⟩ := hS U hU
      exact ⟨x, h1, h2⟩
    have side := fun U (hU : U ∈ 𝓝 z0) => near_side hne
      (on_edge_turn (openSegment_subset_segment ℝ a b hz0)) hU
    have v1 : total P n p = Real.pi + g z0 := by
      have := nb {x | 0 < turn a b x} fun U hU => (side U hU).1
      refine tendsto_nhds_unique (f := total P n) (l := 𝓝[{x | 0 < turn a b x}] z0) ?_ ?_
      · refine tendsto_const_nhds.congr' ?_
        filter_upwards [self_mem_nhdsWithin,
          nhdsWithin_le_nhds (Metric.ball_mem_nhds z0 hδ)] with x hx hx'
        exact (hL x hx' hx).symm
      · rw [funext hsplit]
        exact lim1.add (hgc.tendsto.mono_left nhdsWithin_le_nhds)
    have v2 : total P n q = -Real.pi + g z0 := by
      have := nb {x | turn a b x < 0} fun U hU => (side U hU).2
      refine tendsto_nhds_unique (f := total P n) (l := 𝓝[{x | turn a b x < 0}] z0) ?_ ?_
      · refine tendsto_const_nhds.congr' ?_
        filter_upwards [self_mem_nhdsWithin,
          nhdsWithin_le_nhds (Metric.ball_mem_nhds z0 hδ)] with x hx hx'
        exact (hR x hx' hx).symm
      · rw [funext hsplit]
        exact lim2.add (hgc.tendsto.mono_left nhdsWithin_le_nhds)
    rw [v1, v2]
    ring
  refine ⟨total P n p, fun z hz => ?_⟩
  obtain ⟨η, hη, hoffz⟩ := h.strips hi hz0 hz
  have hconvT : Convex ℝ (Metric.thickening η (segment ℝ z0 z)) :=
    (convex_segment z0 z).thickening η
  have hin : ∀ x, ‖x - z‖ < η → x ∈ Metric.thickening η (segment ℝ z0 z) := by
    intro x hx
    rw [Metric.mem_thickening_iff]
    exact ⟨z, right_mem_segment ℝ _ _, by rw [dist_eq_norm]; exact hx⟩
  have hin0 : ∀ x, ‖x - z0‖ < η → x ∈ Metric.thickening η (segment ℝ z0 z) := by
    intro x hx
    rw [Metric.mem_thickening_iff]
    exact ⟨z0, left_mem_segment ℝ _ _, by rw [dist_eq_norm]; exact hx⟩
  obtain ⟨⟨p', hp1', hp2'⟩, ⟨q', hq1', hq2'⟩⟩ := near_side hne
    (on_edge_turn (openSegment_subset_segment ℝ a b hz0)) (Metric.ball_mem_nhds z0 (lt_min hη hδ))
  rw [Metric.mem_ball, dist_eq_norm, lt_min_iff] at hp1' hq1'
  refine ⟨η, hη, fun x hx => ⟨fun hxt => ⟨hoffz x (hin x hx) hxt.ne', ?_⟩,
    fun hxt => ⟨hoffz x (hin x hx) hxt.ne, ?_⟩⟩⟩
  · rw [← hL p' (by rw [Metric.mem_ball, dist_eq_norm]; exact hp1'.2) hp2']
    refine total_const h.closed hn
      (S := Metric.thickening η (segment ℝ z0 z) ∩ {x | 0 < turn a b x})
      (hconvT.inter (side_convex a b).1).isPreconnected (fun y hy => ?_) ⟨hin x hx, hxt⟩
      ⟨hin0 _ hp1'.1, hp2'⟩
    exact hoffz y hy.1 (ne_of_gt hy.2)
  · rw [← hjump, ← hR q' (by rw [Metric.mem_ball, dist_eq_norm]; exact hq1'.2) hq2']
    refine total_const h.closed hn
      (S := Metric.thickening η (segment ℝ z0 z) ∩ {x | turn a b x < 0})
      (hconvT.inter (side_convex a b).2).isPreconnected (fun y hy => ?_) ⟨hin x hx, hxt⟩
      ⟨hin0 _ hq1'.1, hq2'⟩
    exact hoffz y hy.1 (ne_of_lt hy.2)

/-- A place near a corner is on one of its two edges or on none. -/
theorem Loop.near_corner (h : Loop P n) (i : ℕ) : ∃ ε > 0, ∀ x, ‖x - P (i + 1)‖ < ε →
    x ∈ curve P n → x ∈ edge P i ∨ x ∈ edge P (i + 1) := by
  have hn : 0 < n := by have := h.size; omega
  have hnot : P (i + 1) ∉ part P n fun j => j ≠ i % n ∧ j ≠ (i + 1) % n := by
    rintro ⟨j, hj, ⟨h1, h2⟩, h3⟩
    refine h.vertex (i := i) (j := j) ?_ ?_ h3 <;> rw [Nat.mod_eq_of_lt hj]
    · exact h1
    · exact h2
  obtain ⟨ε, hε, hb⟩ := Metric.isOpen_iff.1 (part_closed (P := P) (n := n)
    fun j => j ≠ i % n ∧ j ≠ (i + 1) % n).isOpen_compl _ hnot
  refine ⟨ε, hε, fun x hx hc => ?_⟩
  obtain ⟨j, hj, hxj⟩ := hc
  by_contra hcon
  push Not at hcon
  refine hb (show x ∈ Metric.ball _ ε by rw [Metric.mem_ball, dist_eq_norm]; exact hx)
    ⟨j, hj, ⟨?_, ?_⟩, hxj⟩
  · rintro rfl
    rw [h.edge_mod] at hxj
    exact hcon.1 hxj
  · rintro rfl
    rw [h.edge_mod] at hxj
    exact hcon.2 hxj

theorem turn_rot (a b c : ℂ) : turn b c a = turn a b c := by unfold turn; ring

/-- The turns towards a place on the first edge. -/
theorem on_first {a v b x : ℂ} (hx : x ∈ segment ℝ a v) :
    turn a v x = 0 ∧ ∃ s : ℝ, 0 ≤ s ∧ turn v b x = s * turn a v b := by
  refine ⟨on_edge_turn hx, ?_⟩
  obtain ⟨u, t, hu, ht, hut, rfl⟩ := hx
  refine ⟨u, hu, ?_⟩
  rw [turn_comb2 _ _ _ _ hut, turn_first, turn_rot]
  ring

theorem on_second {a v b x : ℂ} (hx : x ∈ segment ℝ v b) :
    turn v b x = 0 ∧ ∃ s : ℝ, 0 ≤ s ∧ turn a v x = s * turn a v b := by
  refine ⟨on_edge_turn hx, ?_⟩
  obtain ⟨u, t, hu, ht, hut, rfl⟩ := hx
  refine ⟨t, ht, ?_⟩
  rw [turn_comb2 _ _ _ _ hut, turn_second]
  ring

/-- Neither angle contains places of the two edges. -/
theorem angle_off {a v b x : ℂ} (hx : x ∈ segment ℝ a v ∨ x ∈ segment ℝ v b) :
    ¬ Into a v b x ∧ ¬ Outof a v b x := by
  unfold Into Outof
  rcases hx with hx | hx
  · obtain ⟨h1, s, hs, h2⟩ := on_first (b := b) hx
    rw [h1, h2]
    split
    · rename_i hp
      have := mul_nonneg hs hp.le
      exact ⟨fun h => absurd h.1 (lt_irrefl _), by rintro (h | h) <;> linarith⟩
    · rename_i hp
      have := mul_nonpos_of_nonneg_of_nonpos hs (not_lt.1 hp)
      exact ⟨by rintro (h | h) <;> linarith, fun h => absurd h.1 (lt_irrefl _)⟩
  · obtain ⟨h1, s, hs, h2⟩ := on_second (a := a) hx
    rw [h1, h2]
    split
    · rename_i hp
      have := mul_nonneg hs hp.le
      exact ⟨fun h => absurd h.2 (lt_irrefl _), by rintro (h | h) <;> linarith⟩
    · rename_i hp
      have := mul_nonpos_of_nonneg_of_nonpos hs (not_lt.1 hp)
      exact ⟨by rintro (h | h) <;> linarith, fun h => absurd h.2 (lt_irrefl _)⟩

/-- At a straight corner both edges have the same sides. -/
theorem straight {a v b : ℂ} (hav : a ≠ v) (hvb : v ≠ b)
    (hsp : ∀ c : ℝ, 0 < c → b - v ≠ c • (a - v)) (ht : turn a v b = 0) :
    ∃ c : ℝ, 0 < c ∧ (b - v = c • (v - a)) ∧ ∀ x, turn v b x = c * turn a v x := by
  obtain ⟨t, hb⟩ := on_line hav ht
  have e : b - v = (t - 1) • (v - a) := by
    rw [hb]
    simp only [sub_smul, one_smul, smul_sub]
    abel
  have hc : 0 < t - 1 := by
    by_contra hc
    push Not at hc
    rcases hc.lt_or_eq with hc | hc
    · refine hsp (1 - t) (by linarith) ?_
      rw [e]
      simp only [sub_smul, one_smul, smul_sub]
      abel
    · rw [hc, zero_smul] at e
      exact hvb (sub_eq_zero.1 e).symm
  refine ⟨t - 1, hc, e, fun x => ?_⟩
  have hre := congrArg re e
  have him := congrArg im e
  simp only [sub_re, sub_im, real_smul, mul_re, mul_im, ofReal_re, ofReal_im] at hre him
  unfold turn
  have h1 : b.re = v.re + (t - 1) * (v.re - a.re) := by
    linarith
  have h2 : b.im = v.im + (t - 1) * (v.im - a.im) := by
    linarith
  rw [h1, h2]
  ring

/-- Both angles, near the corner, are connected. -/
theorem angle_connected {a v b : ℂ} (hav : a ≠ v) (hvb : v ≠ b)
    (hsp : ∀ c : ℝ, 0 < c → b - v ≠ c • (a - v)) {ε : ℝ} (hε : 0 < ε) :
    IsPreconnected (Metric.ball v ε ∩ {x | Into a v b x}) ∧
    IsPreconnected (Metric.ball v ε ∩ {x | Outof a v b x}) := by
  have hball := convex_ball v ε
  have hL1 := (side_convex a v).1
  have hL2 := (side_convex v b).1
  have hR1 := (side_convex a v).2
  have hR2 := (side_convex v b).2
  have two : ∀ S T : Set ℂ, Convex ℝ S → Convex ℝ T →
      (∃ x ∈ Metric.ball v ε, x ∈ S ∧ x ∈ T) → IsPreconnected (Metric.ball v ε ∩ (S ∪ T)) := by
    rintro S T hS hT ⟨x, hx, hxS, hxT⟩
    rw [Set.inter_union_distrib_left]
    exact IsPreconnected.union x ⟨hx, hxS⟩ ⟨hx, hxT⟩ (hball.inter hS).isPreconnected
      (hball.inter hT).isPreconnected
  -- a place in the ball in the direction of the difference of the edges
  have far : turn a v b ≠ 0 → ∃ x ∈ Metric.ball v ε, ∃ t : ℝ, 0 < t ∧
      turn a v x = -(t * turn a v b) ∧ turn v b x = -(t * turn a v b) := by
    intro hne
    obtain ⟨δ, h1, h2, h3⟩ := near_point v (v + ((v - a) - (b - v))) hε
    refine ⟨_, by rw [Metric.mem_ball, dist_eq_norm]; exact h3, δ, h1, ?_, ?_⟩ <;>
    · unfold turn
      simp
      ring
  by_cases hp : 0 < turn a v b
  · have e1 : {x | Into a v b x} = {x | 0 < turn a v x} ∩ {x | 0 < turn v b x} := by
      ext x; simp [Into, hp]
    have e2 : {x | Outof a v b x} = {x | turn a v x < 0} ∪ {x | turn v b x < 0} := by
      ext x; simp [Outof, hp]
    rw [e1, e2]
    refine ⟨(hball.inter (hL1.inter hL2)).isPreconnected, two _ _ hR1 hR2 ?_⟩
    obtain ⟨x, hx, t, ht, k1, k2⟩ := far hp.ne'
    have := mul_pos ht hp
    exact ⟨x, hx, by simp only [Set.mem_ofPred_eq]; linarith, by simp only [Set.mem_ofPred_eq]; linarith⟩
  · have e1 : {x | Into a v b x} = {x | 0 < turn a v x} ∪ {x | 0 < turn v b x} := by
      ext x; simp [Into, hp]
    have e2 : {x | Outof a v b x} = {x | turn a v x < 0} ∩ {x | turn v b x < 0} := by
      ext x; simp [Outof, hp]
    rw [e1, e2]
    refine ⟨?_, (hball.inter (hR1.inter hR2)).isPreconnected⟩
    rcases (not_lt.1 hp).lt_or_eq with hn | hz
    · refine two _ _ hL1 hL2 ?_
      obtain ⟨x, hx, t, ht, k1, k2⟩ := far hn.ne
      have := mul_neg_of_pos_of_neg ht hn
      exact ⟨x, hx, by simp only [Set.mem_ofPred_eq]; linarith, by simp only [Set.mem_ofPred_eq]; linarith⟩
    · obtain ⟨c, hc, -, hs⟩ := straight hav hvb hsp hz
      refine two _ _ hL1 hL2 ?_
      obtain ⟨⟨x, hx1, hx2⟩, -⟩ := near_side hav (turn_second a v) (Metric.ball_mem_nhds v hε)
      exact ⟨x, hx1, hx2, by simp only [Set.mem_ofPred_eq]; rw [hs]; positivity⟩

/-- Places on an edge near its ends. -/
theorem near_ends {a b : ℂ} {ε : ℝ} (hε : 0 < ε) :
    (∃ z ∈ openSegment ℝ a b, ‖z - a‖ < ε) ∧ ∃ z ∈ openSegment ℝ a b, ‖z - b‖ < ε := by
  constructor
  · obtain ⟨δ, h1, h2, h3⟩ := near_point a b hε
    exact ⟨_, ⟨1 - δ, δ, by linarith, h1, by ring, rfl⟩, h3⟩
  · obtain ⟨δ, h1, h2, h3⟩ := near_point b a hε
    exact ⟨_, ⟨δ, 1 - δ, h1, by linarith, by ring, add_comm _ _⟩, h3⟩

theorem turn_cont (p q : ℂ) : Continuous fun x => turn p q x := by
  unfold turn
  fun_prop

/-- Next to an edge, near the corner at its end or at its beginning, the angles of the corner are on
its two sides. -/
theorem angle_side {a v b : ℂ} (hav : a ≠ v) (hvb : v ≠ b)
    (hsp : ∀ c : ℝ, 0 < c → b - v ≠ c • (a - v)) :
    (∀ z ∈ openSegment ℝ a v, ∃ ε > 0, ∀ x, ‖x - z‖ < ε →
      (0 < turn a v x → Into a v b x) ∧ (turn a v x < 0 → Outof a v b x)) ∧
    (∀ z ∈ openSegment ℝ v b, ∃ ε > 0, ∀ x, ‖x - z‖ < ε →
      (0 < turn v b x → Into a v b x) ∧ (turn v b x < 0 → Outof a v b x)) := by
  have near : ∀ p q z : ℂ, (0 < turn p q z → ∃ ε > 0, ∀ x, ‖x - z‖ < ε → 0 < turn p q x) ∧
      (turn p q z < 0 → ∃ ε > 0, ∀ x, ‖x - z‖ < ε → turn p q x < 0) := by
    intro p q z
    constructor
    · intro h0
      obtain ⟨ε, hε, hb⟩ := Metric.isOpen_iff.1
        (isOpen_lt continuous_const (turn_cont p q)) z h0
      exact ⟨ε, hε, fun x hx => hb (by rw [Metric.mem_ball, dist_eq_norm]; exact hx)⟩
    · intro h0
      obtain ⟨ε, hε, hb⟩ := Metric.isOpen_iff.1
        (isOpen_lt (turn_cont p q) continuous_const) z h0
      exact ⟨ε, hε, fun x hx => hb (by rw [Metric.mem_ball, dist_eq_norm]; exact hx)⟩
  constructor
  · rintro z ⟨u, t, hu, ht, hut, rfl⟩
    have hz : turn v b (u • a + t • v) = u * turn a v b := by
      rw [turn_comb2 _ _ _ _ hut, turn_first, turn_rot]; ring
    rcases lt_trichotomy (turn a v b) 0 with hn | h0 | hp
    · obtain ⟨ε, hε, hb⟩ := (near v b (u • a + t • v)).2
        (by rw [hz]; exact mul_neg_of_pos_of_neg hu hn)
      refine ⟨ε, hε, fun x hx => ?_⟩
      simp only [Into, Outof, hn.not_gt, if_false]
      exact ⟨Or.inl, fun h => ⟨h, hb x hx⟩⟩
    · obtain ⟨c, hc, -, hs⟩ := straight hav hvb hsp h0
      refine ⟨1, one_pos, fun x _ => ?_⟩
      simp only [Into, Outof, h0, lt_irrefl, if_false, hs]
      exact ⟨Or.inl, fun h => ⟨h, mul_neg_of_pos_of_neg hc h⟩⟩
    · obtain ⟨ε, hε, hb⟩ := (near v b (u • a + t • v)).1 (by rw [hz]; exact mul_pos hu hp)
      refine ⟨ε, hε, fun x hx => ?_⟩
      simp only [Into, Outof, hp, if_true]
      exact ⟨fun h => ⟨h, hb x hx⟩, Or.inl⟩
  · rintro z ⟨u, t, hu, ht, hut, rfl⟩
    have hz : turn a v (u • v + t • b) = t * turn a v b := by
      rw [turn_comb2 _ _ _ _ hut, turn_second]; ring
    rcases lt_trichotomy (turn a v b) 0 with hn | h0 | hp
    · obtain ⟨ε, hε, hb⟩ := (near a v (u • v + t • b)).2
        (by rw [hz]; exact mul_neg_of_pos_of_neg ht hn)
      refine ⟨ε, hε, fun x hx => ?_⟩
      simp only [Into, Outof, hn.not_gt, if_false]
      exact ⟨Or.inr, fun h => ⟨hb x hx, h⟩⟩
    · obtain ⟨c, hc, -, hs⟩ := straight hav hvb hsp h0
      refine ⟨1, one_pos, fun x _ => ?_⟩
      simp only [Into, Outof, h0, lt_irrefl, if_false]
      refine ⟨Or.inr, fun h => ⟨?_, h⟩⟩
      rw [hs] at h
      by_contra hge
      have := mul_nonneg hc.le (not_lt.1 hge)
      linarith
    · obtain ⟨ε, hε, hb⟩ := (near a v (u • v + t • b)).1 (by rw [hz]; exact mul_pos ht hp)
      refine ⟨ε, hε, fun x hx => ?_⟩
      simp only [Into, Outof, hp, if_true]
      exact ⟨fun h => ⟨hb x hx, h⟩, Or.inr⟩

end Jordan

end Capi
