import Mathlib.Analysis.Convex.PathConnected
import Verif.Lemmas.Vistree
import Verif.Spec.SeaRoute

/-!
# Lemmas on routes over the sea
-/

namespace Capi

theorem pt_inj {a b : Coord} (h : a.pt = b.pt) : a = b := by
  have h1 := congrArg Complex.re h
  have h2 := congrArg Complex.im h
  simp only [Coord.pt] at h1 h2
  exact Coord.ext' (by exact_mod_cast h1) (by exact_mod_cast h2)

theorem turn_pt (a b c : Coord) : turn a.pt b.pt c.pt = (area2 a b c : ℤ) := by
  simp only [turn, Coord.pt, area2]
  push_cast
  ring

theorem turn_comb (p q a b c : ℂ) {α β γ : ℝ} (h : α + β + γ = 1) :
    turn p q (α • a + β • b + γ • c) = α * turn p q a + β * turn p q b + γ * turn p q c := by
  simp only [turn, Complex.add_re, Complex.add_im, Complex.smul_re, Complex.smul_im, smul_eq_mul]
  linear_combination ((q.re - p.re) * p.im - (q.im - p.im) * p.re) * h

theorem turn_comb2 (p q a b : ℂ) {α β : ℝ} (h : α + β = 1) :
    turn p q (α • a + β • b) = α * turn p q a + β * turn p q b := by
  simp only [turn, Complex.add_re, Complex.add_im, Complex.smul_re, Complex.smul_im, smul_eq_mul]
  linear_combination ((q.re - p.re) * p.im - (q.im - p.im) * p.re) * h

/-- A point on the line through two different points. -/
theorem on_line {p q w : ℂ} (hpq : p ≠ q) (h : turn p q w = 0) :
    ∃ t : ℝ, w = (1 - t) • p + t • q := by
  have hd : (q.re - p.re) ^ 2 + (q.im - p.im) ^ 2 ≠ 0 := by
    intro h0
    apply hpq
    apply Complex.ext <;> nlinarith [sq_nonneg (q.re - p.re), sq_nonneg (q.im - p.im)]
  unfold turn at h
  refine ⟨((w.re - p.re) * (q.re - p.re) + (w.im - p.im) * (q.im - p.im)) /
    ((q.re - p.re) ^ 2 + (q.im - p.im) ^ 2), ?_⟩
  apply Complex.ext
  · simp only [Complex.add_re, Complex.smul_re, smul_eq_mul]
    field_simp
    linear_combination (-(q.im - p.im)) * h
  · simp only [Complex.add_im, Complex.smul_im, smul_eq_mul]
    field_simp
    linear_combination (q.re - p.re) * h

/-- A segment that meets a convex set but has its ends outside contains what the set contains of
its line. -/
theorem line_in {S : Set ℂ} (hS : Convex ℝ S) {p q y w : ℂ} (hp : p ∉ S) (hq : q ∉ S)
    (hy : y ∈ openSegment ℝ p q) (hyS : y ∈ S) (hwS : w ∈ S) (hw : turn p q w = 0) :
    w ∈ openSegment ℝ p q := by
  have hpq : p ≠ q := by
    rintro rfl
    rw [openSegment_same] at hy
    exact hp (hy ▸ hyS)
  obtain ⟨t, rfl⟩ := on_line hpq hw
  obtain ⟨u, s, hu, hs, hus, rfl⟩ := hy
  obtain rfl : u = 1 - s := by linarith
  have h0 : 0 < t := by
    by_contra hc
    push Not at hc
    apply hp
    have := hS hwS hyS (a := s / (s - t)) (b := -t / (s - t)) (by apply div_nonneg <;> linarith)
      (by apply div_nonneg <;> linarith) (by rw [← add_div]; apply div_self; linarith)
    convert this using 1
    have : s - t ≠ 0 := by linarith
    apply Complex.ext <;>
    · simp only [Complex.add_re, Complex.smul_re, Complex.add_im, Complex.smul_im, smul_eq_mul]
      field_simp
      ring
  have h1 : t < 1 := by
    by_contra hc
    push Not at hc
    apply hq
    have := hS hwS hyS (a := (1 - s) / (t - s)) (b := (t - 1) / (t - s))
      (by apply div_nonneg <;> linarith)
      (by apply div_nonneg <;> linarith) (by rw [← add_div]; rw [div_eq_one_iff_eq] <;> linarith)
    convert this using 1
    have : t - s ≠ 0 := by linarith
    apply Complex.ext <;>
    · simp only [Complex.add_re, Complex.smul_re, Complex.add_im, Complex.smul_im, smul_eq_mul]
      field_simp
      ring
  exact ⟨1 - t, t, by linarith, h0, by ring, rfl⟩

/-- The triangle `a b c` without the side from `a` to `c`. -/
def Upper (a b c : ℂ) : Set ℂ :=
  {x | ∃ α β γ : ℝ, 0 ≤ α ∧ 0 < β ∧ 0 ≤ γ ∧ α + β + γ = 1 ∧ x = α • a + β • b + γ • c}

theorem upper_convex (a b c : ℂ) : Convex ℝ (Upper a b c) := by
  rintro x ⟨α, β, γ, h1, h2, h3, h4, rfl⟩ y ⟨α', β', γ', k1, k2, k3, k4, rfl⟩ u v hu hv huv
  refine ⟨u * α + v * α', u * β + v * β', u * γ + v * γ', by positivity, ?_, by positivity, ?_, ?_⟩
  · rcases hu.lt_or_eq with hu' | rfl
    · have := mul_pos hu' h2
      have := mul_nonneg hv k2.le
      linarith
    · obtain rfl : v = 1 := by linarith
      linarith
  · linear_combination u * h4 + v * k4 + huv
  · simp only [smul_add, smul_smul, add_smul]
    abel

/-- The interior of the triangle. -/
def Inner (a b c : ℂ) : Set ℂ :=
  {x | ∃ α β γ : ℝ, 0 < α ∧ 0 < β ∧ 0 < γ ∧ α + β + γ = 1 ∧ x = α • a + β • b + γ • c}

theorem inner_convex (a b c : ℂ) : Convex ℝ (Inner a b c) := by
  rintro x ⟨α, β, γ, h1, h2, h3, h4, rfl⟩ y ⟨α', β', γ', k1, k2, k3, k4, rfl⟩ u v hu hv huv
  have pos : ∀ r s : ℝ, 0 < r → 0 < s → 0 < u * r + v * s := by
    intro r s hr hs
    rcases hu.lt_or_eq with hu' | rfl
    · have := mul_pos hu' hr
      have := mul_nonneg hv hs.le
      linarith
    · obtain rfl : v = 1 := by linarith
      linarith
  refine ⟨u * α + v * α', u * β + v * β', u * γ + v * γ', pos _ _ h1 k1, pos _ _ h2 k2,
    pos _ _ h3 k3, ?_, ?_⟩
  · linear_combination u * h4 + v * k4 + huv
  · simp only [smul_add, smul_smul, add_smul]
    abel

/-- Three points on a line through two different points are on a line. -/
theorem turn_zero {p q a b c : ℂ} (hpq : p ≠ q) (ha : turn p q a = 0) (hb : turn p q b = 0)
    (hc : turn p q c = 0) : turn a b c = 0 := by
  obtain ⟨r, rfl⟩ := on_line hpq ha
  obtain ⟨s, rfl⟩ := on_line hpq hb
  obtain ⟨t, rfl⟩ := on_line hpq hc
  simp only [turn, Complex.add_re, Complex.smul_re, Complex.add_im, Complex.smul_im, smul_eq_mul]
  ring

/-- Points close to `z` on the way to `u`. -/
theorem near_point (z u : ℂ) {ε : ℝ} (hε : 0 < ε) :
    ∃ δ : ℝ, 0 < δ ∧ δ ≤ 1 / 2 ∧ ‖((1 - δ) • z + δ • u) - z‖ < ε := by
  have hd : 0 < ‖u - z‖ + 1 := by positivity
  refine ⟨min (1 / 2) (ε / (2 * (‖u - z‖ + 1))), by positivity, min_le_left _ _, ?_⟩
  set δ := min (1 / 2) (ε / (2 * (‖u - z‖ + 1)))
  have h0 : 0 < δ := by positivity
  have e : ((1 - δ) • z + δ • u) - z = δ • (u - z) := by
    rw [sub_smul, one_smul, smul_sub]; abel
  rw [e, norm_smul, Real.norm_of_nonneg h0.le]
  have h1 : δ ≤ ε / (2 * (‖u - z‖ + 1)) := min_le_right _ _
  calc δ * ‖u - z‖ ≤ ε / (2 * (‖u - z‖ + 1)) * (‖u - z‖ + 1) :=
        mul_le_mul h1 (by linarith) (norm_nonneg _) (by positivity)
    _ = ε / 2 := by field_simp
    _ < ε := by linarith

theorem turn_first (p q : ℂ) : turn p q p = 0 := by unfold turn; ring

theorem turn_second (p q : ℂ) : turn p q q = 0 := by unfold turn; ring

/-- A line over the sea does not touch an edge from the left. -/
theorem not_left {p : List Coord} {A : Set ℂ} (hA : Encloses p A) {u w : ℂ} (h : AtSea A u w)
    {e : Seg} (he : EdgeOf [p] e) {z : ℂ} (hz : z ∈ segment ℝ u w)
    (hze : z ∈ openSegment ℝ e.p.pt e.q.pt) :
    turn e.p.pt e.q.pt u ≤ 0 ∧ turn e.p.pt e.q.pt w ≤ 0 := by
  have tz : turn e.p.pt e.q.pt z = 0 := by
    obtain ⟨r, s, -, -, hrs, rfl⟩ := hze
    rw [turn_comb2 _ _ _ _ hrs, turn_first, turn_second]
    ring
  obtain ⟨ε, hε, hl⟩ := hA.left e he z hze
  have key : ∀ v, v ∈ segment ℝ u w → turn e.p.pt e.q.pt v ≤ 0 := by
    intro v hv
    by_contra hc
    push Not at hc
    obtain ⟨δ, h0, h1, h2⟩ := near_point z v hε
    refine h _ ((convex_segment u w) hz hv (by linarith : 0 ≤ 1 - δ) h0.le (by ring)) (hl _ h2 ?_)
    rw [turn_comb2 _ _ _ _ (by ring), tz]
    have := mul_pos h0 hc
    linarith
  exact ⟨key u (left_mem_segment ℝ u w), key w (right_mem_segment ℝ u w)⟩

theorem edge_vertex {p : List Coord} {e : Seg} (he : EdgeOf [p] e) : e.p ∈ p ∧ e.q ∈ p := by
  obtain ⟨q, hq, i, hi, rfl⟩ := he
  obtain rfl := List.mem_singleton.1 hq
  exact ⟨Vistree.ringAt_mem (by omega), Vistree.ringAt_mem (by omega)⟩

/-- Where the border meets the triangle, if no vertex is in it but on the side from `a` to `c` and
the other two sides are over the sea. -/
theorem border_in_upper {p : List Coord} {A : Set ℂ} (hA : Encloses p A) {a b c : ℂ}
    (hab : AtSea A a b) (hbc : AtSea A b c) (hno : ∀ v ∈ p, v.pt ∉ Upper a b c)
    {e : Seg} (he : EdgeOf [p] e) {α β γ : ℝ} (hα : 0 ≤ α) (hβ : 0 < β) (hγ : 0 ≤ γ)
    (hs : α + β + γ = 1) (hy : α • a + β • b + γ • c ∈ openSegment ℝ e.p.pt e.q.pt) :
    turn e.p.pt e.q.pt b = 0 ∧ turn e.p.pt e.q.pt a ≤ 0 ∧ turn e.p.pt e.q.pt c ≤ 0 ∧
      α * turn e.p.pt e.q.pt a = 0 ∧ γ * turn e.p.pt e.q.pt c = 0 := by
  have hp : e.p.pt ∉ Upper a b c ∧ e.q.pt ∉ Upper a b c :=
    ⟨hno _ (edge_vertex he).1, hno _ (edge_vertex he).2⟩
  have hin : ∀ w ∈ Upper a b c, turn e.p.pt e.q.pt w = 0 → w ∈ openSegment ℝ e.p.pt e.q.pt :=
    fun w hw ht => line_in (upper_convex a b c) hp.1 hp.2 hy ⟨α, β, γ, hα, hβ, hγ, hs, rfl⟩ hw ht
  have ty : α * turn e.p.pt e.q.pt a + β * turn e.p.pt e.q.pt b + γ * turn e.p.pt e.q.pt c = 0 := by
    rw [← turn_comb _ _ _ _ _ hs]
    obtain ⟨r, s, -, -, hrs, h⟩ := hy
    rw [← h, turn_comb2 _ _ _ _ hrs, turn_first, turn_second]
    ring
  -- the line meets the sides only if both ends are not to its left
  have side1 : ∀ t : ℝ, 0 < t → t ≤ 1 →
      (1 - t) * turn e.p.pt e.q.pt a + t * turn e.p.pt e.q.pt b = 0 →
      turn e.p.pt e.q.pt a ≤ 0 ∧ turn e.p.pt e.q.pt b ≤ 0 := by
    intro t h0 h1 ht
    have hz : turn e.p.pt e.q.pt ((1 - t) • a + t • b) = 0 := by
      rw [turn_comb2 _ _ _ _ (by ring)]; exact ht
    exact not_left hA hab he ⟨1 - t, t, by linarith, h0.le, by ring, rfl⟩
      (hin _ ⟨1 - t, t, 0, by linarith, h0, le_refl _, by ring, by rw [zero_smul, add_zero]⟩ hz)
  have side2 : ∀ t : ℝ, 0 < t → t ≤ 1 →
      (1 - t) * turn e.p.pt e.q.pt c + t * turn e.p.pt e.q.pt b = 0 →
      turn e.p.pt e.q.pt b ≤ 0 ∧ turn e.p.pt e.q.pt c ≤ 0 := by
    intro t h0 h1 ht
    have hz : turn e.p.pt e.q.pt (t • b + (1 - t) • c) = 0 := by
      rw [turn_comb2 _ _ _ _ (by ring)]; linarith
    exact not_left hA hbc he ⟨t, 1 - t, h0.le, by linarith, by ring, rfl⟩
      (hin _ ⟨0, t, 1 - t, le_refl _, h0, by linarith, by ring, by rw [zero_smul, zero_add]⟩ hz)
  generalize turn e.p.pt e.q.pt a = la at *
  generalize turn e.p.pt e.q.pt b = lb at *
  generalize turn e.p.pt e.q.pt c = lc at *
  -- where the line through two values of opposite sign meets the side
  have cross : ∀ l : ℝ, l * lb < 0 → 0 < l / (l - lb) ∧ l / (l - lb) ≤ 1 ∧
      (1 - l / (l - lb)) * l + l / (l - lb) * lb = 0 := by
    intro l hl
    have hne : l - lb ≠ 0 := by
      intro h
      have : l = lb := by linarith
      subst this
      nlinarith [mul_self_nonneg l]
    rcases mul_neg_iff.1 hl with ⟨h1, h2⟩ | ⟨h1, h2⟩
    · refine ⟨div_pos h1 (by linarith), ?_, ?_⟩
      · rw [div_le_one (by linarith)]; linarith
      · field_simp; ring
    · refine ⟨div_pos_of_neg_of_neg h1 (by linarith), ?_, ?_⟩
      · rw [div_le_one_of_neg (by linarith)]; linarith
      · field_simp; ring
  have hb0 : lb = 0 := by
    by_contra hb
    have hneg : la * lb < 0 ∨ lc * lb < 0 := by
      by_contra hc
      push Not at hc
      have := mul_nonneg hα hc.1
      have := mul_nonneg hγ hc.2
      have hb2 : 0 < lb * lb := mul_self_pos.2 hb
      have := mul_pos hβ hb2
      have e2 : α * (la * lb) + β * (lb * lb) + γ * (lc * lb) = 0 := by
        linear_combination lb * ty
      linarith
    rcases hneg with hl | hl
    · obtain ⟨t0, t1, t2⟩ := cross la hl
      obtain ⟨k1, k2⟩ := side1 _ t0 t1 t2
      nlinarith
    · obtain ⟨t0, t1, t2⟩ := cross lc hl
      obtain ⟨k1, k2⟩ := side2 _ t0 t1 t2
      nlinarith
  subst hb0
  obtain ⟨k1, -⟩ := side1 1 one_pos le_rfl (by ring)
  obtain ⟨-, k2⟩ := side2 1 one_pos le_rfl (by ring)
  have m1 := mul_nonneg hα (neg_nonneg.2 k1)
  have m2 := mul_nonneg hγ (neg_nonneg.2 k2)
  exact ⟨rfl, k1, k2, by linarith, by linarith⟩

/-- A point of the border that is no vertex is inside an edge. -/
theorem border_open {p : List Coord} {A : Set ℂ} (hA : Encloses p A) {S : Set ℂ}
    (hno : ∀ v ∈ p, v.pt ∉ S) {z : ℂ} (hz : z ∈ frontier A) (hS : z ∈ S) :
    ∃ e, EdgeOf [p] e ∧ z ∈ openSegment ℝ e.p.pt e.q.pt := by
  obtain ⟨e, he, hze⟩ := hA.border z hz
  refine ⟨e, he, ?_⟩
  obtain ⟨h1, h2⟩ := edge_vertex he
  refine mem_openSegment_of_ne_left_right ?_ ?_ hze
  · rintro rfl; exact hno _ h1 hS
  · rintro rfl; exact hno _ h2 hS

/-- Points on a line: the way from `a` to `c` is part of the way by `b`. -/
theorem segment_of_line {a b c : ℂ} (h : turn a b c = 0) {z : ℂ} (hz : z ∈ segment ℝ a c) :
    z ∈ segment ℝ a b ∨ z ∈ segment ℝ b c := by
  by_cases hab : a = b
  · subst hab; exact .inr hz
  obtain ⟨t, rfl⟩ := on_line hab h
  obtain ⟨r, s, hr, hs, hrs, rfl⟩ := hz
  obtain rfl : r = 1 - s := by linarith
  by_cases h0 : 0 ≤ s * t ∧ s * t ≤ 1
  · refine .inl ⟨1 - s * t, s * t, by linarith, h0.1, by ring, ?_⟩
    apply Complex.ext <;>
    · simp only [Complex.add_re, Complex.smul_re, Complex.add_im, Complex.smul_im, smul_eq_mul]
      ring
  · right
    have ht : t - 1 ≠ 0 := by
      intro h
      obtain rfl : t = 1 := by linarith
      exact h0 ⟨by linarith, by linarith⟩
    have hm : s * t - t = (s - 1) * t := by ring
    have hσ : 0 ≤ (s * t - 1) / (t - 1) ∧ (s * t - 1) / (t - 1) ≤ 1 := by
      rcases lt_or_gt_of_ne ht with h1 | h1
      · have : s * t < 0 ∨ 1 < s * t := by
          by_contra hc
          push Not at hc
          exact h0 hc
        have hst : s * t ≤ 1 := by
          by_cases h2 : 0 ≤ t
          · nlinarith
          · nlinarith
        have : s * t < 0 := this.resolve_right (by linarith)
        have ht0 : t < 0 := by
          by_contra hc
          push Not at hc
          have := mul_nonneg hs hc
          linarith
        have : t ≤ s * t := by nlinarith
        refine ⟨div_nonneg_of_nonpos (by linarith) h1.le, ?_⟩
        rw [div_le_one_of_neg h1]
        linarith
      · have : 0 ≤ s * t := mul_nonneg hs (by linarith)
        have h2 : 1 < s * t := by
          by_contra hc
          push Not at hc
          exact h0 ⟨this, hc⟩
        have : s * t ≤ t := by nlinarith
        refine ⟨div_nonneg (by linarith) h1.le, ?_⟩
        rw [div_le_one h1]
        linarith
    refine ⟨1 - (s * t - 1) / (t - 1), (s * t - 1) / (t - 1), by linarith, hσ.1, by ring, ?_⟩
    apply Complex.ext <;>
    · simp only [Complex.add_re, Complex.smul_re, Complex.add_im, Complex.smul_im, smul_eq_mul]
      field_simp
      ring

/-- A shortcut: if `a b` and `b c` are over the sea and no vertex of the ring is in the triangle,
except on the side from `a` to `c`, then this side is over the sea. -/
theorem shortcut {p : List Coord} {A : Set ℂ} (hA : Encloses p A) {a b c : ℂ}
    (hab : AtSea A a b) (hbc : AtSea A b c) (hno : ∀ v ∈ p, v.pt ∉ Upper a b c) : AtSea A a c := by
  intro x hx hxA
  by_cases hdeg : turn a b c = 0
  · rcases segment_of_line hdeg hx with h | h
    · exact hab x h hxA
    · exact hbc x h hxA
  obtain ⟨r, s, hr, hs, hrs, rfl⟩ := hx
  have hr0 : 0 < r := by
    rcases hr.lt_or_eq with h | rfl
    · exact h
    · obtain rfl : s = 1 := by linarith
      rw [zero_smul, one_smul, zero_add] at hxA
      exact absurd hxA (hbc c (right_mem_segment ℝ b c))
  have hs0 : 0 < s := by
    rcases hs.lt_or_eq with h | rfl
    · exact h
    · obtain rfl : r = 1 := by linarith
      rw [zero_smul, one_smul, add_zero] at hxA
      exact absurd hxA (hab a (left_mem_segment ℝ a b))
  have hnd : ∀ p q : ℂ, p ≠ q → turn p q b = 0 → turn p q a = 0 → turn p q c = 0 → False :=
    fun p q hpq hb ha hc => hdeg (turn_zero hpq ha hb hc)
  have hne : ∀ e, EdgeOf [p] e → ∀ z, z ∈ openSegment ℝ e.p.pt e.q.pt → z ∈ Upper a b c →
      e.p.pt ≠ e.q.pt := by
    intro e he z hz hzU heq
    rw [heq, openSegment_same] at hz
    exact hno _ (edge_vertex he).2 (hz ▸ hzU)
  -- the interior of the triangle does not meet the border
  have hfr : ∀ z ∈ Inner a b c, z ∉ frontier A := by
    rintro z ⟨α, β, γ, h1, h2, h3, h4, rfl⟩ hz
    have hU : α • a + β • b + γ • c ∈ Upper a b c := ⟨α, β, γ, h1.le, h2, h3.le, h4, rfl⟩
    obtain ⟨e, he, hze⟩ := border_open hA hno hz hU
    obtain ⟨k1, -, -, k4, k5⟩ := border_in_upper hA hab hbc hno he h1.le h2 h3.le h4 hze
    exact hnd _ _ (hne e he _ hze hU) k1 ((mul_eq_zero.1 k4).resolve_left h1.ne')
      ((mul_eq_zero.1 k5).resolve_left h3.ne')
  -- so it belongs to the region
  have hsub : Inner a b c ⊆ A := by
    refine IsPreconnected.subset_left_of_subset_union hA.isOpen
      (isClosed_closure (s := A)).isOpen_compl
      (Set.disjoint_left.2 fun z hz hz' => hz' (subset_closure hz)) ?_ ?_
      (inner_convex a b c).isPreconnected
    · intro z hz
      by_cases hzA : z ∈ A
      · exact .inl hzA
      · refine .inr fun hcl => hfr z hz ?_
        rw [hA.isOpen.frontier_eq]
        exact ⟨hcl, hzA⟩
    · obtain ⟨ε, hε, hball⟩ := Metric.isOpen_iff.1 hA.isOpen _ hxA
      obtain ⟨δ, h0, h1, h2⟩ := near_point (r • a + s • c) b hε
      refine ⟨(1 - δ) • (r • a + s • c) + δ • b,
        ⟨(1 - δ) * r, δ, (1 - δ) * s, mul_pos (by linarith) hr0, h0, mul_pos (by linarith) hs0,
          by linear_combination (1 - δ) * hrs, ?_⟩, hball ?_⟩
      · rw [smul_add, smul_smul, smul_smul]; abel
      · rw [Metric.mem_ball, dist_eq_norm]; exact h2
  -- so `b` is on the border
  have hbA : b ∉ A := hab b (right_mem_segment ℝ a b)
  have hbU : b ∈ Upper a b c :=
    ⟨0, 1, 0, le_refl _, one_pos, le_refl _, by ring, by rw [zero_smul, one_smul, zero_smul, zero_add, add_zero]⟩
  have inner_near : ∀ δ : ℝ, 0 < δ → δ ≤ 1 / 2 →
      (1 - δ) • b + δ • ((1 / 2 : ℝ) • a + (1 / 2 : ℝ) • c) ∈ Inner a b c := by
    intro δ h0 h1
    refine ⟨δ * (1 / 2), 1 - δ, δ * (1 / 2), by positivity, by linarith, by positivity, by ring, ?_⟩
    rw [smul_add, smul_smul, smul_smul]; abel
  have hbf : b ∈ frontier A := by
    rw [hA.isOpen.frontier_eq]
    refine ⟨?_, hbA⟩
    rw [Metric.mem_closure_iff]
    intro ε hε
    obtain ⟨δ, h0, h1, h2⟩ := near_point b ((1 / 2 : ℝ) • a + (1 / 2 : ℝ) • c) hε
    refine ⟨_, hsub (inner_near δ h0 h1), ?_⟩
    rw [dist_comm, dist_eq_norm]
    exact h2
  obtain ⟨e, he, hbe⟩ := border_open hA hno hbf hbU
  obtain ⟨k1, k2, k3, -, -⟩ := border_in_upper hA hab hbc hno he (le_refl 0) one_pos (le_refl 0)
    (by ring) (by rw [zero_smul, one_smul, zero_smul, zero_add, add_zero]; exact hbe)
  obtain ⟨ε, hε, hright⟩ := hA.right e he b hbe
  obtain ⟨δ, h0, h1, h2⟩ := near_point b ((1 / 2 : ℝ) • a + (1 / 2 : ℝ) • c) hε
  refine hright _ h2 ?_ (hsub (inner_near δ h0 h1))
  rw [turn_comb2 _ _ _ _ (by ring), turn_comb2 _ _ _ _ (by norm_num), k1]
  have : turn e.p.pt e.q.pt a < 0 ∨ turn e.p.pt e.q.pt c < 0 := by
    by_contra hc
    push Not at hc
    exact hnd _ _ (hne e he _ hbe hbU) k1 (le_antisymm k2 hc.1) (le_antisymm k3 hc.2)
  have : (1 / 2 : ℝ) * turn e.p.pt e.q.pt a + 1 / 2 * turn e.p.pt e.q.pt c < 0 := by
    rcases this with h | h <;> linarith
  have := mul_neg_of_pos_of_neg h0 this
  linarith

/-! ### Pulling a route tight -/

/-- There is a chain from `a` to `c`, by points of `V` only, no longer than `L`. -/
def Via (V : Set ℂ) (R : ℂ → ℂ → Prop) (a c : ℂ) (L : ℝ) : Prop :=
  ∃ l : List ℂ, (∀ x ∈ l, x ∈ V) ∧ (a :: (l ++ [c])).IsChain R ∧
    walkLength (fun u v => ‖u - v‖) (a :: (l ++ [c])) ≤ L

theorem via_direct {V : Set ℂ} {R : ℂ → ℂ → Prop} {a c : ℂ} {L : ℝ} (h : R a c)
    (hL : ‖a - c‖ ≤ L) : Via V R a c L :=
  ⟨[], by simp, by simpa using h, by simpa [walkLength] using hL⟩

theorem via_cons {V : Set ℂ} {R : ℂ → ℂ → Prop} {a v c : ℂ} {L L' : ℝ} (h : R a v) (hv : v ∈ V)
    (hc : Via V R v c L) (hL : ‖a - v‖ + L ≤ L') : Via V R a c L' := by
  obtain ⟨l, h1, h2, h3⟩ := hc
  refine ⟨v :: l, by simpa using ⟨hv, h1⟩, ?_, ?_⟩
  · rw [List.cons_append, List.isChain_cons_cons]
    exact ⟨h, h2⟩
  · rw [List.cons_append]
    unfold walkLength
    linarith

theorem via_trans {V : Set ℂ} {R : ℂ → ℂ → Prop} {a u c : ℂ} {L M L' : ℝ} (h : Via V R a u L)
    (hu : u ∈ V) (hc : Via V R u c M) (hL : L + M ≤ L') : Via V R a c L' := by
  obtain ⟨l, h1, h2, h3⟩ := h
  induction l generalizing a L L' with
  | nil =>
    simp only [List.nil_append, List.isChain_cons_cons, List.isChain_singleton, and_true,
      walkLength, add_zero] at h2 h3
    exact via_cons h2 hu hc (by linarith)
  | cons x r ih =>
    rw [List.cons_append, List.isChain_cons_cons] at h2
    rw [List.cons_append] at h3
    unfold walkLength at h3
    refine via_cons h2.1 (h1 x List.mem_cons_self) (ih (L := L - ‖a - x‖) (L' := L - ‖a - x‖ + M)
      (by linarith) (fun y hy => h1 y (List.mem_cons_of_mem _ hy)) h2.2 (by linarith)) (by linarith)

theorem AtSea.symm {land : Set ℂ} {a b : ℂ} (h : AtSea land a b) : AtSea land b a := by
  intro z hz
  rw [segment_symm] at hz
  exact h z hz

theorem AtSea.sub {land : Set ℂ} {a b u w : ℂ} (h : AtSea land a b) (hu : u ∈ segment ℝ a b)
    (hw : w ∈ segment ℝ a b) : AtSea land u w :=
  fun z hz => h z ((convex_segment a b).segment_subset hu hw hz)

/-- Two lines over the sea are replaced by lines between vertices in their triangle. -/
theorem tighten {ps : List (List Coord)} {land : List Coord → Set ℂ}
    (hA : ∀ p ∈ ps, Encloses p (land p)) (V : Finset ℂ) (hV : ∀ p ∈ ps, ∀ v ∈ p, v.pt ∈ V)
    (a b c : ℂ) (hab : ∀ p ∈ ps, AtSea (land p) a b) (hbc : ∀ p ∈ ps, AtSea (land p) b c) :
    Via V (fun u w => ∀ p ∈ ps, AtSea (land p) u w) a c (‖a - b‖ + ‖b - c‖) := by
  classical
  induction hn : (V.filter (· ∈ Upper a b c)).card using Nat.strong_induction_on
    generalizing a b c with
  | _ n ih =>
  have tri : ‖a - c‖ ≤ ‖a - b‖ + ‖b - c‖ := norm_sub_le_norm_sub_add_norm_sub a b c
  by_cases hempty : V.filter (· ∈ Upper a b c) = ∅
  · refine via_direct (fun p hp => shortcut (hA p hp) (hab p hp) (hbc p hp) fun v hv hU => ?_) tri
    have := Finset.mem_filter.2 ⟨hV p hp v hv, hU⟩
    rw [hempty] at this
    simp at this
  by_cases hdeg : turn a b c = 0
  · refine via_direct (fun p hp z hz => ?_) tri
    rcases segment_of_line hdeg hz with h | h
    · exact hab p hp z h
    · exact hbc p hp z h
  -- the share of `c` in the point where the line from `a` through `x` meets the other side
  let cs : ℂ → ℝ := fun x => turn a b x / turn a b c
  let bs : ℂ → ℝ := fun x => turn a c x / turn a c b
  have hdeg' : turn a c b ≠ 0 := by
    intro h; apply hdeg
    unfold turn at h ⊢
    linarith
  have hcs : ∀ α β γ : ℝ, α + β + γ = 1 → cs (α • a + β • b + γ • c) = γ := by
    intro α β γ h
    change turn a b _ / turn a b c = γ
    rw [turn_comb _ _ _ _ _ h, turn_first, turn_second]
    field_simp
    ring
  have hbs : ∀ α β γ : ℝ, α + β + γ = 1 → bs (α • a + β • b + γ • c) = β := by
    intro α β γ h
    change turn a c _ / turn a c b = β
    rw [turn_comb _ _ _ _ _ h, turn_first, turn_second]
    field_simp
    ring
  obtain ⟨v, hv, hmin⟩ := Finset.exists_min_image (V.filter (· ∈ Upper a b c))
    (fun x => cs x / (bs x + cs x)) (Finset.nonempty_iff_ne_empty.2 hempty)
  rw [Finset.mem_filter] at hv
  obtain ⟨hvV, α, β, γ, hα, hβ, hγ, hs, rfl⟩ := hv
  rw [hcs _ _ _ hs, hbs _ _ _ hs] at hmin
  have hβγ : 0 < β + γ := by linarith
  set s := γ / (β + γ) with hsdef
  have hs0 : 0 ≤ s := div_nonneg hγ hβγ.le
  have hs1 : s < 1 := by rw [hsdef, div_lt_one hβγ]; linarith
  have hsmul : (β + γ) * s = γ := by rw [hsdef]; field_simp
  set b' := (1 - s) • b + s • c with hb'
  have hb'mem : b' ∈ segment ℝ b c := ⟨1 - s, s, by linarith, hs0, by ring, rfl⟩
  have hvab' : α • a + β • b + γ • c = α • a + (β + γ) • b' := by
    have e1 : (β + γ) * (1 - s) = β := by linear_combination -hsmul
    rw [hb', smul_add, smul_smul, smul_smul, hsmul, e1, add_assoc]
  have hvmem : α • a + β • b + γ • c ∈ segment ℝ a b' :=
    ⟨α, β + γ, hα, hβγ.le, by linarith, hvab'.symm⟩
  -- the line from `a` through this vertex is over the sea
  have hab' : ∀ p ∈ ps, AtSea (land p) a b' := by
    intro p hp
    rcases hs0.lt_or_eq with hs0' | hs0'
    · refine shortcut (hA p hp) (hab p hp)
        ((hbc p hp).sub (left_mem_segment ℝ b c) hb'mem) fun w hw hU => ?_
      obtain ⟨x, y, z, hx, hy, hz, hxyz, hwe⟩ := hU
      have hyz : 0 < y + z * (1 - s) := by
        have := mul_nonneg hz (by linarith : 0 ≤ 1 - s)
        linarith
      have hsum : x + (y + z * (1 - s)) + z * s = 1 := by linear_combination hxyz
      have hwe' : w.pt = x • a + (y + z * (1 - s)) • b + (z * s) • c := by
        rw [hwe, hb', smul_add, smul_smul, smul_smul, add_smul]
        abel
      have := hmin w.pt (Finset.mem_filter.2 ⟨hV p hp w hw, x, y + z * (1 - s), z * s, hx, hyz,
        mul_nonneg hz hs0, hsum, hwe'⟩)
      rw [hwe', hcs _ _ _ hsum, hbs _ _ _ hsum, le_div_iff₀ (by nlinarith)] at this
      nlinarith
    · have : b' = b := by rw [hb', ← hs0', sub_zero, one_smul, zero_smul, add_zero]
      rw [this]
      exact hab p hp
  have hav : ∀ p ∈ ps, AtSea (land p) a (α • a + β • b + γ • c) := fun p hp =>
    (hab' p hp).sub (left_mem_segment ℝ a b') hvmem
  have hvb' : ∀ p ∈ ps, AtSea (land p) (α • a + β • b + γ • c) b' := fun p hp =>
    (hab' p hp).sub hvmem (right_mem_segment ℝ a b')
  have hb'c : ∀ p ∈ ps, AtSea (land p) b' c := fun p hp =>
    (hbc p hp).sub hb'mem (right_mem_segment ℝ b c)
  -- lengths
  have l1 : ‖a - (α • a + β • b + γ • c)‖ + ‖(α • a + β • b + γ • c) - b'‖ = ‖a - b'‖ := by
    have e1 : a - (α • a + (β + γ) • b') = (β + γ) • (a - b') := by
      obtain rfl : α = 1 - (β + γ) := by linarith
      rw [sub_smul, one_smul, smul_sub]; abel
    have e2 : (α • a + (β + γ) • b') - b' = α • (a - b') := by
      have : β + γ = 1 - α := by linarith
      rw [this, sub_smul, one_smul, smul_sub]; abel
    rw [hvab', e1, e2, norm_smul, norm_smul, Real.norm_of_nonneg hβγ.le, Real.norm_of_nonneg hα]
    linear_combination ‖a - b'‖ * hs
  have l2 : ‖b - b'‖ + ‖b' - c‖ = ‖b - c‖ := by
    have e1 : b - b' = s • (b - c) := by rw [hb', sub_smul, one_smul, smul_sub]; abel
    have e2 : b' - c = (1 - s) • (b - c) := by rw [hb', smul_sub, sub_smul, sub_smul, one_smul, one_smul]; abel
    rw [e1, e2, norm_smul, norm_smul, Real.norm_of_nonneg hs0,
      Real.norm_of_nonneg (by linarith : 0 ≤ 1 - s)]
    ring
  have l3 : ‖a - b'‖ ≤ ‖a - b‖ + ‖b - b'‖ := norm_sub_le_norm_sub_add_norm_sub a b b'
  rcases hα.lt_or_eq with hα0 | rfl
  · refine via_cons hav hvV (ih _ ?_ (α • a + β • b + γ • c) b' c hvb' hb'c rfl) (by linarith)
    rw [← hn]
    apply Finset.card_lt_card
    rw [Finset.ssubset_iff_of_subset]
    · refine ⟨α • a + β • b + γ • c, Finset.mem_filter.2 ⟨hvV, α, β, γ, hα, hβ, hγ, hs, rfl⟩, ?_⟩
      intro hmem
      obtain ⟨-, x, y, z, hx, hy, hz, hxyz, he⟩ := Finset.mem_filter.1 hmem
      have h1 := congrArg bs he
      have h2 := congrArg cs he
      have e : x • (α • a + β • b + γ • c) + y • b' + z • c =
          (x * α) • a + (x * β + y * (1 - s)) • b + (x * γ + y * s + z) • c := by
        rw [hb']
        simp only [smul_add, smul_smul, add_smul]
        abel
      have hsum : x * α + (x * β + y * (1 - s)) + (x * γ + y * s + z) = 1 := by
        linear_combination x * hs + hxyz
      rw [e, hbs _ _ _ hs, hbs _ _ _ hsum] at h1
      rw [e, hcs _ _ _ hs, hcs _ _ _ hsum] at h2
      -- the share of `a` shows that only the vertex itself counts
      have h3 : (1 - x) * α = 0 := by linear_combination hs - hsum - h1 - h2
      have hx1 : x = 1 := by
        rcases mul_eq_zero.1 h3 with h | h
        · linarith
        · exact absurd h hα0.ne'
      linarith
    · intro w hw
      obtain ⟨hwV, x, y, z, hx, hy, hz, hxyz, rfl⟩ := Finset.mem_filter.1 hw
      refine Finset.mem_filter.2 ⟨hwV, x * α, x * β + y * (1 - s), x * γ + y * s + z, by positivity,
        ?_, by positivity, ?_, ?_⟩
      · have := mul_pos hy (by linarith : 0 < 1 - s)
        have := mul_nonneg hx hβ.le
        linarith
      · linear_combination x * hs + hxyz
      · rw [hb']
        simp only [smul_add, smul_smul, add_smul]
        abel
  · -- the vertex is on the way from `b` to `c`
    have hvb : (0 : ℝ) • a + β • b + γ • c = b' := by
      rw [hvab', zero_smul, zero_add]
      have : β + γ = 1 := by linarith
      rw [this, one_smul]
    rw [hvb] at hav hvV
    exact via_cons hav hvV (via_direct hb'c le_rfl) (by linarith)

/-- A route over the sea is no shorter than some chain by vertices. -/
theorem pull_tight {ps : List (List Coord)} {land : List Coord → Set ℂ}
    (hA : ∀ p ∈ ps, Encloses p (land p)) (V : Finset ℂ) (hV : ∀ p ∈ ps, ∀ v ∈ p, v.pt ∈ V)
    (c : ℂ) (m : List ℂ) (a : ℂ)
    (h : (a :: (m ++ [c])).IsChain fun u w => ∀ p ∈ ps, AtSea (land p) u w) :
    Via V (fun u w => ∀ p ∈ ps, AtSea (land p) u w) a c
      (walkLength (fun u v => ‖u - v‖) (a :: (m ++ [c]))) := by
  induction m generalizing a with
  | nil =>
    simp only [List.nil_append, List.isChain_cons_cons, List.isChain_singleton, and_true] at h
    exact via_direct h (by simp [walkLength])
  | cons b r ih =>
    rw [List.cons_append, List.isChain_cons_cons] at h
    rw [List.cons_append]
    unfold walkLength
    obtain ⟨l, h1, h2, h3⟩ := ih b h.2
    cases l with
    | nil =>
      simp only [List.nil_append, List.isChain_cons_cons, List.isChain_singleton, and_true] at h2
      simp only [List.nil_append, walkLength, add_zero] at h3
      obtain ⟨l', k1, k2, k3⟩ := tighten hA V hV a b c h.1 h2
      exact ⟨l', k1, k2, by linarith⟩
    | cons v l =>
      rw [List.cons_append, List.isChain_cons_cons] at h2
      rw [List.cons_append] at h3
      have h3 : ‖b - v‖ + walkLength (fun u v => ‖u - v‖) (v :: (l ++ [c])) ≤
        walkLength (fun u v => ‖u - v‖) (b :: (r ++ [c])) := h3
      refine via_trans (tighten hA V hV a b v h.1 h2.1) (h1 v List.mem_cons_self)
        ⟨l, fun x hx => h1 x (List.mem_cons_of_mem _ hx), h2.2, le_rfl⟩ ?_
      linarith

/-- The line is not trivial and has no point of `V` strictly between its ends. -/
def Bare (V : Set ℂ) (R : ℂ → ℂ → Prop) (u w : ℂ) : Prop :=
  u ≠ w ∧ R u w ∧ ∀ v ∈ V, v ∉ openSegment ℝ u w

/-- A line is split at the vertices on it. -/
theorem split_leg {R : ℂ → ℂ → Prop} (hR : ∀ a b u w, R a b → u ∈ segment ℝ a b →
    w ∈ segment ℝ a b → R u w) (V : Finset ℂ) (a c : ℂ) (hne : a ≠ c) (h : R a c) :
    Via V (Bare V R) a c ‖a - c‖ := by
  classical
  induction hn : (V.filter (· ∈ openSegment ℝ a c)).card using Nat.strong_induction_on
    generalizing a c with
  | _ n ih =>
  by_cases hex : ∃ v ∈ V, v ∈ openSegment ℝ a c
  · obtain ⟨v, hvV, hv⟩ := hex
    have hv' := hv
    obtain ⟨x, y, hx, hy, hxy, rfl⟩ := hv
    obtain rfl : x = 1 - y := by linarith
    have hac : a - c ≠ 0 := sub_ne_zero.2 hne
    have e1 : a - ((1 - y) • a + y • c) = y • (a - c) := by
      rw [sub_smul, one_smul, smul_sub]; abel
    have e2 : ((1 - y) • a + y • c) - c = (1 - y) • (a - c) := by
      simp only [sub_smul, one_smul, smul_sub]; abel
    have n1 : a ≠ (1 - y) • a + y • c := by
      rw [← sub_ne_zero, e1]
      exact smul_ne_zero hy.ne' hac
    have n2 : (1 - y) • a + y • c ≠ c := by
      rw [← sub_ne_zero, e2]
      exact smul_ne_zero hx.ne' hac
    have hseg := openSegment_subset_segment ℝ a c hv'
    have sub : ∀ u w, u ∈ segment ℝ a c → w ∈ segment ℝ a c →
        ((1 - y) • a + y • c) ∉ openSegment ℝ u w → (∀ z ∈ openSegment ℝ u w, z ∈ openSegment ℝ a c) →
        (V.filter (· ∈ openSegment ℝ u w)).card < n := by
      intro u w _ _ h1 h2
      rw [← hn]
      apply Finset.card_lt_card
      rw [Finset.ssubset_iff_of_subset]
      · exact ⟨_, Finset.mem_filter.2 ⟨hvV, hv'⟩, fun hm => h1 (Finset.mem_filter.1 hm).2⟩
      · intro z hz
        rw [Finset.mem_filter] at hz ⊢
        exact ⟨hz.1, h2 z hz.2⟩
    have hopen : ∀ u w : ℂ, u ≠ w → u ∉ openSegment ℝ u w ∧ w ∉ openSegment ℝ u w := by
      intro u w huw
      rw [left_mem_openSegment_iff, right_mem_openSegment_iff]
      exact ⟨huw, huw⟩
    have i1 := ih _ (sub a _ (left_mem_segment ℝ a c) hseg (hopen _ _ n1).2 (by
      rintro z ⟨x', y', hx', hy', hxy', rfl⟩
      obtain rfl : x' = 1 - y' := by linarith
      have := mul_pos hy' hy
      have := mul_pos hy' hx
      refine ⟨1 - y' * y, y' * y, by nlinarith, by assumption, by ring, ?_⟩
      simp only [smul_add, smul_smul, sub_smul, one_smul, smul_sub]
      abel)) a _ n1 (hR _ _ _ _ h (left_mem_segment ℝ a c) hseg) rfl
    have i2 := ih _ (sub _ c hseg (right_mem_segment ℝ a c) (hopen _ _ n2).1 (by
      rintro z ⟨x', y', hx', hy', hxy', rfl⟩
      have := mul_pos hx' hx
      refine ⟨x' * (1 - y), x' * y + y', this, by positivity, by linear_combination hxy', ?_⟩
      simp only [smul_add, smul_smul, add_smul, add_assoc])) _ c n2
      (hR _ _ _ _ h hseg (right_mem_segment ℝ a c)) rfl
    refine via_trans i1 hvV i2 (le_of_eq ?_)
    rw [e1, e2, norm_smul, norm_smul, Real.norm_of_nonneg hy.le, Real.norm_of_nonneg hx.le]
    ring
  · exact via_direct ⟨hne, h, fun v hv hm => hex ⟨v, hv, hm⟩⟩ le_rfl

/-- The lines of a chain are split at the vertices on them. -/
theorem split_chain {R : ℂ → ℂ → Prop} (hR : ∀ a b u w, R a b → u ∈ segment ℝ a b →
    w ∈ segment ℝ a b → R u w) (V : Finset ℂ) (a c : ℂ) {L : ℝ} (h : Via V R a c L) :
    Via V (Bare V R) a c L ∨ a = c := by
  obtain ⟨l, h1, h2, h3⟩ := h
  induction l generalizing a L with
  | nil =>
    simp only [List.nil_append, List.isChain_cons_cons, List.isChain_singleton, and_true,
      walkLength, add_zero] at h2 h3
    by_cases hne : a = c
    · exact Or.inr hne
    · obtain ⟨l', k1, k2, k3⟩ := split_leg hR V a c hne h2
      exact Or.inl ⟨l', k1, k2, k3.trans h3⟩
  | cons v r ih =>
    rw [List.cons_append, List.isChain_cons_cons] at h2
    rw [List.cons_append] at h3
    unfold walkLength at h3
    have hi := ih v (L := L - ‖a - v‖) (fun x hx => h1 x (List.mem_cons_of_mem _ hx)) h2.2
      (by linarith)
    by_cases hav : a = v
    · subst hav
      simpa using hi
    · left
      have hs := split_leg hR V a v hav h2.1
      rcases hi with hi | rfl
      · exact via_trans hs (h1 v List.mem_cons_self) hi (by linarith)
      · obtain ⟨l', k1, k2, k3⟩ := hs
        refine ⟨l', k1, k2, k3.trans ?_⟩
        have : ∀ l : List ℂ, 0 ≤ walkLength (fun u v => ‖u - v‖) l := by
          intro l
          induction l with
          | nil => exact le_rfl
          | cons x t iht =>
            cases t with
            | nil => exact le_rfl
            | cons y t =>
              unfold walkLength
              have := norm_nonneg (x - y)
              linarith
        have := this (v :: (r ++ [v]))
        linarith

end Capi
