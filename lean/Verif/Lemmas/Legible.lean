import Verif.Lemmas.Archipelago

/-!
# Lemmas on legible positions
-/

namespace Capi

open Vistree

section

variable {ps : List (List Coord)} {obs : Coord}

theorem dist2_pos {c : Coord} (h : c ≠ obs) : 0 < dist2 obs c := by
  unfold dist2
  by_contra hc
  push Not at hc
  have h1 : c.lon - obs.lon = 0 := by nlinarith [sq_nonneg (c.lon - obs.lon), sq_nonneg (c.lat - obs.lat)]
  have h2 : c.lat - obs.lat = 0 := by nlinarith [sq_nonneg (c.lon - obs.lon), sq_nonneg (c.lat - obs.lat)]
  exact h (Coord.ext' (by omega) (by omega))

theorem inLine_symm {v w : Coord} (h : InLine obs v w) : InLine obs w v := by
  obtain ⟨h1, h2⟩ := h
  refine ⟨?_, by linarith⟩
  unfold area2 at *
  linarith

/-- A position legible all round is legible for half sweeps. -/
theorem Legible.of_full (hO : Legible false ps obs) (half : Bool) : Legible half ps obs :=
  ⟨hO.off, fun v hv _ => hO.line v hv fun h => (by cases h),
    fun v hv _ => hO.hides v hv fun h => (by cases h)⟩

/-- What the scan from a legible position reports has no edge in front of it. -/
theorem Legible.hidden {m : VisMap} {segs : List Seg} {look : Seg → Seg → Bool} {half : Bool}
    (hO : Legible half ps obs) (hS : Simple ps) (h : Setup ps m segs look) (ho : obs.Per)
    (hlon : obs.lon < 540000001) (hres : ∀ a b, CornerOf ps a obs b → CornerResolved a obs b)
    {v : Coord} (hv : v ∈ ps.flatten) {e : Seg} (he : EdgeOf ps e) (hcross : Crosses obs v e)
    (hsw : Swept half obs v) : v ∉ scanRaw look m obs (vertices m) segs half := by
  rcases hO.hides v hv hsw e he hcross with ⟨a, b, hc, hin⟩ | ⟨f, hf, hfc, hd, hall⟩
  · have hbar : barrier m obs v = false := by
      obtain ⟨a', b', hc', hg⟩ := h.mapOf.get (corner_mem hc).2.1
      obtain ⟨rfl, rfl⟩ := hS.corner_unique hc hc'
      unfold barrier
      rw [hg]
      exact (C16_corner_partial a obs b v (hres a b hc)).1 hin
    intro hw
    unfold scanRaw at hw
    split_ifs at hw
    · simp at hw
    · exact loop_barrier hbar _ _ hw
  · exact behind_raw ps m segs look h obs v ho hlon hS.nodup hS.len hO.off hv f hf hfc hd hall half

/-- What is on the line of sight before `v` is nearer. -/
theorem nearer_of_place {v w : Coord} (h1 : area2 obs v w = 0)
    (h2 : 0 < (v.lon - obs.lon) * (w.lon - obs.lon) + (v.lat - obs.lat) * (w.lat - obs.lat))
    (h3 : (v.lon - obs.lon) * (w.lon - obs.lon) + (v.lat - obs.lat) * (w.lat - obs.lat) <
      (v.lon - obs.lon) * (v.lon - obs.lon) + (v.lat - obs.lat) * (v.lat - obs.lat)) :
    dist2 obs w < dist2 obs v := by
  have e : dist2 obs v * dist2 obs w =
      ((v.lon - obs.lon) * (w.lon - obs.lon) + (v.lat - obs.lat) * (w.lat - obs.lat)) ^ 2 := by
    unfold area2 at h1
    unfold dist2
    linear_combination ((v.lon - obs.lon) * (w.lat - obs.lat) - (v.lat - obs.lat) * (w.lon - obs.lon)) * h1
  have e2 : (v.lon - obs.lon) * (v.lon - obs.lon) + (v.lat - obs.lat) * (v.lat - obs.lat) = dist2 obs v := by
    unfold dist2; ring
  rw [e2] at h3
  generalize (v.lon - obs.lon) * (w.lon - obs.lon) + (v.lat - obs.lat) * (w.lat - obs.lat) = P at *
  by_contra hc
  push Not at hc
  nlinarith

/-- The origin of places between two points of a line. -/
theorem between_places {P A B x y z w : ℚ} (hP : P ≠ 0) (hd : A - B ≠ 0) (h1 : P * (x - w) = A * (z - w))
    (h2 : P * (y - w) = B * (z - w)) : w = x + A / (A - B) * (y - x) := by
  have : P * (w - (x + A / (A - B) * (y - x))) = 0 := by
    field_simp
    linear_combination B * h1 - A * h2
  linarith [(mul_eq_zero.1 this).resolve_left hP]

/-- A line of sight with no vertex on it before its end that does not cross an edge is clear of it. -/
theorem sight_clear
    (hoff : ∀ s, EdgeOf ps s → obs ≠ s.p → obs ≠ s.q → ¬ OnSeg s obs.lon obs.lat)
    {v : Coord} (hlin : ∀ w ∈ ps.flatten, w ≠ v → InLine obs v w → ¬ dist2 obs w < dist2 obs v)
    (hv0 : v ≠ obs) (s : Seg) (hs : EdgeOf ps s) (hno : ¬ Crosses obs v s)
    (n1 : obs ≠ s.p) (n2 : obs ≠ s.q) : Clear obs v s := by
  rintro x y ⟨t, t0, t1, hx, hy⟩ ⟨r, r0, r1, hx', hy'⟩
  simp only at hx' hy'
  have ms := edge_mem hs
  rcases r0.lt_or_eq with hr | hr
  swap
  · exfalso
    rw [← hr] at hx' hy'
    exact hoff s hs n1 n2 ⟨t, t0, t1, by linarith, by linarith⟩
  rcases r1.lt_or_eq with hr1 | hr1
  swap
  · rw [hr1] at hx' hy'
    exact ⟨by linarith, by linarith⟩
  exfalso
  have vtx : ∀ w ∈ ps.flatten, (w.lon : ℚ) = obs.lon + r * (v.lon - obs.lon) →
      (w.lat : ℚ) = obs.lat + r * (v.lat - obs.lat) → False := by
    intro w hw h1 h2
    have hd : ((dist2 obs w : ℤ) : ℚ) = r ^ 2 * (dist2 obs v : ℤ) := by
      unfold dist2
      push_cast
      rw [h1, h2]
      ring
    have hd0 : (0 : ℚ) < (dist2 obs v : ℤ) := by
      have : 0 < dist2 obs v := dist2_pos hv0
      exact_mod_cast this
    have hlt : dist2 obs w < dist2 obs v := by
      have : ((dist2 obs w : ℤ) : ℚ) < (dist2 obs v : ℤ) := by
        have := mul_lt_mul_of_pos_right (show r ^ 2 < 1 by nlinarith) hd0
        linarith
      exact_mod_cast this
    exact hlin w hw (fun e => by rw [e] at hlt; exact lt_irrefl _ hlt)
      (inLine_of_ray hv0 hr h1 h2) hlt
  have l1 : (s.p.lon : ℚ) + t * (s.q.lon - s.p.lon) = obs.lon + r * (v.lon - obs.lon) := by
    rw [← hx, ← hx']
  have l2 : (s.p.lat : ℚ) + t * (s.q.lat - s.p.lat) = obs.lat + r * (v.lat - obs.lat) := by
    rw [← hy, ← hy']
  have t0' : 0 < t := by
    refine lt_of_le_of_ne t0 (fun h => ?_)
    rw [← h] at l1 l2
    exact vtx _ ms.1 (by linarith) (by linarith)
  have t1' : t < 1 := by
    refine lt_of_le_of_ne t1 (fun h => ?_)
    rw [h] at l1 l2
    exact vtx _ ms.2 (by linarith) (by linarith)
  have hp : RayPoint obs v s t r := ⟨t0', t1', l1, l2⟩
  have A := hp.area obs v
  rw [area_zero₁, area_zero₂, Int.cast_zero, mul_zero, mul_zero, add_zero] at A
  by_cases hz : area2 obs v s.p = 0
  · -- the edge lies along the line of sight
    have hz2 : area2 obs v s.q = 0 := by
      rw [hz, Int.cast_zero, mul_zero, zero_add] at A
      exact_mod_cast (mul_eq_zero.1 A).resolve_left t0'.ne'
    -- the place of a point of the line along it
    let P : Coord → ℚ := fun w =>
      ((v.lon : ℚ) - obs.lon) * (w.lon - obs.lon) + (v.lat - obs.lat) * (w.lat - obs.lat)
    have hP : (1 - t) * P s.p + t * P s.q = r * P v := by
      simp only [P]
      linear_combination ((v.lon : ℚ) - obs.lon) * l1 + ((v.lat : ℚ) - obs.lat) * l2
    have hPv : 0 < P v := by
      simp only [P]
      by_contra hc
      push Not at hc
      have a1 : (v.lon : ℚ) - obs.lon = 0 := by nlinarith
      have a2 : (v.lat : ℚ) - obs.lat = 0 := by nlinarith
      apply hv0
      have b1 : (v.lon : ℚ) = obs.lon := by linarith
      have b2 : (v.lat : ℚ) = obs.lat := by linarith
      exact Coord.ext' (by exact_mod_cast b1) (by exact_mod_cast b2)
    -- a point of the line with its place
    have place : ∀ w : Coord, area2 obs v w = 0 →
        P v * ((w.lon : ℚ) - obs.lon) = P w * (v.lon - obs.lon) ∧
        P v * ((w.lat : ℚ) - obs.lat) = P w * (v.lat - obs.lat) := by
      intro w hw
      have : ((area2 obs v w : ℤ) : ℚ) = 0 := by exact_mod_cast hw
      unfold area2 at this
      push_cast at this
      simp only [P]
      constructor
      · linear_combination -((v.lat : ℚ) - obs.lat) * this
      · linear_combination ((v.lon : ℚ) - obs.lon) * this
    have hline : ∀ w ∈ ps.flatten, area2 obs v w = 0 → 0 < P w → P v ≤ P w := by
      intro w hw h1 h2
      by_contra hlt
      push Not at hlt
      have h2' : 0 < (v.lon - obs.lon) * (w.lon - obs.lon) + (v.lat - obs.lat) * (w.lat - obs.lat) := by
        have : (0 : ℚ) < ((v.lon - obs.lon) * (w.lon - obs.lon) +
          (v.lat - obs.lat) * (w.lat - obs.lat) : ℤ) := by push_cast; exact h2
        exact_mod_cast this
      refine hlin w hw (fun e => by rw [e] at hlt; exact lt_irrefl _ hlt) ⟨h1, h2'⟩
        (nearer_of_place h1 h2' ?_)
      have : (((v.lon - obs.lon) * (w.lon - obs.lon) + (v.lat - obs.lat) * (w.lat - obs.lat) : ℤ) : ℚ) <
          ((v.lon - obs.lon) * (v.lon - obs.lon) + (v.lat - obs.lat) * (v.lat - obs.lat) : ℤ) := by
        push_cast
        exact hlt
      exact_mod_cast this
    -- an edge from `v` or beyond it past the observer
    have past : ∀ {a b : Coord} {u : ℚ}, 0 < u → u < 1 → (∀ x y, OnSeg ⟨a, b⟩ x y → OnSeg s x y) →
        area2 obs v a = 0 → 0 < P a → area2 obs v b = 0 → P b ≤ 0 → False := by
      intro a b u u0 u1 hon ha hPa hb hPb
      obtain ⟨p1, p2⟩ := place b hb
      obtain ⟨o1, o2⟩ := place a ha
      have hd : 0 < P a - P b := by linarith
      refine hoff s hs n1 n2 (hon _ _ ⟨P a / (P a - P b), div_nonneg hPa.le hd.le, ?_, ?_, ?_⟩)
      · rw [div_le_one hd]; linarith
      · exact between_places hPv.ne' hd.ne' o1 p1
      · exact between_places hPv.ne' hd.ne' o2 p2
    rcases lt_or_ge 0 (P s.p) with h1 | h1 <;> rcases lt_or_ge 0 (P s.q) with h2 | h2
    · have a1 := mul_le_mul_of_nonneg_left (hline _ ms.1 hz h1) (sub_pos.2 t1').le
      have a2 := mul_le_mul_of_nonneg_left (hline _ ms.2 hz2 h2) t0'.le
      have a3 := mul_lt_mul_of_pos_right hr1 hPv
      linarith
    · exact past t0' t1' (fun _ _ h => h) hz h1 hz2 h2
    · exact past t0' t1' (fun _ _ h => OnSeg_swap.1 h) hz2 h2 hz h1
    · have a1 := mul_nonneg (sub_pos.2 t1').le (neg_nonneg.2 h1)
      have a2 := mul_nonneg t0'.le (neg_nonneg.2 h2)
      have a3 := mul_pos hr hPv
      linarith
  · refine hno (point_crosses hp hr hr1 hz ?_)
    intro hb
    have B := hp.area s.p s.q
    have hb' : area2 s.p s.q obs = 0 := by rw [← hb]; unfold area2; ring
    rw [area_zero₁, area_zero₂, hb', Int.cast_zero, mul_zero, mul_zero, mul_zero, zero_add,
      zero_add] at B
    have hv' : area2 s.p s.q v = 0 := by
      exact_mod_cast (mul_eq_zero.1 B.symm).resolve_left hr.ne'
    have e : area2 obs v s.p = area2 obs v s.q := by
      have : area2 s.p s.q v - area2 s.p s.q obs = area2 obs v s.p - area2 obs v s.q := by
        unfold area2; ring
      omega
    rw [e] at A hz
    have : ((area2 obs v s.q : ℤ) : ℚ) = 0 := by linarith
    exact hz (by exact_mod_cast this)

/-- What is neither inside the corner nor behind an edge has no vertex in front of it. -/
theorem Legible.first {half : Bool} (hO : Legible half ps obs) {v : Coord} (hv : v ∈ ps.flatten)
    (hsw : Swept half obs v) (hin : ¬ Inward ps obs v) (hno : ∀ e, EdgeOf ps e → ¬ Crosses obs v e) :
    ∀ w ∈ ps.flatten, w ≠ v → InLine obs v w → ¬ dist2 obs w < dist2 obs v := by
  intro w hw hne hl hd
  rcases hO.line v hv hsw w hw hne hl hd with h | ⟨s, hs, hc⟩
  · exact hin h
  · exact hno s hs hc

theorem Legible.clear {half : Bool} (hO : Legible half ps obs) {v : Coord} (hv : v ∈ ps.flatten)
    (hv0 : v ≠ obs) (hsw : Swept half obs v) (hin : ¬ Inward ps obs v)
    (hno : ∀ e, EdgeOf ps e → ¬ Crosses obs v e) (s : Seg) (hs : EdgeOf ps s)
    (n1 : obs ≠ s.p) (n2 : obs ≠ s.q) : Clear obs v s :=
  sight_clear hO.off (hO.first hv hsw hin hno) hv0 s hs (hno s hs) n1 n2

/-- Off the interior angle of the corner, and not beyond a neighbour. -/
theorem corner_allows
    {v : Coord} (hlin : ∀ w ∈ ps.flatten, w ≠ v → InLine obs v w → ¬ dist2 obs w < dist2 obs v)
    (hres : ∀ a b, CornerOf ps a obs b → CornerResolved a obs b)
    (hv0 : v ≠ obs)
    (hnot : ∀ a b, CornerOf ps a obs b → ¬ InsideCorner a obs b v) :
    CornerAllows ps obs v := by
  intro a b hc
  refine ⟨hres a b hc, ?_⟩
  replace hnot := hnot a b hc
  obtain ⟨ha, hob, hb⟩ := corner_mem hc
  have hne : area2 a obs b ≠ 0 := by
    intro h0
    have := hres a b hc
    unfold CornerResolved at this
    rw [h0, abs_zero, mul_zero] at this
    have := abs_nonneg ((obs.lon - a.lon) * (b.lat - obs.lat))
    have := abs_nonneg ((obs.lat - a.lat) * (b.lon - obs.lon))
    omega
  by_cases hcl : ClosedCone a obs b v
  · obtain ⟨x, y, hx, hy, e1, e2⟩ := hcl
    have hray : ∀ {w : Coord}, w ∈ ps.flatten → ∀ {k : ℚ}, 0 ≤ k → OnRay obs w v k → 0 < k ∧ k ≤ 1 := by
      intro w hw k hk hon
      have hk' : 0 < k := by
        refine lt_of_le_of_ne hk (fun h => hv0 ?_)
        obtain ⟨q1, q2⟩ := hon
        rw [← h] at q1 q2
        have b1 : (v.lon : ℚ) = obs.lon := by linarith
        have b2 : (v.lat : ℚ) = obs.lat := by linarith
        exact Coord.ext' (by exact_mod_cast b1) (by exact_mod_cast b2)
      refine ⟨hk', ?_⟩
      by_contra hgt
      push Not at hgt
      have hw0 : w ≠ obs := by
        rintro rfl
        apply hv0
        obtain ⟨q1, q2⟩ := hon
        have b1 : (v.lon : ℚ) = w.lon := by linarith
        have b2 : (v.lat : ℚ) = w.lat := by linarith
        exact Coord.ext' (by exact_mod_cast b1) (by exact_mod_cast b2)
      have hd0 : (0 : ℚ) < (dist2 obs w : ℤ) := by
        have : 0 < dist2 obs w := dist2_pos hw0
        exact_mod_cast this
      have hd : ((dist2 obs v : ℤ) : ℚ) = k ^ 2 * (dist2 obs w : ℤ) := by
        unfold dist2
        push_cast
        rw [hon.1, hon.2]
        ring
      have hlt : dist2 obs w < dist2 obs v := by
        have : ((dist2 obs w : ℤ) : ℚ) < (dist2 obs v : ℤ) := by
          have := mul_lt_mul_of_pos_right (show 1 < k ^ 2 by nlinarith) hd0
          linarith
        exact_mod_cast this
      refine hlin w hw (fun e => by rw [e] at hlt; exact lt_irrefl _ hlt) ?_ hlt
      have := inLine_of_ray hw0 hk' (v := w) (w := v) (by linarith [hon.1]) (by linarith [hon.2])
      exact inLine_symm this
    rcases hx.lt_or_eq with hx' | hx'
    · rcases hy.lt_or_eq with hy' | hy'
      · have hcone : OpenCone a obs b v := ⟨x, y, hx', hy', e1, e2⟩
        rcases lt_or_gt_of_ne hne with hneg | hpos
        · exact Or.inl (Or.inr ⟨hneg, hcone⟩)
        · exact absurd (Or.inl ⟨hpos, hcone⟩) hnot
      · rw [← hy'] at e1 e2
        have hon : OnRay obs a v x := ⟨by linarith, by linarith⟩
        exact Or.inr ⟨x, (hray ha hx hon).1, (hray ha hx hon).2, Or.inl hon⟩
    · rw [← hx'] at e1 e2
      have hon : OnRay obs b v y := ⟨by linarith, by linarith⟩
      exact Or.inr ⟨y, (hray hb hy hon).1, (hray hb hy hon).2, Or.inr hon⟩
  · rcases lt_or_gt_of_ne hne with hneg | hpos
    · exact absurd (Or.inr ⟨hneg, hcl⟩) hnot
    · exact Or.inl (Or.inl ⟨hpos, hcl⟩)

/-- What passes the test of the observer's corner is not inside it. -/
theorem not_inside (hS : Simple ps) (hres : ∀ a b, CornerOf ps a obs b → CornerResolved a obs b)
    {v : Coord} {m : VisMap} (hm : MapOf ps m) (hbar : barrier m obs v = true) (a b : Coord)
    (hc : CornerOf ps a obs b) : ¬ InsideCorner a obs b v := by
  intro hin
  obtain ⟨a', b', hc', hg⟩ := hm.get (corner_mem hc).2.1
  obtain ⟨rfl, rfl⟩ := hS.corner_unique hc hc'
  unfold barrier at hbar
  rw [hg] at hbar
  simp only at hbar
  rw [(C16_corner_partial a obs b v (hres a b hc)).1 hin] at hbar
  cases hbar

theorem not_inward (hS : Simple ps) (hres : ∀ a b, CornerOf ps a obs b → CornerResolved a obs b)
    {v : Coord} {m : VisMap} (hm : MapOf ps m) (hbar : barrier m obs v = true) : ¬ Inward ps obs v :=
  fun ⟨a, b, hc, hi⟩ => not_inside hS hres hm hbar a b hc hi

theorem Legible.allows {half : Bool} (hO : Legible half ps obs) (hS : Simple ps)
    (hres : ∀ a b, CornerOf ps a obs b → CornerResolved a obs b) {v : Coord} (hv : v ∈ ps.flatten)
    (hv0 : v ≠ obs) (hsw : Swept half obs v) (hno : ∀ e, EdgeOf ps e → ¬ Crosses obs v e)
    {m : VisMap} (hm : MapOf ps m) (hbar : barrier m obs v = true) : CornerAllows ps obs v :=
  corner_allows (hO.first hv hsw (not_inward hS hres hm hbar) hno) hres hv0
    fun a b hc => not_inside hS hres hm hbar a b hc

end

end Capi
