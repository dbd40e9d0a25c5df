import Mathlib.Analysis.Complex.Convex
import Verif.Lemmas.Islands
import Verif.Lemmas.Legible
import Verif.Props.Interior
import Verif.Spec.Charted

/-!
# Simple polygons on the periodic plane
-/

namespace Capi

open Vistree

section

/-- What is between the observer and `w` is nearer than `w`. -/
theorem nearer_of_open {obs v w : Coord} (hne : w ≠ obs) (hopen : v.pt ∈ openSegment ℝ obs.pt w.pt) :
    v ≠ w ∧ dist2 obs v < dist2 obs w := by
  have hd : dist2 obs v < dist2 obs w := by
    obtain ⟨t', t, t0', t0, ht, he⟩ := hopen
    have q1 := congrArg Complex.re he
    have q2 := congrArg Complex.im he
    simp only [Coord.pt, Complex.add_re, Complex.add_im, Complex.smul_re, Complex.smul_im,
      smul_eq_mul] at q1 q2
    obtain rfl : t' = 1 - t := by linarith
    have e : ((dist2 obs v : ℤ) : ℝ) = t ^ 2 * (dist2 obs w : ℤ) := by
      unfold dist2
      push_cast
      rw [← q1, ← q2]
      ring
    have h0 : (0 : ℝ) < (dist2 obs w : ℤ) := by
      have := dist2_pos hne
      exact_mod_cast this
    have : ((dist2 obs v : ℤ) : ℝ) < (dist2 obs w : ℤ) := by
      have := mul_lt_mul_of_pos_right (show t ^ 2 < 1 by nlinarith) h0
      linarith
    exact_mod_cast this
  exact ⟨fun e => by rw [e] at hd; exact lt_irrefl _ hd, hd⟩

theorem into_of_inside {a v b w : Coord} (hres : CornerResolved a v b) (h : InsideCorner a v b w) :
    Into a.pt v.pt b.pt w.pt := by
  obtain ⟨x, y, hxD, hyD, e1, e2, huniq⟩ := shares (area_ne hres) w
  have d1 : 0 < area2 a v w ↔ 0 < y * area2 a v b := by rw [hyD]; exact_mod_cast Iff.rfl
  have d2 : 0 < area2 v b w ↔ 0 < x * area2 a v b := by rw [hxD]; exact_mod_cast Iff.rfl
  unfold Into
  rw [turn_pt, turn_pt, turn_pt]
  have c1 : (0 : ℝ) < ((area2 a v w : ℤ) : ℝ) ↔ 0 < area2 a v w := by exact_mod_cast Iff.rfl
  have c2 : (0 : ℝ) < ((area2 v b w : ℤ) : ℝ) ↔ 0 < area2 v b w := by exact_mod_cast Iff.rfl
  have c3 : (0 : ℝ) < ((area2 a v b : ℤ) : ℝ) ↔ 0 < area2 a v b := by exact_mod_cast Iff.rfl
  simp only [c1, c2, c3, d1, d2]
  rcases h with ⟨hpos, x', y', hx', hy', f1, f2⟩ | ⟨hneg, hcl⟩
  · obtain ⟨rfl, rfl⟩ := huniq x' y' f1 f2
    have hpos' : (0 : ℚ) < area2 a v b := by exact_mod_cast hpos
    rw [if_pos hpos]
    exact ⟨mul_pos hy' hpos', mul_pos hx' hpos'⟩
  · have hneg' : (area2 a v b : ℚ) < 0 := by exact_mod_cast hneg
    rw [if_neg (by omega)]
    by_contra hc
    push Not at hc
    refine hcl ⟨x, y, ?_, ?_, e1, e2⟩
    · by_contra h; push Not at h
      linarith [mul_pos_of_neg_of_neg h hneg', hc.2]
    · by_contra h; push Not at h
      linarith [mul_pos_of_neg_of_neg h hneg', hc.1]

/-- A line over the sea crosses no edge. -/
theorem no_cross_of_sea {ps : List (List Coord)} {land : List Coord → Set ℂ}
    (hA : ∀ p ∈ ps, Encloses p (land p)) {v w : Coord} (hsea : ∀ p ∈ ps, AtSea (land p) v.pt w.pt)
    {e : Seg} (he : EdgeOf ps e) : ¬ Crosses v w e := by
  intro hc
  obtain ⟨t, r, r0, r1, hp⟩ := crosses_point hc
  obtain ⟨p, hpp, he'⟩ := edge_ring he
  have t0r : (0 : ℝ) < t := by exact_mod_cast hp.tpos
  have t1r : (t : ℝ) < 1 := by exact_mod_cast hp.tlt
  have u0r : (0 : ℝ) < r := by exact_mod_cast r0
  have u1r : (r : ℝ) < 1 := by exact_mod_cast r1
  let x : ℚ := (e.p.lon : ℚ) + t * (e.q.lon - e.p.lon)
  let y : ℚ := (e.p.lat : ℚ) + t * (e.q.lat - e.p.lat)
  have hz1 : (⟨(x : ℝ), (y : ℝ)⟩ : ℂ) ∈ openSegment ℝ e.p.pt e.q.pt :=
    ⟨1 - t, t, by linarith, t0r, by ring, (seg_point e.p e.q rfl rfl).symm⟩
  have hz2 : (⟨(x : ℝ), (y : ℝ)⟩ : ℂ) ∈ segment ℝ v.pt w.pt :=
    ⟨1 - r, r, by linarith, u0r.le, by ring, (seg_point v w hp.lon hp.lat).symm⟩
  obtain ⟨l1, l2⟩ := not_left (hA p hpp) (hsea p hpp) he' hz2 hz1
  rw [turn_pt] at l1 l2
  have l1' : area2 e.p e.q v ≤ 0 := by exact_mod_cast l1
  have l2' : area2 e.p e.q w ≤ 0 := by exact_mod_cast l2
  have := hc.2
  nlinarith

/-- From a legible position off the land, the vertices seen are those with a line over the sea to them. -/
theorem Legible.sees_iff {half : Bool} {ps : List (List Coord)} {obs : Coord} {land : List Coord → Set ℂ}
    (hE : ∀ p ∈ ps, Encloses p (land p)) (hO : Legible half ps obs) (hoff : ∀ p ∈ ps, obs.pt ∉ land p)
    (hres : ∀ a v b, CornerOf ps a v b → CornerResolved a v b) {w : Coord} (hw : w ∈ ps.flatten)
    (hsw : Swept half obs w) (hne : w ≠ obs) : Sees ps obs w ↔ ∀ p ∈ ps, AtSea (land p) obs.pt w.pt := by
  constructor
  · intro h p hp
    exact sea_of_sees hE hres hne.symm h hp (hoff p hp)
  · intro h
    refine sees_of_sea hE hres hne.symm h ?_ ?_
    · intro v hv hopen
      have hin := inLine_of_open hne.symm hopen
      obtain ⟨n1, n2⟩ := nearer_of_open hne hopen
      rcases hO.line w hw hsw v hv n1 hin n2 with ⟨a, b, hc, hi⟩ | ⟨s, hs, hc⟩
      · exact not_into_of_sea hE h hc (into_of_inside (hres _ _ _ hc) hi)
      · exact no_cross_of_sea hE h hs hc
    · intro e he hon
      by_contra hno
      push Not at hno
      exact hO.off e he hno.1 hno.2 hon

theorem ring_shift {p : List Coord} (hp : p ≠ []) (k : ℤ) (i : ℕ) :
    (ringAt (p.map (Coord.shift k)) i).pt = (ringAt p i).pt + ((k * 360000001 : ℤ) : ℝ) := by
  rw [ringAt_map hp, shift_pt]

theorem simple_shift {p : List Coord} (k : ℤ) (h : SimpleRing p) : SimpleRing (p.map (Coord.shift k)) := by
  have hp : p ≠ [] := by
    rintro rfl
    have := h.size
    simp at this
  refine ⟨by rw [List.length_map]; exact h.size, ?_⟩
  intro i hi j hj hij s t s0 s1 t0 t1 e
  rw [List.length_map] at hi hj
  refine h.apart i hi j hj hij s t s0 s1 t0 t1 ?_
  unfold Along at e ⊢
  simp only [ring_shift hp, add_sub_add_right_eq_sub] at e
  linear_combination e

theorem interior_shift {p : List Coord} {k : ℤ} {x : ℂ} :
    x + ((k * 360000001 : ℤ) : ℝ) ∈ Interior (p.map (Coord.shift k)) ↔ x ∈ Interior p := by
  rcases eq_or_ne p [] with rfl | hp
  · simp [Interior, turning]
  have e1 : x + ((k * 360000001 : ℤ) : ℝ) ∈ Coast (p.map (Coord.shift k)) ↔ x ∈ Coast p := by
    unfold Coast
    rw [Set.mem_ofPred_eq, Set.mem_ofPred_eq, List.length_map]
    refine exists_congr fun i => and_congr_right fun _ => ?_
    rw [ring_shift hp, ring_shift hp, add_comm x, add_comm (ringAt p i).pt,
      add_comm (ringAt p (i + 1)).pt]
    exact mem_segment_translate ℝ _
  have e2 : turning (p.map (Coord.shift k)) (x + ((k * 360000001 : ℤ) : ℝ)) = turning p x := by
    unfold turning
    rw [List.length_map]
    refine Finset.sum_congr rfl fun i _ => ?_
    rw [ring_shift hp, ring_shift hp, add_sub_add_right_eq_sub, add_sub_add_right_eq_sub]
  unfold Interior
  rw [Set.mem_ofPred_eq, Set.mem_ofPred_eq, e1, e2]

/-- What a ring goes round is not east or west of all vertices. -/
theorem interior_extent {p : List Coord} (h : SimpleRing p) (hA : 0 < twiceArea p) {x : ℂ}
    (hx : x ∈ Interior p) : (∃ v ∈ p, x.re ≤ v.lon) ∧ ∃ v ∈ p, (v.lon : ℝ) ≤ x.re := by
  have hx := (C89_interior p h hA).2.2 hx
  constructor
  · by_contra hc
    push Not at hc
    have := convexHull_min (t := {c : ℂ | c.re < x.re}) ?_ (convex_halfSpace_re_lt _) hx
    · exact lt_irrefl x.re this
    · rintro _ ⟨v, hv, rfl⟩
      exact hc v hv
  · by_contra hc
    push Not at hc
    have := convexHull_min (t := {c : ℂ | x.re < c.re}) ?_ (convex_halfSpace_re_gt _) hx
    · exact lt_irrefl x.re this
    · rintro _ ⟨v, hv, rfl⟩
      exact hc v hv

theorem mem_ashore {ps : List (List Coord)} {x : ℂ} :
    x ∈ Ashore ps ↔ ∃ p ∈ ps, ∃ j : ℤ, x ∈ Interior (p.map (Coord.shift j)) := by
  unfold Ashore
  simp only [Set.mem_iUnion, exists_prop]

theorem ashore_add {ps : List (List Coord)} {x : ℂ} (k : ℤ) :
    x + ((k * 360000001 : ℤ) : ℝ) ∈ Ashore ps ↔ x ∈ Ashore ps := by
  simp only [mem_ashore]
  refine exists_congr fun p => and_congr_right fun _ => ⟨?_, ?_⟩
  · rintro ⟨j, hj⟩
    refine ⟨j - k, ?_⟩
    rw [← interior_shift (k := k), List.map_map]
    convert hj using 2
    refine List.map_congr_left fun v _ => ?_
    rw [Function.comp_apply, shift_shift]
    congr 1
    ring
  · rintro ⟨j, hj⟩
    refine ⟨j + k, ?_⟩
    rw [← interior_shift (k := k), List.map_map] at hj
    convert hj using 2
    refine List.map_congr_left fun v _ => ?_
    rw [Function.comp_apply, shift_shift]

/-- The land is the same everywhere round the globe. -/
theorem ashore_shift {ps : List (List Coord)} {a b : Coord} (k : ℤ) :
    AtSea (Ashore ps) (a.shift k).pt (b.shift k).pt ↔ AtSea (Ashore ps) a.pt b.pt := by
  have one : ∀ (a b : Coord) (k : ℤ), AtSea (Ashore ps) a.pt b.pt →
      AtSea (Ashore ps) (a.shift k).pt (b.shift k).pt := by
    intro a b k h z hz hl
    rw [shift_pt, shift_pt] at hz
    refine h _ (segment_add hz) ?_
    rw [← ashore_add k]
    convert hl using 1
    ring
  refine ⟨fun h => ?_, one a b k⟩
  have := one _ _ (-k) h
  rw [shift_shift, shift_shift, add_neg_cancel, shift_zero, shift_zero] at this
  exact this

/-- Only the copies nearby can be in the way. -/
theorem ashore_near {ps : List (List Coord)} (hS : ∀ p ∈ ps, SimpleRing p) (hA : ∀ p ∈ ps, 0 < twiceArea p) (hg : ∀ v ∈ ps.flatten, v.Geo) {a b : Coord}
    {K : ℤ} (ha : |a.lon| ≤ 180000000 + K * 360000001) (hb : |b.lon| ≤ 180000000 + K * 360000001)
    (h : ∀ p ∈ ps, ∀ j, |j| ≤ K → AtSea (Interior (p.map (Coord.shift j))) a.pt b.pt) :
    AtSea (Ashore ps) a.pt b.pt := by
  intro z hz hl
  obtain ⟨p, hp, j, hj⟩ := mem_ashore.1 hl
  by_cases hjK : |j| ≤ K
  · exact h p hp j hjK z hz hj
  obtain ⟨⟨v, hv, h1⟩, w, hw, h2⟩ := interior_extent (simple_shift j (hS p hp))
    (by rw [twiceArea_shift]; exact hA p hp) hj
  obtain ⟨v, hv', rfl⟩ := List.mem_map.1 hv
  obtain ⟨w, hw', rfl⟩ := List.mem_map.1 hw
  have hvg := hg v (mem_flat hp hv')
  have hwg := hg w (mem_flat hp hw')
  obtain ⟨m1, m2⟩ := segment_re hz
  simp only [Coord.pt] at m1 m2
  have k1 : (min a.lon b.lon : ℤ) ≤ (v.shift j).lon := by
    have : ((min a.lon b.lon : ℤ) : ℝ) ≤ (v.shift j).lon := by push_cast; linarith
    exact_mod_cast this
  have k2 : (w.shift j).lon ≤ (max a.lon b.lon : ℤ) := by
    have : ((w.shift j).lon : ℝ) ≤ ((max a.lon b.lon : ℤ) : ℝ) := by push_cast; linarith
    exact_mod_cast this
  simp only [Coord.shift, Coord.Geo] at k1 k2 hvg hwg
  rw [abs_le] at ha hb hjK
  omega

/-! ### Convex rings -/

/-- A strictly convex ring does not touch itself. -/
theorem convex_simple {p : List Coord} (hc : Convex p) (hnd : p.Nodup) (hlen : 3 ≤ p.length) :
    SimpleRing p := by
  have hn : 0 < p.length := by omega
  have mem : ∀ i, ringAt p i ∈ p := fun i => ringAt_mem (List.ne_nil_of_length_pos hn) i
  have ne : ∀ {i j}, i % p.length ≠ j % p.length → ringAt p i ≠ ringAt p j := fun h e =>
    h (ringAt_inj hnd hn e)
  have wrap : ∀ i, ringAt p (i % p.length) = ringAt p i := by
    intro i
    unfold ringAt
    rw [Nat.mod_mod]
  rw [simple_iff]
  refine ⟨hlen, fun i hi j hj hij => ?_⟩
  have mi := Nat.mod_eq_of_lt hi
  have mj := Nat.mod_eq_of_lt hj
  have si := mod_cases hi
  have sj := mod_cases hj
  have next : ∀ {i j}, i < p.length → j < p.length → (i + 1) % p.length = j →
      GoesOn (ringAt p i) (ringAt p (i + 1)) (ringAt p j) (ringAt p (j + 1)) := by
    intro i j hi hj h
    have si := mod_cases hi
    have sj := mod_cases hj
    have mi := Nat.mod_eq_of_lt hi
    refine ⟨by rw [← wrap (i + 1), h], Or.inl (hc i hi _ (mem _) (ne ?_) (ne ?_)).ne'⟩ <;>
      (split_ifs at si sj <;> omega)
  by_cases h1 : (i + 1) % p.length = j
  · exact Or.inr (Or.inr (Or.inr (Or.inr (Or.inr (Or.inr (Or.inl (next hi hj h1)))))))
  by_cases h2 : (j + 1) % p.length = i
  · exact Or.inr (Or.inr (Or.inr (Or.inr (Or.inr (Or.inr (Or.inr (next hj hi h2)))))))
  · refine Or.inl (mul_pos (hc i hi _ (mem _) (ne ?_) (ne ?_)) (hc i hi _ (mem _) (ne ?_) (ne ?_)))
    · omega
    · omega
    · omega
    · split_ifs at si sj <;> omega

/-- A strictly convex ring is counter-clockwise. -/
theorem convex_left {p : List Coord} (hc : Convex p) (hnd : p.Nodup) (hlen : 3 ≤ p.length) :
    0 < twiceArea p := by
  have hn : 0 < p.length := by omega
  have mem : ∀ i, ringAt p i ∈ p := fun i => ringAt_mem (List.ne_nil_of_length_pos hn) i
  have e : twiceArea p = ∑ i ∈ Finset.range p.length,
      area2 (ringAt p i) (ringAt p (i + 1)) (ringAt p 0) := by
    have tel := Finset.sum_range_sub' (fun i => (ringAt p i).lon * (ringAt p 0).lat -
      (ringAt p 0).lon * (ringAt p i).lat) p.length
    have : ringAt p p.length = ringAt p 0 := by unfold ringAt; simp
    rw [this, sub_self] at tel
    unfold twiceArea
    rw [← add_zero (∑ i ∈ Finset.range p.length, area2 _ _ _), ← tel, ← Finset.sum_add_distrib]
    refine Finset.sum_congr rfl fun i _ => ?_
    unfold area2
    ring
  rw [e]
  refine Finset.sum_pos' (fun i hi => ?_) ⟨1, Finset.mem_range.2 (by omega), ?_⟩
  · rw [Finset.mem_range] at hi
    by_cases h1 : ringAt p 0 = ringAt p i
    · rw [h1, area_zero₁]
    by_cases h2 : ringAt p 0 = ringAt p (i + 1)
    · rw [h2, area_zero₂]
    exact (hc i hi _ (mem _) h1 h2).le
  · have ne : ∀ i, 0 < i → i < p.length → ringAt p 0 ≠ ringAt p i := by
      intro i h0 hi h
      have := ringAt_inj hnd hn h
      rw [Nat.mod_eq_of_lt hi, Nat.zero_mod] at this
      omega
    exact hc 1 (by omega) _ (mem _) (ne 1 (by omega) (by omega)) (ne 2 (by omega) (by omega))

end

end Capi
