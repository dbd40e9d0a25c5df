import Verif.Lemmas.Coordinate

/-!
# C06, C07, C08, C10: exactness of the segment predicates
-/

namespace Capi

/-! ### C06 orientation -/

/-- **C06** The orientation of a point relative to a segment is the sign of the exact
determinant, computed without overflow. -/
theorem C06_point_orientation (s : Seg) (c : Coord) (hp : s.p.Per) (hq : s.q.Per) (hc : c.Per) :
    ∃ o, s.orientPtC c = .ok o ∧
      (o = .counterClockwise ↔ 0 < area2 s.p s.q c) ∧
      (o = .clockwise ↔ area2 s.p s.q c < 0) ∧
      (o = .collinear ↔ area2 s.p s.q c = 0) := by
  refine ⟨_, Seg.orientPtC_ok hp hq hc, ?_⟩
  have : s.signedArea c = area2 s.p s.q c := rfl
  unfold Seg.orientPt Seg.orientOfArea
  rw [this]
  split_ifs <;> simp <;> omega

example : (Seg.mk ⟨0, 0⟩ ⟨10, 0⟩).orientPtC ⟨5, 1⟩ = .ok .counterClockwise := by decide

/-- **C06** `vector_orientation` of two difference vectors is the sign of their determinant. -/
theorem C06_vector_orientation (a b c d : Coord) (ha : a.Per) (hb : b.Per) (hc : c.Per)
    (hd : d.Per) :
    ∃ o, (do let u ← a.subC b; let v ← c.subC d; u.orientC v) = .ok o ∧
      (o = .counterClockwise ↔
        0 < (a.lon - b.lon) * (c.lat - d.lat) - (c.lon - d.lon) * (a.lat - b.lat)) ∧
      (o = .clockwise ↔
        (a.lon - b.lon) * (c.lat - d.lat) - (c.lon - d.lon) * (a.lat - b.lat) < 0) := by
  refine ⟨(a.sub b).orient (c.sub d), ?_, ?_⟩
  · rw [Coord.subC_ok ha hb, Coord.subC_ok hc hd]
    simp only [Res.bind_ok]
    exact Coord.orientC_ok (Coord.Per.vec_sub ha hb) (Coord.Per.vec_sub hc hd)
  · have : (a.sub b).cross (c.sub d) =
        (a.lon - b.lon) * (c.lat - d.lat) - (c.lon - d.lon) * (a.lat - b.lat) := by
      simp only [Coord.cross, Coord.sub, Coord.add, Coord.neg]; ring
    unfold Coord.orient Coord.orientOfSign
    rw [this]
    split_ifs <;> simp <;> omega

example : (do let u ← (⟨540000001, 0⟩ : Coord).subC ⟨0, 0⟩
              let v ← (⟨0, 0⟩ : Coord).subC ⟨-540000001, -90000000⟩
              u.orientC v) = .ok .counterClockwise := by
  obtain ⟨o, h, h1, -⟩ := C06_vector_orientation ⟨540000001, 0⟩ ⟨0, 0⟩ ⟨0, 0⟩
    ⟨-540000001, -90000000⟩ (by decide) (by decide) (by decide) (by decide)
  rw [h, h1.2 (by decide)]

/-- Mirror image of an orientation. -/
def Orientation.flip : Orientation → Orientation
  | .clockwise => .counterClockwise
  | .counterClockwise => .clockwise
  | .collinear => .collinear

/-- **C06** Swapping the endpoints mirrors the answer, rotating the three points keeps it and
translating all of them keeps it. -/
theorem C06_symmetries (a b c v : Coord) :
    (Seg.mk b a).orientPt c = ((Seg.mk a b).orientPt c).flip ∧
    (Seg.mk b c).orientPt a = (Seg.mk a b).orientPt c ∧
    (Seg.mk (a.add v) (b.add v)).orientPt (c.add v) = (Seg.mk a b).orientPt c := by
  have e1 : (Seg.mk b a).signedArea c = -(Seg.mk a b).signedArea c := by
    simp only [Seg.signedArea]; ring
  have e2 : (Seg.mk b c).signedArea a = (Seg.mk a b).signedArea c := by
    simp only [Seg.signedArea]; ring
  have e3 : (Seg.mk (a.add v) (b.add v)).signedArea (c.add v) = (Seg.mk a b).signedArea c := by
    simp only [Seg.signedArea, Coord.add]; ring
  refine ⟨?_, ?_, ?_⟩
  · unfold Seg.orientPt Seg.orientOfArea
    rw [e1]
    split_ifs <;> first | rfl | omega
  · unfold Seg.orientPt; rw [e2]
  · unfold Seg.orientPt; rw [e3]

/-! ### C07 intersection of non-parallel segments -/

/-- **C07** For non-parallel segments an intersection is reported exactly when the closed
segments have a point in common over the rationals. -/
theorem C07_decides (s t : Seg) (h1 : s.p.Per) (h2 : s.q.Per) (h3 : t.p.Per) (h4 : t.q.Per)
    (hnp : NonParallel s t) :
    ∃ o, s.intersectC t = .ok o ∧ (o.isSome ↔ Meets s t) :=
  ⟨_, Seg.intersectC_ok h1 h2 h3 h4, intersect_isSome_iff ((nonParallel_iff s t).1 hnp)⟩

example : NonParallel ⟨⟨0, 0⟩, ⟨10, 10⟩⟩ ⟨⟨0, 10⟩, ⟨10, 0⟩⟩ := by decide
example : Meets ⟨⟨0, 0⟩, ⟨10, 10⟩⟩ ⟨⟨0, 10⟩, ⟨10, 0⟩⟩ :=
  ⟨5, 5, ⟨1 / 2, by norm_num⟩, ⟨1 / 2, by norm_num⟩⟩

/-- **C07** The reported point is within half a microdegree (plus a millionth) of the exact
meeting point, per axis. -/
theorem C07_accuracy (s t : Seg) (h1 : s.p.Per) (h2 : s.q.Per) (h3 : t.p.Per) (h4 : t.q.Per)
    (hnp : NonParallel s t) (r : Coord) (h : s.intersectC t = .ok (some r)) :
    ∃ x y : ℚ, OnSeg s x y ∧ OnSeg t x y ∧
      |(r.lon : ℚ) - x| ≤ 1 / 2 + 1 / 1000000 ∧ |(r.lat : ℚ) - y| ≤ 1 / 2 + 1 / 1000000 := by
  rw [Seg.intersectC_ok h1 h2 h3 h4, Except.ok.injEq] at h
  obtain ⟨x, y, u, v, hs, ht, hu, hv, e1, e2⟩ :=
    intersect_exact_close h1 h2 ((nonParallel_iff s t).1 hnp) h
  refine ⟨x, y, hs, ht, ?_, ?_⟩
  · have e3 := abs_le.1 (roundHalfAway_err u)
    have e1 := abs_le.1 e1
    rw [hu, abs_le]; push_cast
    constructor <;> linarith [e3.1, e3.2, e1.1, e1.2]
  · have e3 := abs_le.1 (roundHalfAway_err v)
    have e2 := abs_le.1 e2
    rw [hv, abs_le]; push_cast
    constructor <;> linarith [e3.1, e3.2, e2.1, e2.2]

example : ∃ x y : ℚ, OnSeg ⟨⟨0, 0⟩, ⟨3, 3⟩⟩ x y ∧ OnSeg ⟨⟨0, 3⟩, ⟨3, 0⟩⟩ x y ∧
    |((2 : ℤ) : ℚ) - x| ≤ 1 / 2 + 1 / 1000000 ∧ |((2 : ℤ) : ℚ) - y| ≤ 1 / 2 + 1 / 1000000 :=
  C07_accuracy _ _ (by decide) (by decide) (by decide) (by decide) (by decide) ⟨2, 2⟩
    (by decide +kernel)

/-- **C07** If the segments meet in a point with whole-microdegree coordinates, exactly that
point is reported (so touching an obstacle vertex is recognised without tolerance). -/
theorem C07_exact_at_lattice (s t : Seg) (h1 : s.p.Per) (h2 : s.q.Per) (h3 : t.p.Per)
    (h4 : t.q.Per) (hnp : NonParallel s t) (v : Coord) (hs : OnSeg s v.lon v.lat)
    (ht : OnSeg t v.lon v.lat) : s.intersectC t = .ok (some v) := by
  have hD := (nonParallel_iff s t).1 hnp
  rw [Seg.intersectC_ok h1 h2 h3 h4]
  have hsome := (intersect_isSome_iff hD).2 ⟨_, _, hs, ht⟩
  obtain ⟨r, hr⟩ := Option.isSome_iff_exists.1 hsome
  rw [hr]
  obtain ⟨x, y, u, w, hxs, hxt, hu, hw, e1, e2⟩ := intersect_exact_close h1 h2 hD hr
  -- the common point is unique
  obtain ⟨a, _, _, ax, ay⟩ := hs
  obtain ⟨b, _, _, bx, bY⟩ := ht
  obtain ⟨a', _, _, ax', ay'⟩ := hxs
  obtain ⟨b', _, _, bx', bY'⟩ := hxt
  have p1 := line_params hD (ax.symm.trans bx) (ay.symm.trans bY)
  have p2 := line_params hD (ax'.symm.trans bx') (ay'.symm.trans bY')
  have haa : a = a' := p1.1.trans p2.1.symm
  have hx : x = v.lon := by rw [ax', ax, haa]
  have hy : y = v.lat := by rw [ay', ay, haa]
  have c1 : roundHalfAway u = v.lon - s.p.lon := by
    apply roundHalfAway_eq_of_close
    rw [hx] at e1
    push_cast
    rw [show u - ((v.lon : ℚ) - s.p.lon) = s.p.lon + u - v.lon by ring]
    exact lt_of_le_of_lt e1 (by norm_num)
  have c2 : roundHalfAway w = v.lat - s.p.lat := by
    apply roundHalfAway_eq_of_close
    rw [hy] at e2
    push_cast
    rw [show w - ((v.lat : ℚ) - s.p.lat) = s.p.lat + w - v.lat by ring]
    exact lt_of_le_of_lt e2 (by norm_num)
  congr 2
  cases r; cases v
  simp only [Coord.mk.injEq] at *
  omega

example : OnSeg ⟨⟨0, 0⟩, ⟨10, 10⟩⟩ ((5 : ℤ) : ℚ) ((5 : ℤ) : ℚ) := ⟨1 / 2, by norm_num⟩

/-- **C07** Whether an intersection is reported depends neither on which segment is asked nor
on the direction in which the segments are given. -/
theorem C07_symmetric (s t : Seg) (hnp : NonParallel s t) :
    (s.intersect t).isSome = (t.intersect s).isSome ∧
    (s.intersect t).isSome = ((Seg.mk s.q s.p).intersect t).isSome ∧
    (s.intersect t).isSome = (s.intersect ⟨t.q, t.p⟩).isSome := by
  have hn2 : NonParallel t s := by unfold NonParallel at *; intro h; apply hnp; linarith
  have hn3 : NonParallel ⟨s.q, s.p⟩ t := by
    unfold NonParallel at *; intro h; apply hnp; simp only at h; linarith
  have hn4 : NonParallel s ⟨t.q, t.p⟩ := by
    unfold NonParallel at *; intro h; apply hnp; simp only at h; linarith
  rw [nonParallel_iff] at hnp hn2 hn3 hn4
  refine ⟨?_, ?_, ?_⟩ <;> rw [Bool.eq_iff_iff]
  · rw [intersect_isSome_iff hnp, intersect_isSome_iff hn2]
    exact ⟨Meets_symm, Meets_symm⟩
  · rw [intersect_isSome_iff hnp, intersect_isSome_iff hn3]
    exact ⟨fun ⟨x, y, a, b⟩ => ⟨x, y, OnSeg_rev a, b⟩, fun ⟨x, y, a, b⟩ => ⟨x, y, OnSeg_rev a, b⟩⟩
  · rw [intersect_isSome_iff hnp, intersect_isSome_iff hn4]
    exact ⟨fun ⟨x, y, a, b⟩ => ⟨x, y, a, OnSeg_rev b⟩, fun ⟨x, y, a, b⟩ => ⟨x, y, a, OnSeg_rev b⟩⟩

example : ((Seg.mk ⟨0, 0⟩ ⟨10, 10⟩).intersect ⟨⟨0, 10⟩, ⟨10, 0⟩⟩).isSome =
    ((Seg.mk ⟨0, 10⟩ ⟨10, 0⟩).intersect ⟨⟨0, 0⟩, ⟨10, 10⟩⟩).isSome :=
  (C07_symmetric _ _ (by decide)).1

/-! ### C08 parallel segments -/

/-- **C08** For parallel segments a point is reported iff they share an endpoint, and then it
is such a shared endpoint. -/
theorem C08_parallel (s t : Seg) (h1 : s.p.Per) (h2 : s.q.Per) (h3 : t.p.Per) (h4 : t.q.Per)
    (hp : ¬ NonParallel s t) :
    ∃ o, s.intersectC t = .ok o ∧
      (o.isSome ↔ ∃ c, (c = s.p ∨ c = s.q) ∧ (c = t.p ∨ c = t.q)) ∧
      (∀ c, o = some c → (c = s.p ∨ c = s.q) ∧ (c = t.p ∨ c = t.q)) := by
  rw [nonParallel_iff, not_not] at hp
  refine ⟨_, Seg.intersectC_ok h1 h2 h3 h4, ?_⟩
  unfold Seg.intersect Seg.sharedEndpoint
  rw [if_pos hp]
  split_ifs with a b
  · refine ⟨⟨fun _ => ⟨s.p, Or.inl rfl, a⟩, fun _ => rfl⟩, ?_⟩
    rintro c ⟨⟩; exact ⟨Or.inl rfl, a⟩
  · refine ⟨⟨fun _ => ⟨s.q, Or.inr rfl, b⟩, fun _ => rfl⟩, ?_⟩
    rintro c ⟨⟩; exact ⟨Or.inr rfl, b⟩
  · refine ⟨⟨fun h => by simp at h, ?_⟩, fun c h => by simp at h⟩
    rintro ⟨c, hc1 | hc1, hc2⟩
    · subst hc1; exact absurd hc2 a
    · subst hc1; exact absurd hc2 b

example : ¬ NonParallel ⟨⟨0, 0⟩, ⟨10, 0⟩⟩ ⟨⟨10, 0⟩, ⟨20, 0⟩⟩ := by decide

/-- **C08** (existence is not exact for parallel segments) Two overlapping collinear segments
are reported as not intersecting. -/
theorem C08_overlap_missed_false :
    ¬ ∀ s t : Seg, s.p.Geo → s.q.Geo → t.p.Geo → t.q.Geo →
      ((s.intersect t).isSome ↔ Meets s t) := by
  intro h
  have := (h ⟨⟨0, 0⟩, ⟨10, 0⟩⟩ ⟨⟨5, 0⟩, ⟨20, 0⟩⟩ (by decide) (by decide) (by decide)
    (by decide)).2 ⟨7, 0, ⟨7 / 10, by norm_num⟩, ⟨2 / 15, by norm_num⟩⟩
  exact absurd this (by decide)

/-- **C08** Distinct parallel lines never produce an intersection, and none exists. -/
theorem C08_distinct_lines (s t : Seg) (hp : ¬ NonParallel s t)
    (h : area2 s.p s.q t.p ≠ 0) : s.intersect t = none ∧ ¬ Meets s t := by
  have hp' : (s.q.lon - s.p.lon) * (t.q.lat - t.p.lat) =
      (s.q.lat - s.p.lat) * (t.q.lon - t.p.lon) := by
    unfold NonParallel at hp; exact not_not.1 hp
  have hm : ¬ Meets s t := by
    rintro ⟨x, y, ⟨a, _, _, hx, hy⟩, ⟨b, _, _, hx', hy'⟩⟩
    apply h
    have hpq : ((s.q.lon : ℚ) - s.p.lon) * (t.q.lat - t.p.lat) =
      (s.q.lat - s.p.lat) * (t.q.lon - t.p.lon) := by exact_mod_cast hp'
    have : ((area2 s.p s.q t.p : ℤ) : ℚ) = 0 := by
      unfold area2
      push_cast
      have e1 := hx.symm.trans hx'
      have e2 := hy.symm.trans hy'
      linear_combination ((s.q.lat : ℚ) - s.p.lat) * e1 - ((s.q.lon : ℚ) - s.p.lon) * e2
        - b * hpq
    exact_mod_cast this
  refine ⟨?_, hm⟩
  rw [nonParallel_iff, not_not] at hp
  unfold Seg.intersect
  rw [if_pos hp]
  unfold Seg.sharedEndpoint
  have onp : ∀ r : Seg, OnSeg r r.p.lon r.p.lat := fun r => ⟨0, le_refl _, zero_le_one, by ring, by ring⟩
  have onq : ∀ r : Seg, OnSeg r r.q.lon r.q.lat := fun r => ⟨1, zero_le_one, le_refl _, by ring, by ring⟩
  split_ifs with a b
  · exfalso; apply hm
    rcases a with a | a
    · exact ⟨_, _, onp s, a ▸ onp t⟩
    · exact ⟨_, _, onp s, a ▸ onq t⟩
  · exfalso; apply hm
    rcases b with b | b
    · exact ⟨_, _, onq s, b ▸ onp t⟩
    · exact ⟨_, _, onq s, b ▸ onq t⟩
  · rfl

example : ¬ NonParallel ⟨⟨0, 0⟩, ⟨10, 0⟩⟩ ⟨⟨0, 1⟩, ⟨10, 1⟩⟩ ∧
    area2 ⟨0, 0⟩ ⟨10, 0⟩ ⟨0, 1⟩ ≠ 0 := by decide

/-! ### C10 on_segment -/

/-- **C10** `on_segment` is exact on every `int32_t` input for which the orientation does not
overflow, although its range test compares floating-point degrees. -/
theorem C10_on_segment (s : Seg) (c : Coord) (hp : s.p.Per) (hq : s.q.Per) (hc : c.Per) :
    ∃ b, s.onSegmentC c = .ok b ∧ (b = true ↔ OnSeg s c.lon c.lat) :=
  ⟨_, Seg.onSegmentC_ok hp hq hc, onSegment_iff hp.wf hq.wf hc.wf⟩

example : OnSeg ⟨⟨0, 0⟩, ⟨4, 6⟩⟩ ((2 : ℤ) : ℚ) ((3 : ℤ) : ℚ) := ⟨1 / 2, by norm_num⟩

/-- **C10** The comparison of degrees agrees with the comparison of microdegrees on all of
`int32_t`. -/
theorem C10_degree_order (k l : ℤ) (hk : FitsI32 k) (hl : FitsI32 l) :
    Coord.degOfMicro k ≤ Coord.degOfMicro l ↔ k ≤ l := degOfMicro_le_iff hk hl

example : Coord.degOfMicro 2147483646 ≤ Coord.degOfMicro 2147483647 :=
  (C10_degree_order _ _ (by decide) (by decide)).2 (by decide)

end Capi
