import Verif.Lemmas.Arith

/-!
# C03: the integer geometry does not overflow on periodic geographic input
-/

namespace Capi

/-- **C03** Subtraction of two coordinates in the periodic range. -/
theorem C03_sub (a b : Coord) (ha : a.Per) (hb : b.Per) :
    a.subC b = .ok ⟨a.lon - b.lon, a.lat - b.lat⟩ := by
  rw [Coord.subC_ok ha hb]; simp [Coord.sub, Coord.add, Coord.neg, Int.sub_eq_add_neg]

example : (⟨540000001, -90000000⟩ : Coord).Per ∧ (⟨-540000001, 90000000⟩ : Coord).Per := by decide

/-- **C03** Products of the difference vectors of four coordinates in the periodic range:
cross product, dot product, squared length and orientation have their mathematical values. -/
theorem C03_products (a b c d : Coord) (ha : a.Per) (hb : b.Per) (hc : c.Per) (hd : d.Per) :
    (do let u ← a.subC b; let v ← c.subC d; u.crossC v) =
      .ok ((a.lon - b.lon) * (c.lat - d.lat) - (c.lon - d.lon) * (a.lat - b.lat)) ∧
    (do let u ← a.subC b; let v ← c.subC d; u.dotC v) =
      .ok ((a.lon - b.lon) * (c.lon - d.lon) + (a.lat - b.lat) * (c.lat - d.lat)) ∧
    (do let u ← a.subC b; u.magSqC) =
      .ok ((a.lon - b.lon) * (a.lon - b.lon) + (a.lat - b.lat) * (a.lat - b.lat)) := by
  have v1 := Coord.Per.vec_sub ha hb
  have v2 := Coord.Per.vec_sub hc hd
  rw [Coord.subC_ok ha hb, Coord.subC_ok hc hd]
  simp only [Res.bind_ok]
  rw [Coord.crossC_ok v1 v2, Coord.dotC_ok v1 v2, Coord.magSqC_ok v1]
  simp [Coord.cross, Coord.dot, Coord.magSq, Coord.sub, Coord.add, Coord.neg, Int.sub_eq_add_neg]

example : (do let u ← (⟨540000001, 0⟩ : Coord).subC ⟨-540000001, 90000000⟩
              u.magSqC) = .ok 1174500004320000004 :=
  (C03_products ⟨540000001, 0⟩ ⟨-540000001, 90000000⟩ ⟨0, 0⟩ ⟨0, 0⟩ (by decide) (by decide)
    (by decide) (by decide)).2.2

/-- **C03** Orientation, on-segment and intersection never hit undefined behaviour or throw,
and give the values computed on mathematical integers. -/
theorem C03_predicates (s t : Seg) (c : Coord) (h1 : s.p.Per) (h2 : s.q.Per) (h3 : t.p.Per)
    (h4 : t.q.Per) (hc : c.Per) :
    s.orientPtC c = .ok (s.orientPt c) ∧ s.onSegmentC c = .ok (s.onSegment c) ∧
    s.intersectC t = .ok (s.intersect t) :=
  ⟨Seg.orientPtC_ok h1 h2 hc, Seg.onSegmentC_ok h1 h2 hc, Seg.intersectC_ok h1 h2 h3 h4⟩

example : (Seg.mk ⟨-540000001, -90000000⟩ ⟨540000001, 90000000⟩).orientPtC ⟨540000001, -90000000⟩ =
    .ok .clockwise :=
  (C03_predicates _ ⟨⟨0, 0⟩, ⟨1, 1⟩⟩ _ (by decide) (by decide) (by decide) (by decide)
    (by decide)).1.trans (by decide +kernel)

/-- **C03** The intersection point is again in the periodic range (it lies in the bounding box
of the first segment), so results can be fed back into the predicates. -/
theorem C03_intersection_in_range (s t : Seg) (h1 : s.p.Per) (h2 : s.q.Per) (r : Coord)
    (h : s.intersect t = some r) : r.Per := by
  have hb := Seg.intersect_box h1 h2 h
  simp only [Coord.Per] at *
  omega

example : (Seg.mk ⟨0, 0⟩ ⟨10, 10⟩).intersectC (Seg.mk ⟨0, 10⟩ ⟨10, 0⟩) = .ok (some ⟨5, 5⟩) := by
  have h : Seg.param 200 100 = 1 / 2 := by
    unfold Seg.param
    have e1 : fl ((100 : ℤ) : ℚ) = (100 : ℤ) := fl_int _ (by norm_num)
    have e2 : fl ((200 : ℤ) : ℚ) = (200 : ℤ) := fl_int _ (by norm_num)
    rw [e1, e2]
    have := fl_pow2 (-1)
    norm_num at this ⊢
    exact this
  have h2 : roundHalfAway (fl (((10 : ℤ) : ℚ) * (1 / 2))) = 5 := by
    have : fl ((5 : ℤ) : ℚ) = (5 : ℤ) := fl_int _ (by norm_num)
    rw [show ((10 : ℤ) : ℚ) * (1 / 2) = ((5 : ℤ) : ℚ) by norm_num, this, roundHalfAway_int]
  rw [Seg.intersectC_ok (by decide) (by decide) (by decide) (by decide)]
  simp only [Seg.intersect, Seg.detD, Seg.detX, Seg.detY, Coord.sub, Coord.add, Coord.neg,
    Seg.rejects, Coord.scale]
  norm_num
  norm_num at h h2
  rw [h]
  norm_num
  exact h2

/-- **C03** (boundary) Outside the periodic range overflow does happen: for `int32_t`
coordinates subtraction, dot product, squared length, orientation and intersection have
undefined behaviour somewhere. -/
theorem C03_overflow_outside_range :
    (∃ a b : Coord, a.Wf ∧ b.Wf ∧ a.subC b = .error .ub) ∧
    (∃ a b : Coord, a.Wf ∧ b.Wf ∧ a.dotC b = .error .ub) ∧
    (∃ a : Coord, a.Wf ∧ a.magSqC = .error .ub) ∧
    (∃ s : Seg, ∃ c : Coord, s.p.Wf ∧ s.q.Wf ∧ c.Wf ∧ s.orientPtC c = .error .ub) ∧
    (∃ s t : Seg, s.p.Wf ∧ s.q.Wf ∧ t.p.Wf ∧ t.q.Wf ∧ s.intersectC t = .error .ub) := by
  refine ⟨⟨⟨2147483647, 0⟩, ⟨-1, 0⟩, ?_⟩,
    ⟨⟨-2147483648, -2147483648⟩, ⟨-2147483648, -2147483648⟩, ?_⟩,
    ⟨⟨-2147483648, -2147483648⟩, ?_⟩,
    ⟨⟨⟨-2147483648, -2147483648⟩, ⟨2147483647, 2147483647⟩⟩, ⟨-2147483648, 2147483647⟩, ?_⟩,
    ⟨⟨⟨0, 0⟩, ⟨1, 0⟩⟩, ⟨⟨2147483647, 0⟩, ⟨-2, 0⟩⟩, ?_⟩⟩
  · decide
  · decide
  · decide
  · decide
  · decide

/-- **C03** The 64-bit cross product alone is safe for all `int32_t` vectors. -/
theorem C03_cross_all_int32 (a b : Coord) (ha : a.Wf) (hb : b.Wf) :
    a.crossC b = .ok (a.lon * b.lat - b.lon * a.lat) := by
  obtain ⟨⟨a1, a2⟩, a3, a4⟩ := ha
  obtain ⟨⟨b1, b2⟩, b3, b4⟩ := hb
  have prod : ∀ x y : ℤ, -2147483648 ≤ x → x ≤ 2147483647 → -2147483648 ≤ y → y ≤ 2147483647 →
      -4611686016279904256 ≤ x * y ∧ x * y ≤ 4611686018427387904 := by
    intro x y h1 h2 h3 h4
    constructor <;> rcases le_total 0 x with hx | hx <;> rcases le_total 0 y with hy | hy <;>
      nlinarith
  have p1 := prod a.lon b.lat a1 a2 b3 b4
  have p2 := prod b.lon a.lat b1 b2 a3 a4
  unfold Coord.crossC
  rw [chk64_ok ⟨by omega, by omega⟩, chk64_ok ⟨by omega, by omega⟩]
  simp only [Res.bind_ok]
  rw [chk64_ok ⟨by omega, by omega⟩]

example : (⟨-2147483648, -2147483648⟩ : Coord).Wf := by decide

end Capi
