import Verif.Model.Coordinate

/-!
# `LineSegment` (code/types/line_segment/line_segment.cpp)
-/

namespace Capi

/-- `class LineSegment`: the two endpoints in order. -/
structure Seg where
  p : Coord
  q : Coord
  deriving DecidableEq, Repr, Inhabited

namespace Seg

/-- line_segment.cpp:127-130 `operator==`: equality up to direction. -/
def sameAs (s t : Seg) : Bool := (s.p == t.p && s.q == t.q) || (s.p == t.q && s.q == t.p)

/-- line_segment.cpp:138-142 `std::hash<LineSegment>`. -/
def hash (s : Seg) : BitVec 64 := Coord.hashMix s.p.hash s.q.hash

/-- line_segment.cpp:15-23 `get_adjacent_to`. -/
def adjacentTo (s : Seg) (c : Coord) : Res Coord :=
  if c = s.p then .ok s.q else if c = s.q then .ok s.p else .error .exn

/-- line_segment.cpp:70 `get_tangent_vector`. -/
def tangent (s : Seg) : Coord := s.q.sub s.p

/-- line_segment.cpp:70 `get_tangent_vector`, checked. -/
def tangentC (s : Seg) : Res Coord := s.q.subC s.p

/-! ### Orientation of a point -/

/-- line_segment.cpp:80-81 `signed_area`, ignoring overflow. -/
def signedArea (s : Seg) (c : Coord) : ℤ :=
  (s.q.lon - s.p.lon) * (c.lat - s.p.lat) - (s.q.lat - s.p.lat) * (c.lon - s.p.lon)

/-- line_segment.cpp:82-88: the branches on the sign. -/
def orientOfArea (x : ℤ) : Orientation :=
  if 0 < x then .counterClockwise else if x < 0 then .clockwise else .collinear

/-- line_segment.cpp:72-89 `orientation_of_point_to_segment`. -/
def orientPt (s : Seg) (c : Coord) : Orientation := orientOfArea (s.signedArea c)

/-- line_segment.cpp:72-89 with `int64_t` overflow checks. -/
def orientPtC (s : Seg) (c : Coord) : Res Orientation := do
  let a ← chk64 (s.q.lon - s.p.lon)
  let b ← chk64 (c.lat - s.p.lat)
  let d ← chk64 (s.q.lat - s.p.lat)
  let e ← chk64 (c.lon - s.p.lon)
  let x ← chk64 (a * b)
  let y ← chk64 (d * e)
  let z ← chk64 (x - y)
  return orientOfArea z

/-- line_segment.cpp:91-105 `on_segment`; the range test compares double degrees. -/
def onSegment (s : Seg) (c : Coord) : Bool :=
  s.orientPt c == .collinear &&
  ((decide (s.p.lonDeg ≤ c.lonDeg) && decide (c.lonDeg ≤ s.q.lonDeg)) ||
   (decide (s.q.lonDeg ≤ c.lonDeg) && decide (c.lonDeg ≤ s.p.lonDeg))) &&
  ((decide (s.p.latDeg ≤ c.latDeg) && decide (c.latDeg ≤ s.q.latDeg)) ||
   (decide (s.q.latDeg ≤ c.latDeg) && decide (c.latDeg ≤ s.p.latDeg)))

/-- line_segment.cpp:91-105 with overflow checks. -/
def onSegmentC (s : Seg) (c : Coord) : Res Bool := do
  let o ← s.orientPtC c
  return o == .collinear &&
    ((decide (s.p.lonDeg ≤ c.lonDeg) && decide (c.lonDeg ≤ s.q.lonDeg)) ||
     (decide (s.q.lonDeg ≤ c.lonDeg) && decide (c.lonDeg ≤ s.p.lonDeg))) &&
    ((decide (s.p.latDeg ≤ c.latDeg) && decide (c.latDeg ≤ s.q.latDeg)) ||
     (decide (s.q.latDeg ≤ c.latDeg) && decide (c.latDeg ≤ s.p.latDeg)))

/-! ### Intersection -/

/-- line_segment.cpp:35-41: the vectors `n`, `m`, `p` and the determinants `D`, `Qx`, `Qy`,
ignoring overflow. -/
def detD (s t : Seg) : ℤ :=
  (s.q.sub s.p).lon * (t.p.sub t.q).lat - (s.q.sub s.p).lat * (t.p.sub t.q).lon
/-- line_segment.cpp:40 `Qx`. -/
def detX (s t : Seg) : ℤ :=
  (t.p.sub t.q).lat * (t.p.sub s.p).lon - (t.p.sub t.q).lon * (t.p.sub s.p).lat
/-- line_segment.cpp:41 `Qy`. -/
def detY (s t : Seg) : ℤ :=
  (s.q.sub s.p).lon * (t.p.sub s.p).lat - (s.q.sub s.p).lat * (t.p.sub s.p).lon

/-- line_segment.cpp:44-57: parallel segments meet in a shared endpoint only. -/
def sharedEndpoint (s t : Seg) : Option Coord :=
  if s.p = t.p ∨ s.p = t.q then some s.p
  else if s.q = t.p ∨ s.q = t.q then some s.q
  else none

/-- line_segment.cpp:58-60: the rejection test for non-parallel segments. -/
def rejects (D X Y : ℤ) : Bool :=
  !((decide (0 ≤ D) && decide (0 ≤ X) && decide (0 ≤ Y)) ||
    (decide (D ≤ 0) && decide (X ≤ 0) && decide (Y ≤ 0))) ||
  decide (|D| < |X|) || decide (|D| < |Y|)

/-- line_segment.cpp:66: `t = double(Qx) / double(D)`. -/
def param (D X : ℤ) : ℚ := fl (fl X / fl D)

/-- line_segment.cpp:25-68 `intersection_with_segment`, ignoring overflow. -/
def intersect (s t : Seg) : Option Coord :=
  if s.detD t = 0 then s.sharedEndpoint t
  else if rejects (s.detD t) (s.detX t) (s.detY t) then none
  else some (s.p.add ((s.q.sub s.p).scale (param (s.detD t) (s.detX t))))

/-- `x * y - z * w` on `int64_t`. -/
def det64 (x y z w : ℤ) : Res ℤ := do
  let a ← chk64 (x * y)
  let b ← chk64 (z * w)
  chk64 (a - b)

/-- line_segment.cpp:25-68 `intersection_with_segment` with all overflow checks (`std::abs`
of the most negative `int64_t` would be undefined too). -/
def intersectC (s t : Seg) : Res (Option Coord) := do
  let n ← s.q.subC s.p
  let m ← t.p.subC t.q
  let p ← t.p.subC s.p
  let D ← det64 n.lon m.lat n.lat m.lon
  let X ← det64 m.lat p.lon m.lon p.lat
  let Y ← det64 n.lon p.lat n.lat p.lon
  if D = 0 then return s.sharedEndpoint t
  let _ ← chk64 (|D|)
  let _ ← chk64 (|X|)
  let _ ← chk64 (|Y|)
  if rejects D X Y then return none
  let v ← n.scaleC (param D X)
  let r ← s.p.addC v
  return some r

end Seg

end Capi
