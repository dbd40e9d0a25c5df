import Verif.Model.Coordinate
import Verif.Model.Polygon
import Verif.Model.Project
import Verif.Model.ShortestPath

/-!
# Conversions between coordinates and points of S2

The S2 library is not part of the repository.  What its conversion functions compute is written down
here from its documentation: angles of `FromE6` are `(M_PI / 180) * (1e-6 * e6)`, `S2LatLng::ToPoint`
multiplies sines and cosines, `S2LatLng(S2Point)` uses `atan2`, and `e6()` rounds
`1e6 * ((180 / M_PI) * radians)` to the nearest integer.  The functions of the C library are
parameters.
-/

namespace Capi

/-- The functions of the C library used by S2, on doubles. -/
structure Libm where
  sin : ℚ → ℚ
  cos : ℚ → ℚ
  atan2 : ℚ → ℚ → ℚ
  sqrt : ℚ → ℚ
  round : ℚ → ℤ

namespace Sphere

/-- `S2Point`: three doubles. -/
abbrev Point := ℚ × ℚ × ℚ

/-- `M_PI`. -/
def piD : ℚ := 884279719003555 / 281474976710656

/-- `S1Angle::E6(n).radians()`, as used in coordinate.cpp:167-169. -/
def radians (n : ℤ) : ℚ := fl (fl (piD / 180) * Coord.degOfMicro n)

/-- `S1Angle::Radians(r).e6()`, as used in coordinate.cpp:25-29. -/
def e6 (L : Libm) (r : ℚ) : ℤ := L.round (fl (1000000 * fl (fl (180 / piD) * r)))

/-- coordinate.cpp:165-169 `to_s2_point`, `to_s2_lat_lng`. -/
def toPoint (L : Libm) (c : Coord) : Point :=
  (fl (L.cos (radians c.lon) * L.cos (radians c.lat)),
    fl (L.sin (radians c.lon) * L.cos (radians c.lat)), L.sin (radians c.lat))

/-- coordinate.cpp:25-29: the constructor from a point. -/
def ofPoint (L : Libm) (p : Point) : Coord :=
  ⟨e6 L (L.atan2 p.2.1 p.1),
    e6 L (L.atan2 p.2.2 (L.sqrt (fl (fl (p.1 * p.1) + fl (p.2.1 * p.2.1)))))⟩

/-- spatial_segment_index.cpp:83-85 `s2_to_capi_line_segment`, and the same conversion in 37, 55. -/
def ofEdge (L : Libm) (e : Point × Point) : Seg := ⟨ofPoint L e.1, ofPoint L e.2⟩

/-- What is asked of S2, on points. -/
structure Queries where
  /-- `S2ContainsPointQuery::Contains` over the shape index -/
  contains : Point → Bool
  /-- `S2ClosestEdgeQuery::FindClosestEdge`; `none` stands for an empty result -/
  nearest : Point → Option (Point × Point)
  /-- `S2CrossingEdgeQuery::GetCrossingEdges`, sorted as in spatial_segment_index.cpp:74-76 -/
  crossing : Point → Point → List (Point × Point)
  /-- `S2Polyline::Project` onto the polyline of two points -/
  project : Point → Point → Point → Point

/-- polygon.cpp:103-112 `to_s2_loop`: the vertices of the loop. -/
def loop (L : Libm) (vs : List Coord) : List Point := vs.map (toPoint L)

/-- The edges of an `S2Loop`: every vertex with the next one, cyclically. -/
def loopEdges (ps : List Point) : List (Point × Point) :=
  (List.range ps.length).map fun i =>
    (ps.getD (i % ps.length) default, ps.getD ((i + 1) % ps.length) default)

/-- spatial_segment_index.cpp:42-56 `closest_segment_to_point`. -/
def closest (L : Libm) (S : Queries) (c : Coord) : Res Seg :=
  match S.nearest (toPoint L c) with
  | some e => .ok (ofEdge L e)
  | none => .error .exn

/-- spatial_segment_index.cpp:67-81 `intersect_with_segments`. -/
def crossings (L : Libm) (S : Queries) (s : Seg) : List Seg :=
  (S.crossing (toPoint L s.p) (toPoint L s.q)).map (ofEdge L)

/-- spatial_segment_index.cpp:58-65 `does_segment_intersect_with_segments`; `raw` is
`GetCrossingEdges`, in the order of S2.  Not called by the rest of the code. -/
def meets (L : Libm) (raw : Point → Point → List (Point × Point)) (s : Seg) : Bool :=
  !(raw (toPoint L s.p) (toPoint L s.q)).isEmpty

/-- spatial_segment_index.cpp:19-40 `segments_within_distance_of_point`; `found` is
`FindClosestEdges` for the given distance, `none` an empty result, which is passed over.  Not
called by the rest of the code. -/
def within (L : Libm) (found : Point → List (Option (Point × Point))) (c : Coord) : List Seg :=
  (found (toPoint L c)).filterMap fun r => r.map (ofEdge L)

/-- spatial_segment_index.cpp:87-91 `is_point_contained`. -/
def onLand (L : Libm) (S : Queries) (c : Coord) : Bool := S.contains (toPoint L c)

/-- line_segment.cpp:107-125 `project` with its default margin 0. -/
def project (L : Libm) (S : Queries) (s : Seg) (c : Coord) : Res Coord :=
  projectC L.sqrt (ofPoint L (S.project (toPoint L s.p) (toPoint L s.q) (toPoint L c))) c 0

/-- The environment of a query whose geometry is asked of S2. -/
def env (L : Libm) (S : Queries) (E : ShortestPath.Env) : ShortestPath.Env :=
  { E with onLand := onLand L S, closest := closest L S, project := project L S,
           crossings := crossings L S }

end Sphere

end Capi
