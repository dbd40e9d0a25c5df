import Verif.Model.Batch
import Verif.Model.Polygon
import Verif.Model.Visgraph

/-!
# The Python layer (capi/src/implementation/*.py)

Python's unbounded integers are `ℤ`, floats are rationals (`fl` marks rounding); a Python exception
is `Fault.exn`.  Creating directories, file names, warnings and the parsing done by the `shapefile`
package are not modelled.
-/

namespace Capi

namespace Frontend

/-! ### graph_generator.py -/

/-- graph_generator.py:62-64 `_get_num_vertices_in_polygons`: `reduce` without an initial value
raises on an empty sequence. -/
def numVertices : List (List Coord) → Res ℤ
  | [] => .error .exn
  | p :: r => .ok ((r.map fun q => (q.length : ℤ)).foldl (fun a b => a + b) p.length)

/-- graph_generator.py:44-47: the bounds of one split; `//` rounds down and raises for 0. -/
def splitRange (n k i : ℤ) : Res (ℤ × ℤ) :=
  if k = 0 then .error .exn
  else
    let size := Int.fdiv n k
    .ok (size * i, if i < k - 1 then size * (i + 1) else n)

/-- pybind11 converts an `int` to `size_t`; a negative or too large one raises. -/
def toSize (x : ℤ) : Res ℕ := if 0 ≤ x ∧ x < 2 ^ 64 then .ok x.toNat else .error .exn

/-- graph_generator.py:34-51 `generate_for_vertex_range` without files: split `i` of `k`. -/
def generateSplit (ps : List (List Coord)) (scanner : Coord → Res (List (Coord × Bool)))
    (order shuffle : List Coord → List Coord) (k i : ℤ) : Res Graph := do
  let n ← numVertices ps
  let r ← splitRange n k i
  let lo ← toSize r.1
  let hi ← toSize r.2
  Visgraph.generateRange ps scanner order shuffle lo hi

/-! ### shapefile_reader.py -/

/-- A record of a shapefile: whether its type is called `POLYGON`, its points (longitude,
latitude) and the indices at which its parts start. -/
structure Shape where
  isPolygon : Bool
  points : List (ℚ × ℚ)
  parts : List ℕ

/-- shapefile_reader.py:19-25: the loop over the points, starting with index `i`; `part_i` stays
1. -/
def partLoop (parts : List ℕ) : ℕ → List (ℚ × ℚ) → List (ℚ × ℚ)
  | _, [] => []
  | i, p :: r =>
    if parts.length > 1 ∧ parts[1]? = some i then [] else p :: partLoop parts (i + 1) r

/-- polygon.py:8-15: the constructor of the Python `Polygon`. -/
def pyPolygon (vs : List (ℚ × ℚ)) : Res (List (ℚ × ℚ)) :=
  if vs.length < 3 then .error .exn else .ok vs

/-- shapefile_reader.py:12-32 `read`. -/
def readShapes : List Shape → Res (List (List (ℚ × ℚ)))
  | [] => .ok []
  | s :: r =>
    if s.isPolygon = false then readShapes r
    else if (partLoop s.parts 0 s.points).length > 3 then do
      let p ← pyPolygon (partLoop s.parts 0 s.points).dropLast
      let rest ← readShapes r
      return p :: rest
    else readShapes r

/-- graph_generator.py:53-60 `_read_polygons_from_shapefile`: convert to coordinates and
construct the C++ polygons. -/
def toPolygons (T : ℕ → Polygon.SumTree) (qs : List (List (ℚ × ℚ))) : Res (List (List Coord)) :=
  qs.mapM fun q => do
    let cs ← q.mapM fun p => Coord.ofDegreesC p.1 p.2
    return Polygon.mk T cs

/-! ### dtos/coordinate.py -/

/-- Python's `x % m` for floats and `m > 0`, in exact arithmetic. -/
def pyMod (x m : ℚ) : ℚ := x - m * ⌊x / m⌋

/-- coordinate.py:13-17 `construct_coord_in_lat_lon_range` in exact arithmetic: latitude and
longitude. -/
def wrapLatLon (lat lon : ℚ) : ℚ × ℚ := (pyMod (lat + 90) 180 - 90, pyMod (lon + 180) 360 - 180)

/-- Python's `x % m` for floats and `m > 0`: `fmod`, which is exact, and a rounded addition of `m`
to a negative result. -/
def pyModFl (x m : ℚ) : ℚ :=
  let r := x - m * truncZ (x / m)
  if r < 0 then fl (r + m) else r

/-- coordinate.py:13-17 `construct_coord_in_lat_lon_range` as computed. -/
def wrapLatLonFl (lat lon : ℚ) : ℚ × ℚ :=
  (fl (pyModFl (fl (lat + 90)) 180 - 90), fl (pyModFl (fl (lon + 180)) 360 - 180))

/-! ### path_interpolator.py -/

open ShortestPath

variable {D : Type} [LinearOrder D]

/-- path_interpolator.py:100-104: the degrees (longitude, latitude) of the points. -/
def toDegrees (path : List Coord) : List (ℚ × ℚ) := path.map fun c => (c.lonDeg, c.latDeg)

/-- path_interpolator.py:26-41, 62-77 `interpolate`: outcomes for endpoints given as (longitude,
latitude). -/
def Interpolate (A : Arith D) (E : Env) (s d : ℚ × ℚ) (allow : Bool)
    (r : Res (List (ℚ × ℚ))) : Prop :=
  match (do
    let a ← Coord.ofDegreesC s.1 s.2
    let b ← Coord.ofDegreesC d.1 d.2
    return (a, b) : Res (Coord × Coord)) with
  | .error f => r = .error f
  | .ok ab => ∃ q, Query A E ab.1 ab.2 allow q ∧ r = q.map toDegrees

/-- path_interpolator.py:90-98: the loop over the results; `None` for an error.  Should a result
hold neither error nor path, converting it raises. -/
def convertResults : List BatchResult → Res (List (Option (List (ℚ × ℚ))))
  | [] => .ok []
  | b :: r =>
    if b.error.isSome then do
      let rest ← convertResults r
      return none :: rest
    else
      match b.path with
      | none => .error .exn
      | some p => do
        let rest ← convertResults r
        return some (toDegrees p) :: rest

/-- path_interpolator.py:43-60, 79-98 `batch_interpolate`. -/
def BatchInterpolate (A : Arith D) (E : Env) (qs : List ((ℚ × ℚ) × (ℚ × ℚ))) (allow : Bool)
    (r : Res (List (Option (List (ℚ × ℚ))))) : Prop :=
  match (qs.mapM fun q => (do
    let a ← Coord.ofDegreesC q.1.1 q.1.2
    let b ← Coord.ofDegreesC q.2.1 q.2.2
    return (a, b) : Res (Coord × Coord))) with
  | .error f => r = .error f
  | .ok cs => ∃ x, Batch A E cs allow x ∧ r = x >>= convertResults

end Frontend

end Capi
