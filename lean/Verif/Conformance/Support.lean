import Verif.Props.Visgraph

/-!
# Evaluating the project's unit tests on the model

The files in this folder check the model against the expectations written down in the project's
own tests (capi/test).  A test settles one case only, so nothing here counts as a proof of a
property; what the files show is that the definitions the theorems are about give the results
the authors of the program expect.
-/

namespace Capi.Conformance

/-- constants.hpp:15 `LONGITUDE_PERIOD`, in double degrees. -/
def period64 : ℚ := fl (fl (180 - -180) + fl 0.000001)

/-- `Coordinate(x, y)` of two double literals (coordinate.cpp:18-20).  No test is about a conversion
that overflows; a value on no map stands for it. -/
def deg (x y : ℚ) : Coord :=
  match Coord.ofDegreesC (fl x) (fl y) with
  | .ok c => c
  | .error _ => ⟨-2147483648, -2147483648⟩

/-- `Polygon({...})` (polygon.cpp:41-43), summing in program order. -/
def poly (vs : List Coord) : List Coord := Polygon.mk Polygon.SumTree.sequential vs

/-- Whether `VistreeGenerator(polygons).get_visible_vertices(root, half)` ends without fault and
gives the expected vertices, up to order. -/
def sees (ps : List (List Coord)) (root : Coord) (half : Bool) (expected : List (Coord × Bool)) :
    Bool :=
  let m := Vistree.ofPolygons (ps.map poly)
  match Vistree.scanC exLook m root (Vistree.vertices m) (Vistree.segments m) half with
  | .ok r => r.isPerm expected
  | .error _ => false

end Capi.Conformance
