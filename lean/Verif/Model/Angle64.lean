import Verif.Model.Visgraph
import Verif.Model.ShortestPath

/-!
# Sorting by the angles the code computes

`Verif.Model.AngleSorter` compares exact angles.  Here the angle is computed in double precision
from `std::atan2`, which is a parameter, and `std::sort` may return any sorted permutation.
-/

namespace Capi

namespace AngleSorter

/-- The double `M_PI`. -/
def mPi : ℚ := 884279719003555 / 281474976710656

/-- coordinate.cpp:144-153 `angle_to_horizontal`; `atan2` is the C library's function. -/
def horizontal (atan2 : ℚ → ℚ → ℚ) (v : Coord) : ℚ :=
  let arctan := atan2 v.lat v.lon
  if arctan < 0 then fl (arctan + fl (2 * mPi)) else arctan

/-- angle_sorter.cpp:15-34: the comparison lambda. -/
def lessAt (atan2 : ℚ → ℚ → ℚ) (obs c1 c2 : Coord) : Bool :=
  lessWith (fun u v => decide (horizontal atan2 u < horizontal atan2 v)) obs c1 c2

/-- What `std::sort` asks of its comparison, for the elements it is given: no two precede each
other, and preceding and being equivalent are transitive. -/
def WeakOrder (lt : Coord → Coord → Bool) (vs : List Coord) : Prop :=
  (vs.Pairwise fun a b => ¬ (lt a b = true ∧ lt b a = true)) ∧
  ∀ a ∈ vs, ∀ b ∈ vs, ∀ c ∈ vs, a ≠ b → b ≠ c → a ≠ c →
    (lt a b = true → lt b c = true → lt a c = true) ∧
    (lt a b = false → lt b a = false → lt b c = false → lt c b = false →
      lt a c = false ∧ lt c a = false)

open Classical in
/-- angle_sorter.cpp:9-37 `sort_counter_clockwise_around_observer`: the outcomes it can have.
`lessC` checks the integer arithmetic of a comparison. -/
def SortsTo (atan2 : ℚ → ℚ → ℚ) (obs : Coord) (vs : List Coord) (r : Res (List Coord)) : Prop :=
  if (∀ a ∈ vs, ∀ b ∈ vs, ∃ x, Vistree.lessC obs a b = .ok x) ∧ WeakOrder (lessAt atan2 obs) vs then
    ∃ l, r = .ok l ∧ l.Perm vs ∧ l.Pairwise fun a b => lessAt atan2 obs b a = false
  else r = .error .ub

end AngleSorter

namespace Vistree

/-- vistree_generator.cpp:47-105: the outcomes a scan can have with the angles the code
computes. -/
def ScanAt (atan2 : ℚ → ℚ → ℚ) (look : Seg → Seg → Bool) (m : VisMap) (obs : Coord)
    (verts : List Coord) (segs : List Seg) (half : Bool) (r : Res (List (Coord × Bool))) : Prop :=
  if m.isEmpty then r = .ok []
  else ∃ sorted, AngleSorter.SortsTo atan2 obs verts sorted ∧ r = (do
    let vs ← sorted
    let _ ← (initialScanline obs).tangentC
    let o ← segs.foldlM (openInitialC look obs) .empty
    loopC look m obs half vs o)

end Vistree

/-- What the half scans of the generation can return with the angles the code computes. -/
def Visgraph.IsScannerAt (atan2 : ℚ → ℚ → ℚ) (T : ℕ → Polygon.SumTree) (ps : List (List Coord))
    (scanner : Coord → Res (List (Coord × Bool))) : Prop :=
  ∀ obs, ∃ m segs look, m.Perm (Vistree.ofPolygons (polygonsPeriodic T ps)) ∧
    segs.Perm (Vistree.segments m) ∧ LookOk look ∧
    Vistree.ScanAt atan2 look m obs (Vistree.vertices m) segs true (scanner obs)

/-- What the full scans of a query can return with the angles the code computes. -/
def ShortestPath.IsReachAt (atan2 : ℚ → ℚ → ℚ) (ps : List (List Coord))
    (reach : Coord → Res (List (Coord × Bool))) : Prop :=
  ∀ obs, ∃ m segs look, m.Perm (Vistree.ofPolygons ps) ∧
    segs.Perm (Vistree.segments m) ∧ LookOk look ∧
    Vistree.ScanAt atan2 look m obs (Vistree.vertices m) segs false (reach obs)

end Capi
