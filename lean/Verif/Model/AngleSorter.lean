import Verif.Model.Coordinate

/-!
# `AngleSorter` (code/geom/angle_sorter/angle_sorter.cpp)
-/

namespace Capi

namespace AngleSorter

/-- The half turn an angle in `[0, 2π)` belongs to: `[0, π)` or `[π, 2π)`. -/
def lowerHalf (v : Coord) : Bool := decide (v.lat < 0) || (decide (v.lat = 0) && decide (v.lon < 0))

/-- angle_sorter.cpp:27-30 with coordinate.cpp:144-153: comparison of
`angle_to_horizontal()`.  Simplification: the code compares doubles computed by `std::atan2`;
the model compares the exact angles, by half turn and cross product.
`C11_comparison` relates this to real angles, `C11_atan2_partial` says for which vectors any
accurate `atan2` gives the same comparison and `C11_tie_false` that no `atan2` does for all. -/
def angleLt (u v : Coord) : Bool :=
  if lowerHalf u = lowerHalf v then decide (0 < u.cross v)
  else !lowerHalf u && lowerHalf v

/-- angle_sorter.cpp:15-34: the comparison lambda, with the angle comparison as a parameter. -/
def lessWith (lt : Coord → Coord → Bool) (obs c1 c2 : Coord) : Bool :=
  if c1 = obs then true
  else if c2 = obs then false
  else
    let v1 := c1.sub obs
    let v2 := c2.sub obs
    if v1.orient v2 ≠ .collinear ∨ v1.dot v2 < 0 then lt v1 v2
    else decide (v1.magSqDeg < v2.magSqDeg)

/-- angle_sorter.cpp:15-34: the comparison lambda. -/
def less (obs c1 c2 : Coord) : Bool := lessWith angleLt obs c1 c2

/-- Insertion into a list sorted by `less`. -/
def insertBy (obs c : Coord) : List Coord → List Coord
  | [] => [c]
  | d :: r => if less obs c d then c :: d :: r else d :: insertBy obs c r

/-- angle_sorter.cpp:9-37 `sort_counter_clockwise_around_observer`.  `std::sort` is modelled
by insertion sort; `C11_unique` shows that every sorted permutation is the same list. -/
def sort (obs : Coord) : List Coord → List Coord
  | [] => []
  | c :: r => insertBy obs c (sort obs r)

end AngleSorter

end Capi
