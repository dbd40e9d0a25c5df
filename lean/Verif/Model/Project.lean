import Verif.Model.Coordinate

/-!
# `LineSegment::project` (code/types/line_segment/line_segment.cpp)

The nearest point on the segment is computed by S2 and handed in.
-/

namespace Capi

/-- `EPSILON_TOLERANCE` (constants.hpp:8). -/
def epsilonTolerance : ℚ := fl (1 / 1000000)

namespace Coord

/-- coordinate.cpp:64 `operator/`: multiplication by the rounded reciprocal. -/
def divC (a : Coord) (s : ℚ) : Res Coord := a.scaleC (fl (1 / s))

end Coord

/-- line_segment.cpp:107-125 `project`: `near` is the answer of `S2Polyline::Project` as a
coordinate, `len` is `magnitude`; `margin` is a `float`, hence exactly a double. -/
def projectLenC (len : Coord → ℚ) (near point : Coord) (margin : ℚ) : Res Coord := do
  let diff ← near.subC point
  let m := len diff
  if epsilonTolerance < m then do
    let unit ← diff.divC m
    let shift ← unit.scaleC margin
    near.addC shift
  else return near

/-- line_segment.cpp:107-125 `project` with coordinate.cpp:98-103, 112 `magnitude`; `sq` is
`std::sqrt`. -/
def projectC (sq : ℚ → ℚ) (near point : Coord) (margin : ℚ) : Res Coord :=
  projectLenC (fun d => sq d.magSqDeg) near point margin

end Capi
