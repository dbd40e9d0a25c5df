import Verif.Conformance.Support

/-!
# The unit tests of coordinates, segments, polygons, corners and the angle sorter

Left out: the double versions of the products (test_coordinate.cpp:49-76), which the program
only uses in `is_reflex`; `angle_to_horizontal` and `spherical_distance` (test_coordinate.cpp:129-140,
151-156), whose values come from the mathematical library; `project` (test_line_segment.cpp:82-99),
which goes through S2.
-/

namespace Capi.Conformance

/-- test_coordinate.cpp:11-15 "Coordinate Constructor" -/
example : (deg 1 2).lonDeg = 1 ∧ (deg 1 2).latDeg = 2 := by decide +kernel

/-- test_coordinate.cpp:17-27 "Coordinate Equals" -/
example : deg 1 2 = deg 1 2 ∧ deg 1 2 ≠ deg 2 1 := by decide +kernel

/-- test_coordinate.cpp:29-34 "Coordinate +" -/
example : (deg 1 2).addC (deg 3 4) = .ok (deg 4 6) := by decide +kernel

/-- test_coordinate.cpp:36-40 "Coordinate unary -" -/
example : (deg 1 2).negC = .ok (deg (-1) (-2)) := by decide +kernel

/-- test_coordinate.cpp:42-47 "Coordinate binary -" -/
example : (deg 1 2).subC (deg 3 4) = .ok (deg (-2) (-2)) := by decide +kernel

/-- test_coordinate.cpp:78-82 "Coordinate Magnitude squared" -/
example : (deg 1 2).magSqDeg = 5 := by decide +kernel

/-- test_coordinate.cpp:84-88 "Coordinate Multiply by scalar" -/
example : (deg 1 2).scaleC 2 = .ok (deg 2 4) := by decide +kernel

/-- test_coordinate.cpp:90-99 "Coordinate parallel" -/
example : (deg 1 2).parallel (deg 2 4) ∧ (deg 1 2).parallel (deg (-1) (-2)) ∧
    ¬ (deg 1 2).parallel (deg (-1) 2) := by decide +kernel

/-- test_coordinate.cpp:101-110 "Coordinate vector orientation" -/
example : (deg 1 1).orientC (deg 1 2) = .ok .counterClockwise ∧
    (deg 1 1).orientC (deg 2 1) = .ok .clockwise ∧
    (deg 1 1).orientC (deg 2 2) = .ok .collinear := by decide +kernel

/-- test_coordinate.cpp:112-127 "Coordinate scalar multiple factor" -/
example : (deg 1 2).scalarMultiple (deg 2 4) = some 2 ∧
    (deg 2 4).scalarMultiple (deg 1 2) = some 0.5 ∧
    (deg 1 2).scalarMultiple (deg (-1) (-2)) = some (-1) ∧
    (deg 1 2).scalarMultiple (deg 0 0) = some 0 ∧
    (deg 0 0).scalarMultiple (deg 1 2) = some 0 ∧
    (deg 1 2).scalarMultiple (deg (-1) 2) = none ∧
    (deg 1 2).scalarMultiple (deg 1 (-2)) = none := by decide +kernel

/-- test_coordinate.cpp:142-149 "Coordinate hash" -/
example : (deg 1 2).hash = (deg 1 2).hash ∧ (deg 1 2).hash ≠ (deg 1.01 2.01).hash := by
  decide +kernel

/-- test_line_segment.cpp:19-44 "Line Segment Intersection with segment" -/
example :
    let s : Seg := ⟨deg 1 2, deg 2 1⟩
    s.intersectC ⟨deg 1 1, deg 2 2⟩ = .ok (some (deg 1.5 1.5)) ∧
    s.intersectC ⟨deg 1 1, deg 1.1 1.1⟩ = .ok none ∧
    s.intersectC ⟨deg 1 1, deg 1 2⟩ = .ok (some (deg 1 2)) ∧
    s.intersectC ⟨deg 1 1, deg 2 1⟩ = .ok (some (deg 2 1)) ∧
    s.intersectC ⟨deg 1 1, deg 0 0⟩ = .ok none ∧
    s.intersectC ⟨deg 1 1, deg 0 2⟩ = .ok none ∧
    s.intersectC ⟨deg 1.5 1.5, deg 2.5 0.5⟩ = .ok none ∧
    s.intersectC ⟨deg 1.5 1.5, deg 0.5 2.5⟩ = .ok none ∧
    s.intersectC ⟨deg 3 0, deg 2 1⟩ = .ok (some (deg 2 1)) ∧
    s.intersectC ⟨deg 0 3, deg 1 2⟩ = .ok (some (deg 1 2)) := by decide +kernel

/-- test_line_segment.cpp:46-57 "Line Segment Equals operator" -/
example :
    let s1 : Seg := ⟨deg 1 2, deg 2 1⟩
    let s2 : Seg := ⟨deg 2 1, deg 1 2⟩
    let s3 : Seg := ⟨deg 1 1, deg 2 1⟩
    s1.sameAs s1 ∧ s2.sameAs s1 ∧ ¬ s1.sameAs s3 := by decide +kernel

/-- test_line_segment.cpp:59-68 "Line Segment Orientation of point to segment" -/
example :
    let s : Seg := ⟨deg 1 0, deg 0 1⟩
    s.orientPtC (deg 0.3 0.2) = .ok .counterClockwise ∧
    s.orientPtC (deg 0.5 0.5) = .ok .collinear ∧
    s.orientPtC (deg 0.7 0.8) = .ok .clockwise := by decide +kernel

/-- test_line_segment.cpp:70-80 "Line Segment On Segment" -/
example :
    let s : Seg := ⟨deg 1 0, deg 0 1⟩
    s.onSegmentC (deg 1 0) = .ok true ∧ s.onSegmentC (deg 0 1) = .ok true ∧
    s.onSegmentC (deg 0.5 0.5) = .ok true ∧ s.onSegmentC (deg 2 (-1)) = .ok false ∧
    s.onSegmentC (deg (-1) 2) = .ok false ∧ s.onSegmentC (deg 0 0) = .ok false ∧
    s.onSegmentC (deg 1 1) = .ok false := by decide +kernel

/-- test_polygon.cpp:11-17 "Polygon Constructor Counter Clockwise" -/
example : poly [deg 1 2, deg 2 1, deg 3 3] = [deg 1 2, deg 2 1, deg 3 3] := by decide +kernel

/-- test_polygon.cpp:19-25 "Polygon Constructor Clockwise" -/
example : poly [deg 3 3, deg 2 1, deg 1 2] = [deg 1 2, deg 2 1, deg 3 3] := by decide +kernel

/-- test_polygon.cpp:27-32 "Polygon Constructor Collinear : Line" -/
example : poly [deg 0 0, deg 1 1] = [deg 0 0, deg 1 1] := by decide +kernel

/-- test_polygon.cpp:34-39 "Polygon Constructor Collinear : Line 2" -/
example : poly [deg 0 0, deg 0.5 0.5, deg 1 1] = [deg 0 0, deg 1 1] := by decide +kernel

/-- test_polygon.cpp:41-47 "Polygon Constructor Collinear : Triangle" -/
example : poly [deg 0 0, deg 1 0, deg 0 1, deg (-1) 0] = [deg 1 0, deg 0 1, deg (-1) 0] := by
  decide +kernel

/-- test_polygon.cpp:49-78 "Polygon Equals", "Polygon hash" -/
example :
    let p := poly [deg 1 2, deg 2 1, deg 3 3]
    let q := poly [deg 1 2, deg 2 2, deg 1 1]
    p ≠ q ∧ Polygon.hash p ≠ Polygon.hash q := by decide +kernel

/-- test_three_vertex_polyline.cpp:11-23 "Polyline point visible is visible", "Polyline point visible is not visible" -/
example :
    Vistree.cornerC ⟨1, 0⟩ ⟨2, 0⟩ ⟨3, 1⟩ ⟨3, -1⟩ = .ok true ∧
    Vistree.cornerC ⟨1, 0⟩ ⟨2, 0⟩ ⟨3, 1⟩ ⟨3, 0⟩ = .ok true ∧
    Vistree.cornerC ⟨1, 0⟩ ⟨2, 0⟩ ⟨3, -1⟩ ⟨3, 1⟩ = .ok false ∧
    Vistree.cornerC ⟨1, 0⟩ ⟨2, 0⟩ ⟨3, -1⟩ ⟨3, 0⟩ = .ok false := by decide +kernel

/-- test_three_vertex_polyline.cpp:25-36 "Polyline point visible is visible 2", "Polyline reflex" -/
example :
    Vistree.cornerC (deg 0.3 (-0.5)) (deg 1 0) (deg 0 1) (deg 2 (-2)) = .ok true ∧
    Vistree.cornerC (deg (-1) 0) (deg 0 1) (deg 1 0) (deg 0 0) = .ok true ∧
    Vistree.cornerC (deg (-1) 0) (deg 0 1) (deg 1 0) (deg 0 2) = .ok false := by decide +kernel

/-- test_three_vertex_polyline.cpp:38-47 "Polyline reflex 2" -/
example :
    let see := Vistree.cornerC (deg (-1) (-1)) (deg 0 0) (deg 1 (-1))
    see (deg 0 (-1)) = .ok true ∧ see (deg (-1) (-1)) = .ok true ∧ see (deg 1 (-1)) = .ok true ∧
    see (deg (-1.5) 1) = .ok false ∧ see (deg 1.5 1) = .ok false ∧ see (deg 0 1) = .ok false := by
  decide +kernel

/-- test_three_vertex_polyline.cpp:49-57 "Polyline concave 1" -/
example :
    let see := Vistree.cornerC (deg 2.9 (-3)) (deg 3 (-3)) (deg 4 (-2))
    see (deg 2.9 (-3)) = .ok true ∧ see (deg 4 (-2)) = .ok true ∧ see (deg 0 (-1)) = .ok false ∧
    see (deg 1 0) = .ok false ∧ see (deg 0.3 (-0.5)) = .ok false := by decide +kernel

/-- test_three_vertex_polyline.cpp:59-68 "Polyline broken case 1" -/
example :
    let see := Vistree.cornerC (deg (-0.514999) 44.9903) (deg (-0.514999) 44.809999)
      (deg (-0.56505) 44.85002)
    see (deg (-0.514999) 38.201167) = .ok false ∧ see (deg (-0.544) 44.892) = .ok true := by
  decide +kernel

/-- test_three_vertex_polyline.cpp:70-78 "Polyline broken case 2" -/
example : Vistree.cornerC (deg 0.3 (-0.5)) (deg 1 0) (deg 0 1) (deg 0 (-1)) = .ok true := by
  decide +kernel

/-- test_three_vertex_polyline.cpp:80-92 "Polyline parallel case non-reflex 1" -/
example :
    let see := Vistree.cornerC (deg (-1) 0) (deg 0 0) (deg 0 1)
    see (deg 0 1) = .ok true ∧ see (deg 0 0.5) = .ok true ∧ see (deg 0 (-2)) = .ok true ∧
    see (deg 0 2) = .ok false ∧ see (deg (-1) 1) = .ok false := by decide +kernel

/-- test_three_vertex_polyline.cpp:94-104 "Polyline parallel case non-reflex 2" -/
example :
    let see := Vistree.cornerC (deg (-1) 0) (deg 1 0) (deg 0 1)
    see (deg (-1) 0) = .ok true ∧ see (deg 3 0) = .ok true ∧ see (deg 5 0) = .ok true := by
  decide +kernel

/-- test_three_vertex_polyline.cpp:106-118 "Polyline parallel case reflex" -/
example :
    let see := Vistree.cornerC (deg 0 1) (deg 0 0) (deg (-1) 0)
    see (deg 0 1) = .ok true ∧ see (deg 0 0.5) = .ok true ∧ see (deg 0 (-2)) = .ok false ∧
    see (deg 0 2) = .ok false ∧ see (deg (-1) 1) = .ok true := by decide +kernel

/-- test_three_vertex_polyline.cpp:120-128 "Polyline visible broken case" -/
example : Vistree.cornerC (deg (-70.410444) (-23.651722)) (deg (-70.410056) (-23.652110999999998))
    (deg (-70.408389) (-23.652082999999998)) (deg (-70.236059) (-23.437144)) = .ok false := by
  decide +kernel

/-- test_angle_sorter.cpp:11-31 "Test sort counter clockwise around root vertex" -/
example : Vistree.sortC (deg 1 1)
    [deg 1 2, deg 4 0, deg 2 0, deg 3 3, deg 2 2, deg 0 1, deg 1 0, deg 1 1] =
    .ok [deg 1 1, deg 2 2, deg 3 3, deg 1 2, deg 0 1, deg 1 0, deg 2 0, deg 4 0] := by
  decide +kernel

/-- test_angle_sorter.cpp:33-44 "Test sort counter clockwise around root vertex collinear" -/
example : Vistree.sortC (deg 1 1) [deg 1 1, deg 2 1, deg (-2) 1, deg (-3) 1, deg 3 1] =
    .ok [deg 1 1, deg 2 1, deg 3 1, deg (-2) 1, deg (-3) 1] := by
  decide +kernel

end Capi.Conformance
