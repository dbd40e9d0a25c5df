import Verif.Spec.Geometry

/-!
# Specification vocabulary for polygon corners
-/

namespace Capi

/-- `c` lies strictly inside the (convex) cone with apex `v` spanned by `a` and `b`. -/
def OpenCone (a v b c : Coord) : Prop :=
  ∃ x y : ℚ, 0 < x ∧ 0 < y ∧
    (c.lon : ℚ) - v.lon = x * (a.lon - v.lon) + y * (b.lon - v.lon) ∧
    (c.lat : ℚ) - v.lat = x * (a.lat - v.lat) + y * (b.lat - v.lat)

/-- `c` lies in the closed convex cone with apex `v` spanned by `a` and `b`. -/
def ClosedCone (a v b c : Coord) : Prop :=
  ∃ x y : ℚ, 0 ≤ x ∧ 0 ≤ y ∧
    (c.lon : ℚ) - v.lon = x * (a.lon - v.lon) + y * (b.lon - v.lon) ∧
    (c.lat : ℚ) - v.lat = x * (a.lat - v.lat) + y * (b.lat - v.lat)

/-- `c` is strictly inside the interior angle at `v2` of a counter-clockwise polygon with
consecutive vertices `v1 v2 v3` (the interior is to the left). -/
def InsideCorner (v1 v2 v3 c : Coord) : Prop :=
  (0 < area2 v1 v2 v3 ∧ OpenCone v1 v2 v3 c) ∨ (area2 v1 v2 v3 < 0 ∧ ¬ ClosedCone v1 v2 v3 c)

/-- `c` is strictly outside that interior angle. -/
def OutsideCorner (v1 v2 v3 c : Coord) : Prop :=
  (0 < area2 v1 v2 v3 ∧ ¬ ClosedCone v1 v2 v3 c) ∨ (area2 v1 v2 v3 < 0 ∧ OpenCone v1 v2 v3 c)

/-- `c` is on the ray from `v` through `a`, at `k` times the distance of `a`. -/
def OnRay (v a c : Coord) (k : ℚ) : Prop :=
  (c.lon : ℚ) - v.lon = k * (a.lon - v.lon) ∧ (c.lat : ℚ) - v.lat = k * (a.lat - v.lat)

end Capi
