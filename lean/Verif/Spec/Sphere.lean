import Verif.Spec.Sight
import Mathlib.Analysis.SpecialFunctions.Trigonometric.Basic

/-!
# Specification vocabulary for the sphere

The spatial index works with points of the unit sphere and with arcs of great circles, the rest of
the code with the plane of longitude and latitude.  Here the sphere is exact.
-/

namespace Capi

/-- Microdegrees in radians. -/
noncomputable def rad (x : ℤ) : ℝ := x / 1000000 * (Real.pi / 180)

/-- The point of the unit sphere with the given longitude and latitude. -/
noncomputable def onSphere (c : Coord) : ℝ × ℝ × ℝ :=
  (Real.cos (rad c.lat) * Real.cos (rad c.lon), Real.cos (rad c.lat) * Real.sin (rad c.lon),
    Real.sin (rad c.lat))

/-- The arcs of great circles from `a` to `b` and from `c` to `d` have a point in common.  The
points of an arc are the directions of the nonnegative combinations of its ends. -/
def ArcsMeet (a b c d : Coord) : Prop :=
  ∃ s t u v : ℝ, 0 ≤ s ∧ 0 ≤ t ∧ 0 ≤ u ∧ 0 ≤ v ∧ 0 < s + t ∧
    s • onSphere a + t • onSphere b = u • onSphere c + v • onSphere d

/-- The arcs cross at a point inside both of them, and the ends of the second lie strictly on
different sides of a plane through the first. -/
def ArcsCross (a b c d : Coord) : Prop :=
  (∃ s t u v : ℝ, 0 < s ∧ 0 < t ∧ 0 < u ∧ 0 < v ∧
    s • onSphere a + t • onSphere b = u • onSphere c + v • onSphere d) ∧
  ∃ x y z : ℝ, x * (onSphere a).1 + y * (onSphere a).2.1 + z * (onSphere a).2.2 = 0 ∧
    x * (onSphere b).1 + y * (onSphere b).2.1 + z * (onSphere b).2.2 = 0 ∧
    x * (onSphere c).1 + y * (onSphere c).2.1 + z * (onSphere c).2.2 < 0 ∧
    0 < x * (onSphere d).1 + y * (onSphere d).2.1 + z * (onSphere d).2.2

/-- An index of the edges of the polygons as arcs: nothing is reported for an arc that meets no
edge, and something is reported for an arc that crosses an edge. -/
def ArcIndex (ps : List (List Coord)) (crossings : Seg → List Seg) : Prop :=
  (∀ l, crossings l ≠ [] → ∃ e, EdgeOf ps e ∧ ArcsMeet l.p l.q e.p e.q) ∧
  ∀ l e, EdgeOf ps e → ArcsCross l.p l.q e.p e.q → crossings l ≠ []

end Capi
