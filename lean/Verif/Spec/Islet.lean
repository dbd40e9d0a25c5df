import Verif.Spec.Loop

/-!
# Convex islands of moderate size, on the map and on the sphere
-/

namespace Capi

namespace Sphere

/-- The point is a sum of nonnegative multiples of the given ones. -/
def InCone : List Point → Point → Prop
  | [], p => p = 0
  | v :: r, p => ∃ s : ℚ, 0 ≤ s ∧ InCone r (p - s • v)

/-- A convex polygon of the sphere drawn counter-clockwise: from every edge all other corners are
strictly to the left. -/
def ConvexLoop (vs : List Point) : Prop :=
  3 ≤ vs.length ∧ vs.Nodup ∧
    ∀ e ∈ loopEdges vs, ∀ v ∈ vs, v ≠ e.1 → v ≠ e.2 → 0 < det e.1 e.2 v

/-- What is asked of `inside`, the points inside a loop with given vertices: a convex polygon drawn
counter-clockwise contains at most its points, and at least those strictly to the left of all its
edges.  `S2Loop` documents its interior as the left of its edges, and tests sides exactly. -/
structure ConvexRules (L : Libm) (inside : List Point → Point → Prop) : Prop where
  outer : ∀ (vs : List Coord) (p : Coord), (∀ v ∈ vs, v.Geo) → p.Geo → ConvexLoop (loop L vs) →
    inside (loop L vs) (toPoint L p) → InCone (loop L vs) (toPoint L p)
  inner : ∀ (vs : List Coord) (p : Coord), (∀ v ∈ vs, v.Geo) → p.Geo → ConvexLoop (loop L vs) →
    (∀ e ∈ loopEdges (loop L vs), 0 < det e.1 e.2 (toPoint L p)) →
    inside (loop L vs) (toPoint L p)

end Sphere

/-- `c` is within `W` microdegrees of `a` in both directions. -/
def Nearby (W : ℤ) (a c : Coord) : Prop := |c.lon - a.lon| ≤ W ∧ |c.lat - a.lat| ≤ W

/-- The margin for `area2` of coordinates within `W` of each other, in square microdegrees: the cube of
`W` over seven million and 3000. -/
def Beyond (W x : ℤ) : Prop := W ^ 3 ≤ 7000000 * (x - 3000)

/-- An island of at most a degree, convex on the map with a margin, not near the poles or the meridian
of 180 degrees. -/
structure Stout (W : ℤ) (vs : List Coord) : Prop where
  least : 1000 ≤ W
  most : W ≤ 1000000
  three : 3 ≤ vs.length
  nodup : vs.Nodup
  place : ∀ v ∈ vs, |v.lon| ≤ 170000000 ∧ |v.lat| ≤ 60000000
  near : ∀ u ∈ vs, ∀ v ∈ vs, Nearby W u v
  turn : ∀ e ∈ Polygon.segments vs, ∀ v ∈ vs, v ≠ e.p → v ≠ e.q → Beyond W (area2 e.p e.q v)

end Capi
