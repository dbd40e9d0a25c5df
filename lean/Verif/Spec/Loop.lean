import Verif.Spec.Libm
import Verif.Spec.Sphere

/-!
# What S2 says is inside a loop

The interior of an `S2Loop` is on the left of its edges, which are arcs of great circles.  Only two
kinds of loops are described, for which the documentation leaves no doubt: loops of one vertex, which
stand for the empty loop (vertex in the north) and the full loop (vertex in the south), and triangles.
-/

namespace Capi

namespace Sphere

/-- The triple product; positive when `a`, `b`, `c` go around counter-clockwise seen from outside. -/
def det (a b c : Point) : ℚ :=
  a.1 * (b.2.1 * c.2.2 - b.2.2 * c.2.1) - a.2.1 * (b.1 * c.2.2 - b.2.2 * c.1) +
    a.2.2 * (b.1 * c.2.1 - b.2.1 * c.1)

/-- The point is in the spherical triangle, its sides included. -/
def InTriangle (a b c p : Point) : Prop :=
  ∃ s t u : ℚ, 0 ≤ s ∧ 0 ≤ t ∧ 0 ≤ u ∧ p = s • a + t • b + u • c

/-- What is asked of `inside`, the points inside a loop with given vertices, for the points of
coordinates: a loop of one vertex contains everything or nothing; a triangle drawn
counter-clockwise contains at most its points, one drawn clockwise everything else. -/
structure LoopRules (L : Libm) (inside : List Point → Point → Prop) : Prop where
  one : ∀ v p : Coord, v.Geo → p.Geo →
    (inside [toPoint L v] (toPoint L p) ↔ (toPoint L v).2.2 < 0)
  clockwise : ∀ a b c p : Coord, a.Geo → b.Geo → c.Geo → p.Geo →
    det (toPoint L a) (toPoint L b) (toPoint L c) < 0 →
    ¬ InTriangle (toPoint L a) (toPoint L b) (toPoint L c) (toPoint L p) →
    inside [toPoint L a, toPoint L b, toPoint L c] (toPoint L p)
  counter : ∀ a b c p : Coord, a.Geo → b.Geo → c.Geo → p.Geo →
    0 < det (toPoint L a) (toPoint L b) (toPoint L c) →
    inside [toPoint L a, toPoint L b, toPoint L c] (toPoint L p) →
    InTriangle (toPoint L a) (toPoint L b) (toPoint L c) (toPoint L p)

/-- The index contains the points inside some loop of the polygons. -/
def Queries.ByLoops (L : Libm) (S : Queries) (ps : List (List Coord))
    (inside : List Point → Point → Prop) : Prop :=
  ∀ p : Coord, p.Geo → (S.contains (toPoint L p) = true ↔ ∃ vs ∈ ps, inside (loop L vs) (toPoint L p))

end Sphere

/-- The triple product of the exact points of the unit sphere. -/
noncomputable def sphereDet (a b c : Coord) : ℝ :=
  (onSphere a).1 * ((onSphere b).2.1 * (onSphere c).2.2 - (onSphere b).2.2 * (onSphere c).2.1) -
    (onSphere a).2.1 * ((onSphere b).1 * (onSphere c).2.2 - (onSphere b).2.2 * (onSphere c).1) +
    (onSphere a).2.2 * ((onSphere b).1 * (onSphere c).2.1 - (onSphere b).2.1 * (onSphere c).1)

end Capi
