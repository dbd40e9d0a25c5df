import Verif.Spec.Islet

/-!
# Courses and coasts, on the map and on the sphere
-/

namespace Capi

namespace Sphere

/-- `p` is in the direction of a point of the arc from `a` to `b`. -/
def OnArc (a b p : Point) : Prop := ∃ s t : ℚ, 0 ≤ s ∧ 0 ≤ t ∧ p = s • a + t • b

/-- The arcs from `a` to `b` and from `c` to `d` have a point in common. -/
def Touch (a b c d : Point) : Prop := ∃ p, p ≠ 0 ∧ OnArc a b p ∧ OnArc c d p

/-- The condition by which `S2::CrossingSign` describes a crossing inside both arcs: the triangles ACB,
CBD, BDA and DAC all have the same orientation. -/
def SameTurn (a b c d : Point) : Prop :=
  (0 < det a c b ∧ 0 < det c b d ∧ 0 < det b d a ∧ 0 < det d a c) ∨
  (det a c b < 0 ∧ det c b d < 0 ∧ det b d a < 0 ∧ det d a c < 0)

/-- What is asked of `GetCrossingEdges` over the loops of the polygons, with `CrossingType::ALL`: an edge
is reported only if some edge has a point in common with the arc, and if some edge crosses it inside
both. -/
structure CrossRules (L : Libm) (ps : List (List Coord)) (S : Queries) : Prop where
  only : ∀ a b : Coord, a.Geo → b.Geo → S.crossing (toPoint L a) (toPoint L b) ≠ [] →
    ∃ vs ∈ ps, ∃ e ∈ loopEdges (loop L vs), Touch (toPoint L a) (toPoint L b) e.1 e.2
  all : ∀ a b : Coord, a.Geo → b.Geo → ∀ vs ∈ ps, ∀ e ∈ loopEdges (loop L vs),
    SameTurn (toPoint L a) (toPoint L b) e.1 e.2 → S.crossing (toPoint L a) (toPoint L b) ≠ []

end Sphere

/-- Not near the poles or the meridian of 180 degrees. -/
def Temperate (c : Coord) : Prop := |c.lon| ≤ 170000000 ∧ |c.lat| ≤ 60000000

/-- `c` and `d` are on the same side of the line from `a` to `b` on the map, by the margin. -/
def OneSide (W : ℤ) (a b c d : Coord) : Prop :=
  (Beyond W (area2 a b c) ∧ Beyond W (area2 a b d)) ∨
  (Beyond W (-area2 a b c) ∧ Beyond W (-area2 a b d))

/-- The segments, of extent at most `W`, are apart on the map: far from each other, or one of them on one
side of the other. -/
def Asunder (W : ℤ) (a b c d : Coord) : Prop :=
  (∀ x ∈ [a, b], ∀ y ∈ [c, d], ¬ Nearby (3 * W) x y) ∨ OneSide (5 * W) a b c d ∨
    OneSide (5 * W) c d a b

/-- The segments cross on the map, by the margin. -/
def Athwart (W : ℤ) (a b c d : Coord) : Prop :=
  (∀ x ∈ [a, c], ∀ y ∈ [a, b, c, d], Nearby W x y) ∧
  ((Beyond W (area2 a b d) ∧ Beyond W (-area2 a b c) ∧ Beyond W (area2 c d a) ∧
      Beyond W (-area2 c d b)) ∨
    (Beyond W (-area2 a b d) ∧ Beyond W (area2 a b c) ∧ Beyond W (-area2 c d a) ∧
      Beyond W (area2 c d b)))

end Capi
