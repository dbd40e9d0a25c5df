import Verif.Spec.SeaRoute
import Verif.Spec.Strait

/-!
# Courses over and round small islands
-/

namespace Capi

/-- Not near the poles or the meridian, and off every island on the map by the margin: more than three
times its size away from a corner, or to the right of a side. -/
def Offing (ps : List (List Coord)) (p : Coord) : Prop :=
  Temperate p ∧ ∀ vs ∈ ps, ∃ W, Stout W vs ∧ ((∃ v ∈ vs, ¬ Nearby (3 * W) v p) ∨
    ∃ e ∈ Polygon.segments vs, Beyond (3 * W) (-area2 e.p e.q p))

/-- Some point of the straight line from `s` to `d` on the map is to the left of all sides, by the
margin. -/
def Through (V : ℤ) (vs : List Coord) (s d : Coord) : Prop :=
  ∃ z ∈ segment ℝ s.pt d.pt, ∀ e ∈ Polygon.segments vs,
    (V : ℝ) ^ 3 ≤ 7000000 * (turn e.p.pt e.q.pt z - 3000)

/-- The straight line on the map comes from outside the island, to the right of a side by the margin, and
goes deep into it.  All is within `V`, and the arc goes exactly through no corner. -/
structure Overland (L : Libm) (V : ℤ) (vs : List Coord) (s d : Coord) : Prop where
  most : V ≤ 10000000
  size : ∀ u ∈ vs, ∀ v ∈ vs, Nearby V u v
  start : ∀ v ∈ vs, Nearby V v s
  finish : ∀ v ∈ vs, Nearby V v d
  out : ∃ e ∈ Polygon.segments vs, Beyond V (-area2 e.p e.q s)
  deep : Through V vs s d
  corner : ∀ v ∈ vs, Sphere.det (Sphere.toPoint L s) (Sphere.toPoint L d) (Sphere.toPoint L v) ≠ 0

/-- The straight line on the map goes deep into an island, or crosses a side by the margin. -/
def Hindered (L : Libm) (ps : List (List Coord)) (s d : Coord) : Prop :=
  (∃ vs ∈ ps, ∃ V, Overland L V vs s d) ∨
    ∃ e, EdgeOf ps e ∧ ∃ W, W ≤ 10000000 ∧ Athwart W s d e.p e.q

/-- Every side is asunder from the straight line on the map. -/
def Unhindered (ps : List (List Coord)) (s d : Coord) : Prop :=
  ∀ e, EdgeOf ps e → ∃ W, 1000 ≤ W ∧ W ≤ 1000000 ∧ Nearby W s d ∧ Nearby W e.p e.q ∧
    Asunder W s d e.p e.q

end Capi
