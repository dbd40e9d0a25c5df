import Verif.Spec.Convex
import Verif.Spec.SeaRoute
import Verif.Spec.Shift

/-!
# Specification vocabulary for maps of convex islands
-/

namespace Capi

/-- `c` is strictly on the outer side of some edge of `p`. -/
def Outside (p : List Coord) (c : Coord) : Prop :=
  ∃ i < p.length, area2 (ringAt p i) (ringAt p (i + 1)) c < 0

instance (p : List Coord) (c : Coord) : Decidable (Outside p c) := by
  unfold Outside; infer_instance

/-- Strictly convex polygons without common vertices, no vertex of one inside or on another. -/
structure Islands (ps : List (List Coord)) : Prop where
  convex : ∀ p ∈ ps, Convex p
  size : ∀ p ∈ ps, 3 ≤ p.length
  nodup : ps.flatten.Nodup
  apart : ∀ p ∈ ps, ∀ v ∈ ps.flatten, v ∉ p → Outside p v

/-- Some line through `obs` has `A` on its left and `B` on its right. -/
def SideBySide (obs : Coord) (A B : List Coord) : Prop :=
  ∃ c : Coord, (∀ w ∈ A, 0 < area2 obs c w) ∧ ∀ w ∈ B, area2 obs c w < 0

/-- `A` is nearer to `obs` than `B`, by two microdegrees or more. -/
def WhollyNearer (obs : Coord) (A B : List Coord) : Prop :=
  ∃ R : ℚ, 0 ≤ R ∧ NoFarther obs R A ∧ NoNearer obs (R + 2) B

/-- Seen from `obs`, which is a vertex or off the land: any two islands other than its own are in
different directions or one of them is wholly nearer; no vertex is exactly behind another; no two
edges are met at the same distance, unless in opposite directions; and no edge passes within a
microdegree of a vertex it hides. -/
structure Orderly (ps : List (List Coord)) (obs : Coord) : Prop where
  off : ∀ p ∈ ps, obs ∉ p → Outside p obs
  order : ∀ A ∈ ps, ∀ B ∈ ps, A ≠ B → obs ∉ A → obs ∉ B →
    SideBySide obs A B ∨ SideBySide obs B A ∨ WhollyNearer obs A B ∨ WhollyNearer obs B A
  line : ∀ v ∈ ps.flatten, ∀ w ∈ ps.flatten, v ≠ w → ¬ InLine obs v w
  vertices : ∀ a ∈ ps.flatten, ∀ b ∈ ps.flatten, dist2 obs a = dist2 obs b →
    a = b ∨ area2 obs a b = 0
  east : ∀ s t d, EdgeOf ps s → EdgeOf ps t → s ≠ t → AcrossEast obs s → AcrossEast obs t →
    EastDist obs s d → ¬ EastDist obs t d
  mixed : ∀ s, EdgeOf ps s → AcrossEast obs s → ∀ w ∈ ps.flatten, ¬ EastDist obs s (dist2 obs w)
  far : ∀ v ∈ ps.flatten, ∀ e, EdgeOf ps e → Crosses obs v e → ∀ x y : ℚ, OnSeg e x y →
    OnSeg ⟨obs, v⟩ x y → 1 ≤ |x - v.lon| ∨ 1 ≤ |y - v.lat|

/-- The points inside an island or one of its copies, wherever round the globe. -/
def Land (ps : List (List Coord)) : Set ℂ := ⋃ p ∈ ps, ⋃ j : ℤ, Inland (p.map (Coord.shift j))

end Capi
