import Verif.Spec.Cone
import Verif.Spec.Sweep

/-!
# Specification vocabulary for positions from which a map can be read

The sweep looks only at the edge it met nearest among those it has not left.  A position is legible
if this does not lead it astray.
-/

namespace Capi

/-- `s` crosses the line of sight to `v`, not within a microdegree of `v`. -/
def CrossesBefore (obs v : Coord) (s : Seg) : Prop :=
  Crosses obs v s ∧ ∀ x y : ℚ, OnSeg s x y → OnSeg ⟨obs, v⟩ x y → 1 ≤ |x - v.lon| ∨ 1 ≤ |y - v.lat|

/-- Some edge met at a distance of its own crosses the line of sight to `v`, and so do all edges met
nearer and not yet left. -/
def Covered (ps : List (List Coord)) (obs v : Coord) : Prop :=
  ∃ e, EdgeOf ps e ∧ Crosses obs v e ∧ Distinct ps obs e ∧
    ∀ s k K, EdgeOf ps s → Filed obs v s k → Filed obs v e K → s = e ∨ k < K →
      CrossesBefore obs v s

/-- `v` is among what the sweep looks at: all, or with `half` what is not south of the observer. -/
def Swept (half : Bool) (obs v : Coord) : Prop := half = true → obs.lat ≤ v.lat

/-- `v` is in the direction of the interior of the corner the observer is at. -/
def Inward (ps : List (List Coord)) (obs v : Coord) : Prop :=
  ∃ a b, CornerOf ps a obs b ∧ InsideCorner a obs b v

/-- The observer is inside no edge, and of what the sweep looks at every vertex that is not inside
the corner the observer is at has no vertex exactly in front of it unless it is behind an edge also,
and is covered if it is behind an edge. -/
structure Legible (half : Bool) (ps : List (List Coord)) (obs : Coord) : Prop where
  off : ∀ s, EdgeOf ps s → obs ≠ s.p → obs ≠ s.q → ¬ OnSeg s obs.lon obs.lat
  line : ∀ v ∈ ps.flatten, Swept half obs v → ∀ w ∈ ps.flatten, w ≠ v → InLine obs v w →
    dist2 obs w < dist2 obs v → Inward ps obs v ∨ ∃ s, EdgeOf ps s ∧ Crosses obs v s
  hides : ∀ v ∈ ps.flatten, Swept half obs v → ∀ s, EdgeOf ps s → Crosses obs v s →
    Inward ps obs v ∨ Covered ps obs v

end Capi
