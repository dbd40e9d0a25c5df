import Verif.Spec.Coast
import Verif.Spec.Route
import Verif.Spec.Shift

/-!
# Specification vocabulary for maps on the periodic plane
-/

namespace Capi

open ShortestPath

/-- The points a polygon or one of its copies goes round, wherever round the globe. -/
def Ashore (ps : List (List Coord)) : Set ℂ := ⋃ p ∈ ps, ⋃ j : ℤ, Interior (p.map (Coord.shift j))

/-- The straight line from `u` to `v`, or to a copy of `v` if the leg crosses the meridian, keeps off
`land`. -/
def LegOver (land : Set ℂ) (E : Env) (u v : Coord) : Prop :=
  (¬ CrossesMeridian E u v ∧ AtSea land u.pt v.pt) ∨
    (CrossesMeridian E u v ∧ ∃ k, (k = 1 ∨ k = -1) ∧ AtSea land u.pt (v.shift k).pt)

end Capi
