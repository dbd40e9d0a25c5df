import Verif.Spec.Around

/-!
# Specification vocabulary for relations between answers
-/

namespace Capi

/-- There is a course over the sea of length `L` from `s` to `d` or to a copy of it. -/
def Sails (ps : List (List Coord)) (s d : Coord) (L : ℝ) : Prop :=
  ∃ (k : ℤ) (course : List ℂ), IsWalk (AtSea (Ashore ps)) s.pt (d.shift k).pt course ∧
    walkLength lineLength course = L

/-- Two different points that are not joined by a straight line over the sea, where nothing is seen
better across the meridian than directly. -/
structure Detour (ps : List (List Coord)) (s d : Coord) : Prop where
  ne : s ≠ d
  blocked : ¬ AtSea (Ashore ps) s.pt d.pt
  direct : DirectBest ps s d

end Capi
