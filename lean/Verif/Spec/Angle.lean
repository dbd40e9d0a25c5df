import Verif.Model.Coordinate
import Mathlib.Analysis.SpecialFunctions.Complex.Arg

/-!
# Specification vocabulary for angles
-/

namespace Capi

/-- The complex number `lon + i·lat`. -/
noncomputable def Coord.toC (v : Coord) : ℂ := ⟨v.lon, v.lat⟩

/-- Counter-clockwise angle from east, in `[0, 2π)`. -/
noncomputable def ccwAngle (v : Coord) : ℝ :=
  if v.toC.arg < 0 then v.toC.arg + 2 * Real.pi else v.toC.arg

/-- The difference `c - obs` as an exact vector. -/
def offset (obs c : Coord) : Coord := ⟨c.lon - obs.lon, c.lat - obs.lat⟩

/-- Sweep order around `obs`: the observer first, then by counter-clockwise angle from east,
nearer points first on the same ray. -/
def SweepBefore (obs a b : Coord) : Prop :=
  (a = obs ∧ b ≠ obs) ∨
  (a ≠ obs ∧ b ≠ obs ∧
    (ccwAngle (offset obs a) < ccwAngle (offset obs b) ∨
      (ccwAngle (offset obs a) = ccwAngle (offset obs b) ∧
        (a.lon - obs.lon) ^ 2 + (a.lat - obs.lat) ^ 2 <
          (b.lon - obs.lon) ^ 2 + (b.lat - obs.lat) ^ 2)))

end Capi
