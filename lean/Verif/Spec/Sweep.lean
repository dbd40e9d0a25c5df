import Verif.Spec.Angle
import Verif.Spec.Sight

/-!
# Specification vocabulary for the rotating sweep

An edge `s` seen from `obs` extends counter-clockwise from `startOf obs s` to `endOf obs s`.  The
sweep starts looking east and turns counter-clockwise.
-/

namespace Capi

/-- Squared distance. -/
def dist2 (obs c : Coord) : ℤ := (c.lon - obs.lon) ^ 2 + (c.lat - obs.lat) ^ 2

/-- The observer is not on the line through `s`. -/
def Beside (obs : Coord) (s : Seg) : Prop := area2 obs s.p s.q ≠ 0

/-- The end of `s` the sweep meets first, or the right one seen from `obs`. -/
def startOf (obs : Coord) (s : Seg) : Coord := if 0 < area2 obs s.p s.q then s.p else s.q

/-- The left end of `s` seen from `obs`. -/
def endOf (obs : Coord) (s : Seg) : Coord := if 0 < area2 obs s.p s.q then s.q else s.p

/-- `s` passes from south to north of the observer, east of it. -/
def AcrossEast (obs : Coord) (s : Seg) : Prop :=
  (startOf obs s).lat < obs.lat ∧ obs.lat < (endOf obs s).lat

/-- `d` is the squared distance at which `s` is met due east, the longitude rounded to a
microdegree. -/
def EastDist (obs : Coord) (s : Seg) (d : ℤ) : Prop :=
  ∃ (x : ℤ) (X : ℚ), OnSeg s X obs.lat ∧ |(x : ℚ) - X| ≤ 1 / 2 + 1 / 1000000 ∧
    d = (x - obs.lon) ^ 2

/-- When the sweep has arrived at `v`, it has met `s` at squared distance `d` and not yet left
it. -/
def Filed (obs v : Coord) (s : Seg) (d : ℤ) : Prop :=
  Beside obs s ∧
    ((AcrossEast obs s ∧ SweepBefore obs v (endOf obs s) ∧ EastDist obs s d) ∨
      (SweepBefore obs (startOf obs s) v ∧
        (SweepBefore obs (endOf obs s) (startOf obs s) ∨ SweepBefore obs v (endOf obs s)) ∧
        d = dist2 obs (startOf obs s)))

/-- No other edge open when `e` is met was met at the same distance, and no other edge begins where
`e` does except one leaving the vertex where `e` arrives. -/
structure Distinct (ps : List (List Coord)) (obs : Coord) (e : Seg) : Prop where
  east : ∀ s d, EdgeOf ps s → s ≠ e → AcrossEast obs s → AcrossEast obs e → EastDist obs e d →
    ¬ EastDist obs s d
  filed : ∀ s, EdgeOf ps s → s ≠ e → ¬ Filed obs (startOf obs e) s (dist2 obs (startOf obs e))
  start : ∀ s, EdgeOf ps s → s ≠ e → Beside obs s → startOf obs s = startOf obs e →
    e.q = startOf obs e

end Capi
