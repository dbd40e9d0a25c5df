import Verif.Spec.Legible

/-!
# Specification vocabulary for what the sweep takes to be nearest

Only integer arithmetic and the observer's horizon: no angles and no order of the vertices.
-/

namespace Capi

/-- The direction of `v` is strictly between those of the ends of `s`. -/
def Facing (obs v : Coord) (s : Seg) : Prop :=
  Beside obs s ∧ area2 obs v (startOf obs s) < 0 ∧ 0 < area2 obs v (endOf obs s)

/-- Looking north or level, `s` was already in sight at the start, due east. -/
def FromEast (obs v : Coord) (s : Seg) : Prop := obs.lat ≤ v.lat ∧ AcrossEast obs s

/-- The squared distance at which `s` was met. -/
def MetAt (obs v : Coord) (s : Seg) (d : ℤ) : Prop :=
  (FromEast obs v s → EastDist obs s d) ∧ (¬ FromEast obs v s → d = dist2 obs (startOf obs s))

/-- `s` is the only edge that begins at its right end, or arrives there. -/
def Kept (ps : List (List Coord)) (obs : Coord) (s : Seg) : Prop :=
  ∀ t, EdgeOf ps t → t ≠ s → Beside obs t → startOf obs t = startOf obs s → s.q = startOf obs s

/-- The sweep knows of `s` when looking at `v`. -/
def Listed (ps : List (List Coord)) (obs v : Coord) (s : Seg) : Prop :=
  EdgeOf ps s ∧ Facing obs v s ∧ (FromEast obs v s ∨ Kept ps obs s)

/-- Among the edges the sweep knows of when looking at `v`, `e` was met nearest. -/
def Nearest (ps : List (List Coord)) (obs v : Coord) (e : Seg) : Prop :=
  Listed ps obs v e ∧
    ∀ s, Listed ps obs v s → s ≠ e → ∀ k K, MetAt obs v s k → MetAt obs v e K → K < k

/-- No two edges known together were met at the same distance, even with other rounding. -/
structure Ranked (ps : List (List Coord)) (obs : Coord) : Prop where
  apart : ∀ v ∈ ps.flatten, v ≠ obs → ∀ s t, Listed ps obs v s → Listed ps obs v t → s ≠ t →
    (∀ k K, MetAt obs v s k → MetAt obs v t K → k < K) ∨
      ∀ k K, MetAt obs v s k → MetAt obs v t K → K < k
  fresh : ∀ e s, EdgeOf ps e → Beside obs e → Kept ps obs e → Listed ps obs (startOf obs e) s → s ≠ e →
    ¬ MetAt obs (startOf obs e) s (dist2 obs (startOf obs e))
  east : ∀ s t d, EdgeOf ps s → EdgeOf ps t → s ≠ t → AcrossEast obs s → AcrossEast obs t →
    EastDist obs s d → ¬ EastDist obs t d

/-- No edge passes within a microdegree of a vertex that is not its end. -/
def Roomy (ps : List (List Coord)) : Prop :=
  ∀ v ∈ ps.flatten, ∀ s, EdgeOf ps s → v ≠ s.p → v ≠ s.q → ∀ x y : ℚ, OnSeg s x y →
    1 ≤ |x - v.lon| ∨ 1 ≤ |y - v.lat|

end Capi
