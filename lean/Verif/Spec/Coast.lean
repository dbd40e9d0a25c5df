import Mathlib.Analysis.SpecialFunctions.Complex.Arg
import Verif.Spec.Ring
import Verif.Spec.SeaRoute

/-!
# Specification vocabulary for what a ring goes round
-/

namespace Capi

/-- The point at the part `t` of the way along the `i`-th edge. -/
noncomputable def Along (p : List Coord) (i : ℕ) (t : ℝ) : ℂ :=
  (ringAt p i).pt + t • ((ringAt p (i + 1)).pt - (ringAt p i).pt)

/-- Going once along the ring one comes to no point twice. -/
structure SimpleRing (p : List Coord) : Prop where
  size : 3 ≤ p.length
  apart : ∀ i < p.length, ∀ j < p.length, i ≠ j → ∀ s t : ℝ, 0 ≤ s → s < 1 → 0 ≤ t → t < 1 →
    Along p i s ≠ Along p j t

/-- The points of the edges. -/
def Coast (p : List Coord) : Set ℂ :=
  {z | ∃ i < p.length, z ∈ segment ℝ (ringAt p i).pt (ringAt p (i + 1)).pt}

/-- The angle by which one turns when looking from `x` at someone going once along the ring. -/
noncomputable def turning (p : List Coord) (x : ℂ) : ℝ :=
  ∑ i ∈ Finset.range p.length,
    Complex.arg (((ringAt p (i + 1)).pt - x) / ((ringAt p i).pt - x))

/-- The points round which the ring goes. -/
def Interior (p : List Coord) : Set ℂ := {x | x ∉ Coast p ∧ turning p x ≠ 0}

/-- How often the ring passes below `c` to the right, minus how often to the left. -/
def passes (p : List Coord) (c : Coord) : ℤ :=
  ∑ i ∈ Finset.range p.length,
    if (ringAt p i).lon ≤ c.lon ∧ c.lon < (ringAt p (i + 1)).lon ∧
      0 < area2 (ringAt p i) (ringAt p (i + 1)) c then 1
    else if (ringAt p (i + 1)).lon ≤ c.lon ∧ c.lon < (ringAt p i).lon ∧
      area2 (ringAt p i) (ringAt p (i + 1)) c < 0 then -1 else 0

/-- The edge from `c` to `d` goes on where the edge from `a` to `b` ends, and not back over it. -/
def GoesOn (a b c d : Coord) : Prop :=
  b = c ∧ (area2 a b d ≠ 0 ∨
    0 < (b.lon - a.lon) * (d.lon - b.lon) + (b.lat - a.lat) * (d.lat - b.lat))

/-- One of the two edges is on one side of the other, or one is to the west or to the south of the
other, or one goes on where the other ends. -/
def EdgesApart (a b c d : Coord) : Prop :=
  0 < area2 a b c * area2 a b d ∨ 0 < area2 c d a * area2 c d b ∨
  max a.lon b.lon < min c.lon d.lon ∨ max c.lon d.lon < min a.lon b.lon ∨
  max a.lat b.lat < min c.lat d.lat ∨ max c.lat d.lat < min a.lat b.lat ∨
  GoesOn a b c d ∨ GoesOn c d a b

instance (a b c d : Coord) : Decidable (EdgesApart a b c d) := by
  unfold EdgesApart GoesOn
  infer_instance

end Capi
