import Verif.Spec.Sweep

/-!
# Specification vocabulary for convex obstacles and obstacles in front of others
-/

namespace Capi

/-- A strictly convex polygon given counter-clockwise: every vertex is strictly to the left of every
edge it is not an end of. -/
def Convex (p : List Coord) : Prop :=
  ∀ i < p.length, ∀ w ∈ p, w ≠ ringAt p i → w ≠ ringAt p (i + 1) →
    0 < area2 (ringAt p i) (ringAt p (i + 1)) w

instance (p : List Coord) : Decidable (Convex p) := by
  unfold Convex; infer_instance

/-- Seen from `obs`, no two vertices of `p` are at the same distance, no two edges are met due east
at the same rounded distance, and no edge is met there at the distance of a vertex. -/
structure NoTies (p : List Coord) (obs : Coord) : Prop where
  vertices : ∀ a ∈ p, ∀ b ∈ p, dist2 obs a = dist2 obs b → a = b
  east : ∀ s t d, EdgeOf [p] s → EdgeOf [p] t → s ≠ t → AcrossEast obs s → AcrossEast obs t →
    EastDist obs s d → ¬ EastDist obs t d
  mixed : ∀ s, EdgeOf [p] s → AcrossEast obs s → ∀ w ∈ p, ¬ EastDist obs s (dist2 obs w)

/-- No edge of `p` comes nearer to `obs` than `R`. -/
def NoNearer (obs : Coord) (R : ℚ) (p : List Coord) : Prop :=
  ∀ s, EdgeOf [p] s → ∀ x y : ℚ, OnSeg s x y → R ^ 2 ≤ (x - obs.lon) ^ 2 + (y - obs.lat) ^ 2

/-- No edge of `p` goes farther from `obs` than `R`. -/
def NoFarther (obs : Coord) (R : ℚ) (p : List Coord) : Prop :=
  ∀ s, EdgeOf [p] s → ∀ x y : ℚ, OnSeg s x y → (x - obs.lon) ^ 2 + (y - obs.lat) ^ 2 ≤ R ^ 2

end Capi
