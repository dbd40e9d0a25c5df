import Mathlib.Analysis.Complex.ReImTopology
import Mathlib.Analysis.Convex.Segment
import Verif.Spec.Sight
import Verif.Spec.Walk

/-!
# Specification vocabulary for routes over the sea

Points of the plane are complex numbers: longitude plus `i` times latitude, in microdegrees.
-/

namespace Capi

/-- The point of the plane given by the coordinate. -/
def Coord.pt (c : Coord) : ℂ := ⟨c.lon, c.lat⟩

/-- Twice the signed area of the triangle `p q x`: positive if `x` is to the left of the line from
`p` to `q`. -/
def turn (p q x : ℂ) : ℝ := (q.re - p.re) * (x.im - p.im) - (q.im - p.im) * (x.re - p.re)

/-- `x` is in the direction of the interior angle at `v` between the edges from `a` and to `b`, the
interior being on the left. -/
def Into (a v b x : ℂ) : Prop :=
  if 0 < turn a v b then 0 < turn a v x ∧ 0 < turn v b x else 0 < turn a v x ∨ 0 < turn v b x

/-- `x` is in the direction of the exterior angle at `v` between the edges from `a` and to `b`. -/
def Outof (a v b x : ℂ) : Prop :=
  if 0 < turn a v b then turn a v x < 0 ∨ turn v b x < 0 else turn a v x < 0 ∧ turn v b x < 0

/-- The points to the left of all edges. -/
def Inland (p : List Coord) : Set ℂ := {x | ∀ e, EdgeOf [p] e → 0 < turn e.p.pt e.q.pt x}

/-- The ring of vertices goes round the open region `A`, which it has on its left and nowhere else.
-/
structure Encloses (p : List Coord) (A : Set ℂ) : Prop where
  /-- The coast does not belong to the region. -/
  isOpen : IsOpen A
  /-- The region ends at edges of the ring only. -/
  border : ∀ z ∈ frontier A, ∃ e, EdgeOf [p] e ∧ z ∈ segment ℝ e.p.pt e.q.pt
  /-- Next to an edge the region is on the left. -/
  left : ∀ e, EdgeOf [p] e → ∀ z ∈ openSegment ℝ e.p.pt e.q.pt, ∃ ε > 0, ∀ x, ‖x - z‖ < ε →
    0 < turn e.p.pt e.q.pt x → x ∈ A
  /-- Next to an edge the region is not on the right. -/
  right : ∀ e, EdgeOf [p] e → ∀ z ∈ openSegment ℝ e.p.pt e.q.pt, ∃ ε > 0, ∀ x, ‖x - z‖ < ε →
    turn e.p.pt e.q.pt x < 0 → x ∉ A
  /-- Next to a corner the region includes the interior angle. -/
  corner : ∀ a v b, CornerOf [p] a v b → ∃ ε > 0, ∀ x, ‖x - v.pt‖ < ε → Into a.pt v.pt b.pt x →
    x ∈ A
  /-- Next to a corner the region does not include the exterior angle. -/
  outside : ∀ a v b, CornerOf [p] a v b → ∃ ε > 0, ∀ x, ‖x - v.pt‖ < ε →
    Outof a.pt v.pt b.pt x → x ∉ A

/-- The straight line from `a` to `b` has no point on land. -/
def AtSea (land : Set ℂ) (a b : ℂ) : Prop := ∀ z ∈ segment ℝ a b, z ∉ land

/-- The length in degrees of a straight line. -/
noncomputable def lineLength (a b : ℂ) : ℝ := ‖a - b‖ / 1000000

end Capi
