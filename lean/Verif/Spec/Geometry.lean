import Verif.Model.Segment

/-!
# Exact plane geometry over the rationals

Specification vocabulary, independent of the modelled functions.
-/

namespace Capi

/-- The rational point `(x, y)` lies on the closed segment `s`. -/
def OnSeg (s : Seg) (x y : ℚ) : Prop :=
  ∃ t : ℚ, 0 ≤ t ∧ t ≤ 1 ∧
    x = s.p.lon + t * (s.q.lon - s.p.lon) ∧ y = s.p.lat + t * (s.q.lat - s.p.lat)

/-- The two closed segments have a rational point in common. -/
def Meets (s t : Seg) : Prop := ∃ x y : ℚ, OnSeg s x y ∧ OnSeg t x y

/-- Twice the signed area of the triangle `a b c`. -/
def area2 (a b c : Coord) : ℤ :=
  (b.lon - a.lon) * (c.lat - a.lat) - (b.lat - a.lat) * (c.lon - a.lon)

/-- The directions of the two segments are linearly independent. -/
def NonParallel (s t : Seg) : Prop :=
  (s.q.lon - s.p.lon) * (t.q.lat - t.p.lat) ≠ (s.q.lat - s.p.lat) * (t.q.lon - t.p.lon)

instance (s t : Seg) : Decidable (NonParallel s t) := by unfold NonParallel; infer_instance

end Capi
