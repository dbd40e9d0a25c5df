import Verif.Spec.Geometry
import Verif.Model.Polygon
import Mathlib.Algebra.BigOperators.Group.Finset.Basic
import Mathlib.Data.List.Rotate

/-!
# Specification vocabulary for rings
-/

namespace Capi

/-- Twice the signed area of the closed ring through `vs` (shoelace formula), positive when
counter-clockwise. -/
def twiceArea (vs : List Coord) : ℤ :=
  ∑ i ∈ Finset.range vs.length,
    ((ringAt vs i).lon * (ringAt vs (i + 1)).lat - (ringAt vs (i + 1)).lon * (ringAt vs i).lat)

/-- The point `(x, y)` lies on the closed polygonal curve through `vs`. -/
def OnRing (vs : List Coord) (x y : ℚ) : Prop :=
  ∃ i < vs.length, OnSeg ⟨ringAt vs i, ringAt vs (i + 1)⟩ x y

/-- No vertex equals its cyclic successor. -/
def NoRepeat (vs : List Coord) : Prop := ∀ i < vs.length, ringAt vs i ≠ ringAt vs (i + 1)

instance (vs : List Coord) : Decidable (NoRepeat vs) := by unfold NoRepeat; infer_instance

end Capi
