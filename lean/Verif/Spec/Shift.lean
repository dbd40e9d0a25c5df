import Verif.Spec.Sight

/-!
# Specification vocabulary for the periodic plane
-/

namespace Capi

/-- The coordinate moved east by `k` periods. -/
def Coord.shift (k : ℤ) (c : Coord) : Coord := ⟨c.lon + k * 360000001, c.lat⟩

/-- The segment moved east by `k` periods. -/
def Seg.shift (k : ℤ) (s : Seg) : Seg := ⟨s.p.shift k, s.q.shift k⟩

/-- One of the three copies the code works with. -/
def IsCopy (k : ℤ) : Prop := k = 0 ∨ k = 1 ∨ k = -1

instance (k : ℤ) : Decidable (IsCopy k) := by unfold IsCopy; infer_instance

end Capi
