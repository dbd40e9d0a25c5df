import Verif.Spec.Cone
import Verif.Model.Polygon

/-!
# Specification vocabulary for lines of sight
-/

namespace Capi

/-- `s` is an edge of one of the polygons. -/
def EdgeOf (ps : List (List Coord)) (s : Seg) : Prop :=
  ∃ p ∈ ps, ∃ i < p.length, s = ⟨ringAt p i, ringAt p (i + 1)⟩

/-- `a v b` are consecutive vertices of one of the polygons. -/
def CornerOf (ps : List (List Coord)) (a v b : Coord) : Prop :=
  ∃ p ∈ ps, ∃ i < p.length, a = ringAt p (i + p.length - 1) ∧ v = ringAt p i ∧
    b = ringAt p (i + 1)

/-- The line of sight from `obs` to `v` has at most the point `v` in common with `s`. -/
def Clear (obs v : Coord) (s : Seg) : Prop :=
  ∀ x y : ℚ, OnSeg s x y → OnSeg ⟨obs, v⟩ x y → x = v.lon ∧ y = v.lat

/-- The line of sight from `obs` to `v` properly crosses `s`: the two ends of each lie strictly
on different sides of the other. -/
def Crosses (obs v : Coord) (s : Seg) : Prop :=
  area2 obs v s.p * area2 obs v s.q < 0 ∧ area2 s.p s.q obs * area2 s.p s.q v < 0

/-- `v` and `w` are seen from `obs` in the same direction. -/
def InLine (obs v w : Coord) : Prop :=
  area2 obs v w = 0 ∧ 0 < (v.lon - obs.lon) * (w.lon - obs.lon) + (v.lat - obs.lat) * (w.lat - obs.lat)

instance (obs v w : Coord) : Decidable (InLine obs v w) := by
  unfold InLine; infer_instance

instance (obs v : Coord) (s : Seg) : Decidable (Crosses obs v s) := by
  unfold Crosses; infer_instance

end Capi
