import Verif.Spec.Angle

/-!
# Specification vocabulary for computed angles
-/

namespace Capi

/-- A double precision `atan2` as libraries provide it: it returns doubles and is off by at most
one unit in the last place. -/
structure Atan2Ok (atan2 : ℚ → ℚ → ℚ) : Prop where
  double : ∀ x y : ℚ, fl (atan2 y x) = atan2 y x
  near : ∀ x y : ℚ, |(atan2 y x : ℝ) - Complex.arg ⟨x, y⟩| ≤ |Complex.arg ⟨x, y⟩| / 2 ^ 52

/-- The vectors are parallel, or more than a right angle apart, or the sine of the angle between
them exceeds `2⁻⁴⁸`. -/
def Apart (u v : Coord) : Prop :=
  u.lon * v.lat - u.lat * v.lon = 0 ∨ u.lon * v.lon + u.lat * v.lat < 0 ∨
    (u.lon * u.lon + u.lat * u.lat) * (v.lon * v.lon + v.lat * v.lat) <
      2 ^ 96 * (u.lon * v.lat - u.lat * v.lon) ^ 2

instance (u v : Coord) : Decidable (Apart u v) := by unfold Apart; infer_instance

/-- No two points lie in directions from `obs` that are almost but not quite the same. -/
def Separated (obs : Coord) (vs : List Coord) : Prop :=
  ∀ a ∈ vs, ∀ b ∈ vs, Apart (offset obs a) (offset obs b)

instance (obs : Coord) (vs : List Coord) : Decidable (Separated obs vs) := by
  unfold Separated; infer_instance

/-- The point has whole multiples of `g` microdegrees as coordinates. -/
def OnLattice (g : ℤ) (c : Coord) : Prop := g ∣ c.lon ∧ g ∣ c.lat

end Capi
