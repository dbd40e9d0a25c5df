import Verif.Spec.Sphere
import Verif.Spec.Libm
import Mathlib.Analysis.SpecialFunctions.Trigonometric.Inverse

/-!
# Specification vocabulary for distances on the sphere
-/

namespace Capi

/-- The distance of two places on the unit sphere: the angle between their directions. -/
noncomputable def arcLength (a b : Coord) : ℝ :=
  Real.arccos ((onSphere a).1 * (onSphere b).1 + (onSphere a).2.1 * (onSphere b).2.1 +
    (onSphere a).2.2 * (onSphere b).2.2)

/-- What is assumed of `asin` and of roots of numbers up to 1. -/
structure AsinOk (L : Libm) (asin : ℚ → ℚ) : Prop where
  close : ∀ y : ℚ, 0 ≤ y → y ≤ 1 → |(asin y : ℝ) - Real.arcsin y| ≤ 1 / 2 ^ 50 * Real.arcsin y
  root : ∀ q : ℚ, 0 ≤ q → q ≤ 1 → L.sqrt q ≤ 1

end Capi
