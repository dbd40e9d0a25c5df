import Verif.Model.Sphere
import Verif.Spec.Root
import Mathlib.Analysis.SpecialFunctions.Complex.Arg

/-!
# Accuracy of the C library

Less is asked than the usual libraries give (errors below one unit in the last place).
-/

namespace Capi

/-- Sine and cosine are right up to a relative error of `2^-50`, `atan2` up to `2^-48` radians, the
square root as in `SqrtOk`, and rounding is to a nearest integer. -/
structure Libm.Ok (L : Libm) : Prop where
  sin : ∀ x : ℚ, |(L.sin x : ℝ) - Real.sin x| ≤ 1 / 2 ^ 50 * |Real.sin x|
  cos : ∀ x : ℚ, |(L.cos x : ℝ) - Real.cos x| ≤ 1 / 2 ^ 50 * |Real.cos x|
  atan2 : ∀ x y : ℚ, |(L.atan2 y x : ℝ) - Complex.arg ⟨x, y⟩| ≤ 1 / 2 ^ 48
  sqrt : SqrtOk L.sqrt
  round : ∀ q : ℚ, |(L.round q : ℚ) - q| ≤ 1 / 2

end Capi
