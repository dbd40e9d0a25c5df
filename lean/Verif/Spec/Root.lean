import Mathlib.Data.Rat.Floor

/-!
# Square roots of doubles
-/

namespace Capi

/-- `sq` is accurate to a relative error of about `2^-52`, which is more than IEEE-754 asks of
`std::sqrt` (correct rounding, `2^-53`).  Stated without real numbers: the square is right up to
`2^-51`. -/
structure SqrtOk (sq : ℚ → ℚ) : Prop where
  zero : sq 0 = 0
  pos : ∀ q, 0 < q → 0 < sq q
  close : ∀ q, 0 < q → |sq q * sq q - q| ≤ q / 2 ^ 51

end Capi
