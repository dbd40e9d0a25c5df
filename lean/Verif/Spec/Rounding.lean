import Mathlib.Data.Rat.Defs
import Mathlib.Algebra.Order.Ring.Abs
import Mathlib.Algebra.Order.Ring.Rat

/-!
# Specification of rounding (IEEE 754, 4.3.1 roundTiesToEven)
-/

namespace Capi

/-- `z` is a number with `p` binary digits whose last place is `2 ^ e` with `ok e`. -/
def Digits (p : ℕ) (ok : ℤ → Prop) (z : ℚ) : Prop := ∃ m e : ℤ, ok e ∧ |m| < 2 ^ p ∧ z = m * 2 ^ e

/-- `y` is a number with `p` digits, none is nearer to `x`, and if another one is as near, then the
last digit of `y` is zero. -/
structure Rounds (p : ℕ) (ok : ℤ → Prop) (x y : ℚ) : Prop where
  digits : Digits p ok y
  nearest : ∀ z, Digits p ok z → |x - y| ≤ |x - z|
  even : ∀ z, Digits p ok z → |x - z| = |x - y| → z = y ∨ Digits (p - 1) (fun e => ok (e - 1)) y

end Capi
