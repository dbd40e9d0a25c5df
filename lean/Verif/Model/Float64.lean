import Mathlib.Data.Int.Log
import Mathlib.Data.Rat.Floor

/-!
# IEEE-754 binary64 rounding

`fl x` is the binary64 value nearest to the rational `x`, ties to even, with unbounded
exponent range.  Simplification: overflow to infinity, subnormals, NaN and the sign of zero
are not represented; `Model/Binary64.lean` has them, and C68 and C69 show that the values of the
code stay inside the normal range.  A C++ expression on doubles is modelled by
applying `fl` after each operation (no fused or extended-precision evaluation).
-/

namespace Capi

/-- Round to the nearest integer, ties to even. -/
def rne (x : ℚ) : ℤ :=
  if x - ⌊x⌋ < 1 / 2 then ⌊x⌋
  else if 1 / 2 < x - ⌊x⌋ then ⌊x⌋ + 1
  else if ⌊x⌋ % 2 = 0 then ⌊x⌋ else ⌊x⌋ + 1

/-- Unit in the last place of the binade of `x`. -/
def ulp (x : ℚ) : ℚ := 2 ^ (Int.log 2 |x| - 52)

/-- The double nearest to `x` (round to nearest, ties to even). -/
def fl (x : ℚ) : ℚ := if x = 0 then 0 else rne (x / ulp x) * ulp x

/-- `static_cast<int32_t>(x)` for a double: truncation toward zero (range checked by the
caller of this definition). -/
def truncZ (x : ℚ) : ℤ := if 0 ≤ x then ⌊x⌋ else ⌈x⌉

/-- `std::round`: nearest integer, ties away from zero.  Exact on doubles. -/
def roundHalfAway (x : ℚ) : ℤ := if 0 ≤ x then ⌊x + 1 / 2⌋ else ⌈x - 1 / 2⌉

end Capi
