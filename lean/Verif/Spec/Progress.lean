import Mathlib.Algebra.Order.Ring.Abs
import Mathlib.Algebra.Order.Ring.Int

/-!
# Specification vocabulary for the progress bar
-/

namespace Capi

/-- A bar of 50 cells of which `k` are filled: an arrow head follows, if there is room, and blanks. -/
def barOf (k : ℕ) : List Char :=
  if k < 50 then List.replicate k '=' ++ '>' :: List.replicate (49 - k) ' '
  else List.replicate 50 '='

/-- Times since the first tick, in nanoseconds, that are below 73 years and let the whole task, of
size `max`, be estimated at less than two years. -/
def ClockOk (max : ℕ) (times : List ℤ) : Prop :=
  ∀ (i : ℕ) (t : ℤ), times[i]? = some t → |t| ≤ 2 ^ 61 ∧ |t| * max ≤ 2 ^ 56 * (i + 1)

end Capi
