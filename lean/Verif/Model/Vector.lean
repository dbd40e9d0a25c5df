import Verif.Model.Binary64

/-!
# Unit vectors (code/types/coordinate/coordinate.cpp)
-/

namespace Capi

/-- coordinate.cpp:159-163 `normalize`; `sq` is `std::sqrt`.  The length is also written to the
standard output, which is left out.  For components in range the squared length is finite, so the
last case does not occur. -/
def Coord.unit64 (sq : ℚ → ℚ) (a : Coord) : Res Coord :=
  match a.magSq64 with
  | .fin q => a.div64 (.fin (sq q))
  | _ => .error .ub

end Capi
