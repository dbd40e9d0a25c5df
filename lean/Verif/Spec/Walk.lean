import Mathlib.Data.Real.Basic
import Mathlib.Data.List.Chain

/-!
# Specification vocabulary for walks in a graph
-/

namespace Capi

/-- `l` leads from `a` to `b` along edges. -/
def IsWalk {V : Type} (edge : V → V → Prop) (a b : V) (l : List V) : Prop :=
  l.head? = some a ∧ l.getLast? = some b ∧ l.IsChain edge

/-- The total length of the edges of a walk. -/
def walkLength {V : Type} (len : V → V → ℝ) : List V → ℝ
  | a :: b :: r => len a b + walkLength len (b :: r)
  | _ => 0

end Capi
