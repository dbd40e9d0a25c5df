import Mathlib.Algebra.Group.End
import Verif.Model.Shuffle

/-! # Orders made by exchanges, and sources of numbers that do not get stuck -/

namespace Capi

/-- Exchange position `p` with `k`, the next one with the next `k`, and so on: `exchanges p ks i` is where the
element then at position `i` was. -/
def exchanges : ℕ → List ℕ → Equiv.Perm ℕ
  | _, [] => 1
  | p, k :: ks => Equiv.swap p k * exchanges (p + 1) ks

/-- Choices for the positions `1` to `n - 1`, each of a position not behind. -/
def Choices (n : ℕ) (ks : List ℕ) : Prop :=
  ks.length = n - 1 ∧ ∀ i (h : i < ks.length), ks[i] ≤ i + 1

/-- In every stretch of `fuel` numbers there is one that can be scaled down to `e`. -/
def Lively (lib : Shuffle.Lib) (g : ℕ → ℕ) (fuel : ℕ) : Prop :=
  ∀ e, 0 < e → e < 2 ^ 32 → ∀ i, ∃ j < fuel, (Shuffle.scale lib e (g (i + j))).isSome

end Capi
