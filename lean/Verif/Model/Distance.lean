import Verif.Model.ShortestPath
import Verif.Lemmas.Float64
import Mathlib.Analysis.SpecialFunctions.Sqrt

/-!
# The two arithmetics used for distances

`exactArith` computes with real numbers.  `doubleArith` rounds every operation as the code does; the
square root is an arbitrary function to non-negative doubles.  The limit is `none` for the default
`INFINITY`.
-/

namespace Capi

namespace ShortestPath

/-- The limit is exceeded. -/
def exceeds {D : Type} [LT D] [DecidableRel (α := D) (· < ·)] (limit : Option D) (d : D) : Bool :=
  match limit with
  | none => false
  | some l => decide (l < d)

open Classical in
/-- Exact distances in degrees, with greediness `w`. -/
noncomputable def exactArith (w : ℝ) (limit : Option ℝ) : Arith ℝ where
  mag c := Real.sqrt (c.magSq : ℝ) / 1000000
  add x y := x + y
  zero := 0
  weigh d h := d + h * w
  over := exceeds limit

/-- A finite double. -/
def Dbl : Type := {q : ℚ // fl q = q}

instance : LinearOrder Dbl := inferInstanceAs (LinearOrder {q : ℚ // fl q = q})

/-- Rounding to a double. -/
def Dbl.round (q : ℚ) : Dbl := ⟨fl q, fl_idem q⟩

/-- The distances of the code: coordinate.cpp:98-103, 112 for `mag`, shortest_path_computer.cpp:53-56,
80-82 for the rest; `sq` is `std::sqrt`. -/
def doubleArith (sq : ℚ → Dbl) (w : Dbl) (limit : Option Dbl) : Arith Dbl where
  mag c := sq c.magSqDeg
  add x y := Dbl.round (x.1 + y.1)
  zero := Dbl.round 0
  weigh d h := Dbl.round (d.1 + (Dbl.round (h.1 * w.1)).1)
  over := exceeds limit

end ShortestPath

end Capi
