/-!
# Outcomes of C++ operations

The modelled functions return `Res α`: a value, an exception (`std::runtime_error` and
friends, `Fault.exn`) or undefined behaviour (`Fault.ub`: signed overflow, access outside a
container, dereferencing an empty `std::optional` is an exception in `value()` and so `exn`).
-/

namespace Capi

/-- How an operation can fail. -/
inductive Fault where
  /-- undefined behaviour -/
  | ub
  /-- a C++ exception -/
  | exn
  deriving DecidableEq, Repr

/-- Result of a C++ operation. -/
abbrev Res (α : Type) := Except Fault α

instance {α : Type} [DecidableEq α] : DecidableEq (Res α) := fun a b =>
  match a, b with
  | .ok x, .ok y => if h : x = y then .isTrue (by rw [h]) else .isFalse (by simpa using h)
  | .error x, .error y => if h : x = y then .isTrue (by rw [h]) else .isFalse (by simpa using h)
  | .ok _, .error _ => .isFalse (by simp)
  | .error _, .ok _ => .isFalse (by simp)

/-- `x` fits in `int32_t`. -/
def FitsI32 (x : Int) : Prop := -2147483648 ≤ x ∧ x ≤ 2147483647

/-- `x` fits in `int64_t`. -/
def FitsI64 (x : Int) : Prop := -9223372036854775808 ≤ x ∧ x ≤ 9223372036854775807

instance (x : Int) : Decidable (FitsI32 x) := by unfold FitsI32; infer_instance
instance (x : Int) : Decidable (FitsI64 x) := by unfold FitsI64; infer_instance

/-- Result of an `int32_t` operation whose mathematical value is `x`: signed overflow is
undefined behaviour. -/
def chk32 (x : Int) : Res Int := if FitsI32 x then .ok x else .error .ub

/-- Result of an `int64_t` operation whose mathematical value is `x`. -/
def chk64 (x : Int) : Res Int := if FitsI64 x then .ok x else .error .ub

theorem chk32_ok {x : Int} (h : FitsI32 x) : chk32 x = .ok x := by simp [chk32, h]
theorem chk64_ok {x : Int} (h : FitsI64 x) : chk64 x = .ok x := by simp [chk64, h]

@[simp] theorem Res.bind_ok {α β : Type} (a : α) (f : α → Res β) :
    ((Except.ok a : Res α) >>= f) = f a := rfl
@[simp] theorem Res.bind_error {α β : Type} (e : Fault) (f : α → Res β) :
    ((Except.error e : Res α) >>= f) = .error e := rfl
@[simp] theorem Res.pure_eq {α : Type} (a : α) : (pure a : Res α) = .ok a := rfl

/-- The C++ `Orientation` enum (`code/types/orientation/orientation.hpp`). -/
inductive Orientation where
  | clockwise
  | counterClockwise
  | collinear
  deriving DecidableEq, Repr

end Capi
