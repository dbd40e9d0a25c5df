import Verif.Model.Coordinate
import Mathlib.Data.Nat.Bitwise

/-!
# The last bit of 64-bit numbers
-/

namespace Capi

theorem xor_one_even {z : ℤ} (h : z % 2 = 0) :
    1#64 ^^^ BitVec.ofInt 64 z = BitVec.ofInt 64 (z + 1) := by
  apply BitVec.eq_of_toNat_eq
  rw [BitVec.toNat_xor, BitVec.toNat_ofInt, BitVec.toNat_ofInt]
  have h1 : (1#64).toNat = 1 := rfl
  rw [h1, Nat.xor_comm, Nat.xor_one_of_even (Nat.even_iff.2 (by omega))]
  omega

theorem xor_one_odd {z : ℤ} (h : z % 2 = 1) :
    1#64 ^^^ BitVec.ofInt 64 z = BitVec.ofInt 64 (z - 1) := by
  have h1 := xor_one_even (z := z - 1) (by omega)
  rw [show z - 1 + 1 = z by ring] at h1
  rw [← h1, ← BitVec.xor_assoc, BitVec.xor_self, BitVec.zero_xor]

end Capi
