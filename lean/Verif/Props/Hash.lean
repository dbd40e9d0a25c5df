import Verif.Lemmas.Hash
import Verif.Props.Coordinate

/-!
# Collisions of the hash of coordinates
-/

namespace Capi

/-- **C09** On one latitude different coordinates have different hashes. -/
theorem C09_spread (a b : Coord) (ha : a.Wf) (hb : b.Wf) (h : a.lat = b.lat)
    (hh : a.hash = b.hash) : a = b := by
  unfold Coord.hash Coord.hashMix at hh
  rw [h] at hh
  have h1 : BitVec.ofInt 64 a.lon = BitVec.ofInt 64 b.lon := by
    have h2 := congrArg (BitVec.ofInt 64 b.lat ^^^ ·) hh
    simp only [← BitVec.xor_assoc, BitVec.xor_self, BitVec.zero_xor] at h2
    exact (BitVec.add_left_inj _).1 ((BitVec.add_left_inj _).1 ((BitVec.add_left_inj _).1 h2))
  have h2 := congrArg BitVec.toInt h1
  simp only [Coord.Wf, FitsI32] at ha hb
  rw [BitVec.toInt_ofInt, BitVec.toInt_ofInt, Int.bmod_eq_of_le (by omega) (by omega),
    Int.bmod_eq_of_le (by omega) (by omega)] at h2
  cases a; cases b
  simp_all

/-- Two places on the equator. -/
example : (⟨5, 0⟩ : Coord).hash ≠ (⟨-180000000, 0⟩ : Coord).hash := fun h =>
  absurd (C09_spread ⟨5, 0⟩ ⟨-180000000, 0⟩ (by decide) (by decide) rfl h) (by decide)

/-- **C09** Every place on the equator has the same hash as one a microdegree to the north and 63 or 65
microdegrees to the west. -/
theorem C09_collision (x : ℤ) :
    (⟨x, 0⟩ : Coord).hash = (⟨x - if x % 2 = 0 then 65 else 63, 1⟩ : Coord).hash := by
  have add : ∀ y z : ℤ, BitVec.ofInt 64 y + BitVec.ofInt 64 z = BitVec.ofInt 64 (y + z) :=
    fun y z => (BitVec.ofInt_add y z).symm
  have h0 : (⟨x, 0⟩ : Coord).hash = BitVec.ofInt 64 (x + 2654435769) := by
    unfold Coord.hash Coord.hashMix
    rw [show BitVec.ofInt 64 (0 : ℤ) = 0#64 from rfl, BitVec.zero_xor]
    change BitVec.ofInt 64 x + BitVec.ofInt 64 2654435769 + 0#64 + 0#64 = _
    rw [BitVec.add_zero, BitVec.add_zero, add]
  have h1 : ∀ y : ℤ, (⟨y, 1⟩ : Coord).hash = 1#64 ^^^ BitVec.ofInt 64 (y + 2654435769 + 64) := by
    intro y
    unfold Coord.hash Coord.hashMix
    rw [show BitVec.ofInt 64 1 <<< 6 = BitVec.ofInt 64 64 by decide,
      show BitVec.ofInt 64 1 >>> 2 = 0#64 by decide, show BitVec.ofInt 64 1 = 1#64 by decide,
      show 0x9e3779b9#64 = BitVec.ofInt 64 2654435769 by decide, BitVec.add_zero, add, add]
  rw [h0, h1]
  split
  · rw [xor_one_even (by omega)]
    congr 1
    omega
  · rw [xor_one_odd (by omega)]
    congr 1
    omega

/-- **C09** Hence hashes do not tell the places of a map apart. -/
theorem C09_injective_false : ¬ ∀ a b : Coord, a.Geo → b.Geo → a.hash = b.hash → a = b := fun h =>
  absurd (h ⟨0, 0⟩ ⟨-65, 1⟩ (by decide) (by decide) (by simpa using C09_collision 0)) (by decide)

end Capi
