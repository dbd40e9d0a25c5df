import Verif.Lemmas.Coordinate

/-!
# C04, C05, C09: degrees, scalar multiples and hashes
-/

namespace Capi

/-! ### C04 degrees and microdegrees -/

/-- **C04** (false of the code) Reading a coordinate's degrees and constructing a coordinate
from them can give a different coordinate: 15 microdegrees come back as 14. -/
theorem C04_roundtrip_false :
    ¬ ∀ k : ℤ, FitsI32 k → Coord.microOfDegC (Coord.degOfMicro k) = .ok k := by
  intro h
  have := h 15 (by decide)
  have c : fl (1 / 1000000) = (4722366482869645 : ℤ) * 2 ^ (-20 - 52 : ℤ) := by
    apply fl_eval
    · norm_num [abs_of_pos]
    · norm_num [abs_of_pos]
    · norm_num [rne, Int.floor_eq_iff]
  have d : fl (fl (1 / 1000000) * (15 : ℤ)) = (8854437155380584 : ℤ) * 2 ^ (-17 - 52 : ℤ) := by
    rw [c]
    apply fl_eval
    · norm_num [abs_of_pos]
    · norm_num [abs_of_pos]
    · norm_num [rne, Int.floor_eq_iff]
  have e : fl (1000000 * Coord.degOfMicro 15) = (8444249301319679 : ℤ) * 2 ^ (3 - 52 : ℤ) := by
    unfold Coord.degOfMicro
    rw [d]
    apply fl_eval
    · norm_num [abs_of_pos]
    · norm_num [abs_of_pos]
    · norm_num [rne, Int.floor_eq_iff]
  have f : truncZ (fl (1000000 * Coord.degOfMicro 15)) = 14 := by
    rw [e]; unfold truncZ
    norm_num [Int.floor_eq_iff]
  unfold Coord.microOfDegC at this
  rw [f] at this
  exact absurd this (by decide)

/-- **C04** What does hold: the round trip is off by at most one microdegree, never moves away
from zero, and is never undefined, for every `int32_t` value.
Missing for the full statement: equality (see `C04_roundtrip_false`). -/
theorem C04_roundtrip_partial (k : ℤ) (hk : FitsI32 k) :
    ∃ k', Coord.microOfDegC (Coord.degOfMicro k) = .ok k' ∧
      |k' - k| ≤ 1 ∧ |k'| ≤ |k| ∧ 0 ≤ k * k' := by
  have h := abs_le.1 (micro_deg_close hk)
  set y := fl (1000000 * Coord.degOfMicro k) with hy
  have key : (0 ≤ k → (truncZ y = k ∨ truncZ y = k - 1) ∧ 0 ≤ truncZ y) ∧
      (k < 0 → (truncZ y = k ∨ truncZ y = k + 1) ∧ truncZ y ≤ 0) := by
    constructor
    · intro hk0
      have hy0 : 0 ≤ y := by
        rw [hy]
        have c0 : 0 ≤ Coord.degOfMicro k := by
          unfold Coord.degOfMicro
          have h1 : 0 ≤ fl (1 / 1000000) := (fl_pos (by norm_num)).le
          have h2 : (0 : ℚ) ≤ k := by exact_mod_cast hk0
          have := fl_mono (mul_nonneg h1 h2)
          rwa [fl_zero] at this
        have := fl_mono (mul_nonneg (show (0 : ℚ) ≤ 1000000 by norm_num) c0)
        rwa [fl_zero] at this
      unfold truncZ
      rw [if_pos hy0]
      have a1 : k - 1 ≤ ⌊y⌋ := by rw [Int.le_floor]; push_cast; linarith [h.1]
      have a2 : ⌊y⌋ < k + 1 := by rw [Int.floor_lt]; push_cast; linarith [h.2]
      have a3 : 0 ≤ ⌊y⌋ := by rw [Int.le_floor]; exact_mod_cast hy0
      omega
    · intro hk0
      have hkq : (k : ℚ) + 1 ≤ 0 := by exact_mod_cast hk0
      have hyneg : y < 0 := by linarith [h.2]
      unfold truncZ
      rw [if_neg (not_le.2 hyneg)]
      have a1 : k - 1 < ⌈y⌉ := by rw [Int.lt_ceil]; push_cast; linarith [h.1]
      have a2 : ⌈y⌉ ≤ k + 1 := by rw [Int.ceil_le]; push_cast; linarith [h.2]
      have a3 : ⌈y⌉ ≤ 0 := by rw [Int.ceil_le]; push_cast; exact hyneg.le
      omega
  refine ⟨truncZ y, ?_, ?_, ?_, ?_⟩
  · unfold Coord.microOfDegC
    rw [← hy]
    apply chk32_ok
    unfold FitsI32 at *
    rcases le_or_gt 0 k with h0 | h0
    · have := key.1 h0; omega
    · have := key.2 h0; omega
  · rw [abs_le]
    rcases le_or_gt 0 k with h0 | h0
    · have := key.1 h0; omega
    · have := key.2 h0; omega
  · rcases le_or_gt 0 k with h0 | h0
    · have := key.1 h0; rw [abs_of_nonneg this.2, abs_of_nonneg h0]; omega
    · have := key.2 h0; rw [abs_of_nonpos this.2, abs_of_neg h0]; omega
  · rcases le_or_gt 0 k with h0 | h0
    · exact mul_nonneg h0 (key.1 h0).2
    · exact mul_nonneg_of_nonpos_of_nonpos h0.le (key.2 h0).2

example : ∃ k', Coord.microOfDegC (Coord.degOfMicro 15) = .ok k' ∧
    |k' - 15| ≤ 1 ∧ |k'| ≤ |15| ∧ 0 ≤ 15 * k' := C04_roundtrip_partial 15 (by decide)

/-- **C04** Whole degrees do survive the round trip. -/
theorem C04_whole_degrees (d : ℤ) (hd : |d| ≤ 2147) :
    Coord.microOfDegC (Coord.degOfMicro (d * 1000000)) = .ok (d * 1000000) := by
  have c : fl (1 / 1000000) = (4722366482869645 : ℤ) * 2 ^ (-20 - 52 : ℤ) := by
    apply fl_eval
    · norm_num [abs_of_pos]
    · norm_num [abs_of_pos]
    · norm_num [rne, Int.floor_eq_iff]
  have hdq : |(d : ℚ)| ≤ 2147 := by exact_mod_cast hd
  have e : Coord.degOfMicro (d * 1000000) = d := by
    unfold Coord.degOfMicro
    rw [c]
    have hx : ((4722366482869645 : ℤ) : ℚ) * 2 ^ (-20 - 52 : ℤ) * ((d * 1000000 : ℤ) : ℚ) =
        d * (1 - 3339 / 8192 / 2 ^ 53) := by
      push_cast; norm_num; ring
    rw [hx]
    apply fl_near_int
    · rw [abs_mul]
      calc |(d : ℚ)| * |(1 - 3339 / 8192 / 2 ^ 53 : ℚ)| ≤ 2147 * 1 := by
            gcongr
            rw [abs_le]; norm_num
        _ < 2 ^ 53 := by norm_num
    · have : (d : ℚ) * (1 - 3339 / 8192 / 2 ^ 53) - d = -(d * (3339 / 8192 / 2 ^ 53)) := by ring
      rw [this, abs_neg, abs_mul, abs_mul,
        abs_of_pos (show (0 : ℚ) < 3339 / 8192 / 2 ^ 53 by norm_num),
        abs_of_pos (show (0 : ℚ) < 1 - 3339 / 8192 / 2 ^ 53 by norm_num)]
      have := abs_nonneg (d : ℚ)
      have h2 : (3339 : ℚ) / 8192 / 2 ^ 53 * 2 ^ 53 ≤ 9 / 20 * (1 - 3339 / 8192 / 2 ^ 53) := by
        norm_num
      nlinarith
  unfold Coord.microOfDegC
  rw [e]
  have h2 : (1000000 : ℚ) * d = ((d * 1000000 : ℤ) : ℚ) := by push_cast; ring
  have hb := abs_le.1 hd
  rw [h2, fl_int _ (by rw [abs_le]; constructor <;> omega)]
  have h3 : truncZ ((d * 1000000 : ℤ) : ℚ) = d * 1000000 := by
    unfold truncZ; split_ifs
    · exact Int.floor_intCast _
    · exact Int.ceil_intCast _
  rw [h3, chk32_ok (by unfold FitsI32; omega)]

example : |(180 : ℤ)| ≤ 2147 := by decide

/-! ### C05 scalar multiples -/

/-- **C05** For a non-zero vector: no factor is reported iff the other vector is not a rational
multiple; otherwise the factor is the exact ratio rounded to the nearest double, with the same
sign (so sign tests on it are exact). -/
theorem C05_scalar_multiple (a b : Coord) (ha : a ≠ ⟨0, 0⟩) :
    (a.scalarMultiple b = none ↔
      ¬ ∃ k : ℚ, (b.lon : ℚ) = k * a.lon ∧ (b.lat : ℚ) = k * a.lat) ∧
    (∀ f, a.scalarMultiple b = some f →
      ∃ k : ℚ, (b.lon : ℚ) = k * a.lon ∧ (b.lat : ℚ) = k * a.lat ∧ f = fl k ∧
        (f < 0 ↔ k < 0) ∧ (0 < f ↔ 0 < k) ∧ (f = 0 ↔ k = 0)) := by
  rw [← cross_eq_zero_iff ha, ← parallel_iff]
  have hnz : ¬ (a.lon = 0 ∧ a.lat = 0) := by
    intro h; apply ha; cases a; simp only [Coord.mk.injEq]; exact h
  constructor
  · unfold Coord.scalarMultiple
    by_cases hp : a.parallel b = true
    · simp only [hp, Bool.not_true, Bool.false_eq_true, if_false, if_neg hnz]
      split_ifs <;> simp
    · simp [hp]
  · intro f hf
    unfold Coord.scalarMultiple at hf
    by_cases hp : a.parallel b = true
    · simp only [hp, Bool.not_true, Bool.false_eq_true, if_false, if_neg hnz] at hf
      have hc := (parallel_iff a b).1 hp
      obtain ⟨k, hk1, hk2⟩ := (cross_eq_zero_iff ha).1 hc
      have hfk : f = fl k := by
        split_ifs at hf with hx
        · have hy : (a.lat : ℚ) ≠ 0 := by
            intro h; apply hnz; exact ⟨hx, by exact_mod_cast h⟩
          simp only [Option.some.injEq] at hf
          rw [← hf, hk2]; congr 1; field_simp
        · have hxq : (a.lon : ℚ) ≠ 0 := by exact_mod_cast hx
          simp only [Option.some.injEq] at hf
          rw [← hf, hk1]; congr 1; field_simp
      exact ⟨k, hk1, hk2, hfk, hfk ▸ fl_neg_iff, hfk ▸ fl_pos_iff, hfk ▸ fl_eq_zero_iff⟩
    · simp [hp] at hf

example : (⟨2, -4⟩ : Coord) ≠ ⟨0, 0⟩ := by decide

/-- **C05** The zero vector is reported as parallel to everything with factor 0, although no
factor exists unless the other vector is zero too. -/
theorem C05_zero_vector (b : Coord) : (⟨0, 0⟩ : Coord).scalarMultiple b = some 0 := by
  unfold Coord.scalarMultiple Coord.parallel Coord.orient Coord.orientOfSign Coord.cross
  simp

example : (⟨0, 0⟩ : Coord).scalarMultiple ⟨3, 4⟩ = some 0 := C05_zero_vector _

/-! ### C09 hashes -/

/-- **C09** (true for coordinates) Equal coordinates have equal hashes; coordinate equality is
component-wise. -/
theorem C09_coordinate_hash (a b : Coord) (h1 : a.lon = b.lon) (h2 : a.lat = b.lat) :
    a.hash = b.hash := by
  unfold Coord.hash; rw [h1, h2]

example : (⟨3, 4⟩ : Coord).hash = (⟨1 + 2, 2 + 2⟩ : Coord).hash := C09_coordinate_hash _ _ rfl rfl

/-- **C09** (false for segments) A segment equals its reverse but hashes differently. -/
theorem C09_segment_hash_false : ¬ ∀ s t : Seg, s.sameAs t = true → s.hash = t.hash := by
  intro h
  exact absurd (h ⟨⟨0, 0⟩, ⟨1, 0⟩⟩ ⟨⟨1, 0⟩, ⟨0, 0⟩⟩ (by decide)) (by decide)

/-- **C09** For segments the contract holds only as far as the direction agrees.
Missing for the full statement: reversed segments (see `C09_segment_hash_false`). -/
theorem C09_segment_hash_partial (s t : Seg) (h1 : s.p = t.p) (h2 : s.q = t.q) :
    s.sameAs t = true ∧ s.hash = t.hash := by
  unfold Seg.sameAs Seg.hash; rw [h1, h2]; simp

example : (Seg.mk ⟨1, 2⟩ ⟨3, 4⟩).hash = (Seg.mk ⟨2 - 1, 2⟩ ⟨3, 4⟩).hash :=
  (C09_segment_hash_partial _ _ rfl rfl).2

/-- **C09** Segment equality is an equivalence relation insensitive to direction. -/
theorem C09_segment_equality (r s t : Seg) :
    r.sameAs r = true ∧ (r.sameAs s = s.sameAs r) ∧
    (r.sameAs s = true → s.sameAs t = true → r.sameAs t = true) ∧
    r.sameAs ⟨r.q, r.p⟩ = true := by
  unfold Seg.sameAs
  refine ⟨by simp, ?_, ?_, by simp⟩
  · rw [Bool.eq_iff_iff]
    simp only [Bool.or_eq_true, Bool.and_eq_true, beq_iff_eq]
    constructor <;> rintro (⟨a, b⟩ | ⟨a, b⟩) <;> simp [a, b]
  · simp only [Bool.or_eq_true, Bool.and_eq_true, beq_iff_eq]
    rintro (⟨a, b⟩ | ⟨a, b⟩) (⟨c, d⟩ | ⟨c, d⟩) <;> simp [a, b, c, d]

example : (Seg.mk ⟨1, 2⟩ ⟨3, 4⟩).sameAs ⟨⟨3, 4⟩, ⟨1, 2⟩⟩ = true :=
  (C09_segment_equality _ ⟨⟨0, 0⟩, ⟨0, 0⟩⟩ ⟨⟨0, 0⟩, ⟨0, 0⟩⟩).2.2.2

end Capi
