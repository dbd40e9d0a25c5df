import Verif.Lemmas.Geometry

/-!
# Helper lemmas for degrees, scalar multiples and segment symmetries
-/

namespace Capi

/-- Rounding a value very close to a small integer gives that integer. -/
theorem fl_near_int {x : ℚ} {n : ℤ} (hx : |x| < 2 ^ 53) (h : |x - n| * 2 ^ 53 ≤ 9 / 20 * |x|)
    : fl x = n := by
  by_cases h0 : x = 0
  · subst h0
    simp only [abs_zero, mul_zero, zero_sub, abs_neg] at h
    have : |(n : ℚ)| = 0 := le_antisymm (by nlinarith [abs_nonneg (n : ℚ)]) (abs_nonneg _)
    rw [abs_eq_zero] at this
    rw [this, fl_zero]
  have hu := ulp_pos x
  have h1 := lt_ulp x
  have h2 := fl_err_ulp x
  have h3 : |x - n| < 9 / 20 * ulp x := by nlinarith
  have h4 : |fl x - n| < ulp x := by
    have : fl x - n = (fl x - x) + (x - n) := by ring
    rw [this]
    refine lt_of_le_of_lt (abs_add_le _ _) ?_
    linarith
  -- both are multiples of ulp x
  have hlog : Int.log 2 |x| ≤ 52 := by
    have : Int.log 2 |x| < 53 := by
      rw [← Int.lt_zpow_iff_log_lt (R := ℚ) (b := 2) (by norm_num) (abs_pos.2 h0)]
      exact_mod_cast hx
    omega
  obtain ⟨j, hj⟩ : ∃ j : ℕ, Int.log 2 |x| - 52 = -(j : ℤ) := ⟨(52 - Int.log 2 |x|).toNat, by omega⟩
  have hup : ulp x * 2 ^ j = 1 := by
    unfold ulp; rw [hj, zpow_neg, zpow_natCast]; field_simp
  rw [fl_eq] at h4 ⊢
  have h5 : (rne (x / ulp x) : ℚ) * ulp x - n = ((rne (x / ulp x) - n * 2 ^ j : ℤ) : ℚ) * ulp x := by
    push_cast
    linear_combination (n : ℚ) * hup
  rw [h5, abs_mul, abs_of_pos hu] at h4
  have h6 : |((rne (x / ulp x) - n * 2 ^ j : ℤ) : ℚ)| < 1 := by
    by_contra hge
    push Not at hge
    nlinarith
  have h7 : rne (x / ulp x) - n * 2 ^ j = 0 := by
    have : |rne (x / ulp x) - n * 2 ^ j| < 1 := by exact_mod_cast h6
    exact Int.abs_lt_one_iff.1 this
  have h8 : rne (x / ulp x) = n * 2 ^ j := by omega
  rw [h8]; push_cast
  linear_combination (n : ℚ) * hup

theorem micro_deg_close {k : ℤ} (hk : FitsI32 k) :
    |fl (1000000 * Coord.degOfMicro k) - k| ≤ 1 / 100000 := by
  unfold Coord.degOfMicro
  set c := fl (1 / 1000000) with hc
  have hkq : |(k : ℚ)| ≤ 2147483648 := by
    have : |k| ≤ 2147483648 := by unfold FitsI32 at hk; rw [abs_le]; omega
    exact_mod_cast this
  have ec : |c - 1 / 1000000| ≤ 1 / 1000000 / 2 ^ 53 := by
    have := fl_err (1 / 1000000)
    rwa [abs_of_pos (show (0 : ℚ) < 1 / 1000000 by norm_num)] at this
  have cle : |c| ≤ 2 / 1000000 := by
    have := abs_le.1 ec
    rw [abs_le]
    constructor
    · have : (1 : ℚ) / 1000000 / 2 ^ 53 ≤ 1 / 1000000 := by norm_num
      linarith
    · have : (1 : ℚ) / 1000000 / 2 ^ 53 ≤ 1 / 1000000 := by norm_num
      linarith
  have e1 : |c * k - k / 1000000| ≤ 1 / 1000000000000 := by
    have : c * k - k / 1000000 = (c - 1 / 1000000) * k := by ring
    rw [this, abs_mul]
    calc |c - 1 / 1000000| * |(k : ℚ)| ≤ (1 / 1000000 / 2 ^ 53) * 2147483648 := by gcongr
      _ ≤ 1 / 1000000000000 := by norm_num
  have e2 : |fl (c * k) - c * k| ≤ 1 / 1000000000000 := by
    refine (fl_err _).trans ?_
    rw [abs_mul]
    calc |c| * |(k : ℚ)| / 2 ^ 53 ≤ 2 / 1000000 * 2147483648 / 2 ^ 53 := by gcongr
      _ ≤ 1 / 1000000000000 := by norm_num
  have e3 : |1000000 * fl (c * k) - k| ≤ 2 / 1000000 := by
    have h1 := abs_le.1 e1
    have h2 := abs_le.1 e2
    rw [abs_le]; constructor <;> linarith
  have e4 : |1000000 * fl (c * k)| ≤ 2147483649 := by
    have h1 := abs_le.1 e3
    have h2 := abs_le.1 hkq
    rw [abs_le]; constructor <;> linarith
  have e5 : |fl (1000000 * fl (c * k)) - 1000000 * fl (c * k)| ≤ 1 / 1000000 := by
    refine (fl_err _).trans ?_
    calc |1000000 * fl (c * k)| / 2 ^ 53 ≤ 2147483649 / 2 ^ 53 := by gcongr
      _ ≤ 1 / 1000000 := by norm_num
  have h1 := abs_le.1 e3
  have h2 := abs_le.1 e5
  rw [abs_le]; constructor <;> linarith

theorem cross_eq_zero_iff {a b : Coord} (ha : a ≠ ⟨0, 0⟩) :
    a.cross b = 0 ↔ ∃ k : ℚ, (b.lon : ℚ) = k * a.lon ∧ (b.lat : ℚ) = k * a.lat := by
  constructor
  · intro h
    have hq : (a.lon : ℚ) * b.lat = b.lon * a.lat := by
      have : a.lon * b.lat = b.lon * a.lat := by unfold Coord.cross at h; linarith
      exact_mod_cast this
    by_cases hx : a.lon = 0
    · have hy : a.lat ≠ 0 := by
        intro hy; apply ha; cases a; simp only [Coord.mk.injEq] at *; exact ⟨hx, hy⟩
      have hyq : (a.lat : ℚ) ≠ 0 := by exact_mod_cast hy
      refine ⟨b.lat / a.lat, ?_, by field_simp⟩
      rw [hx] at hq
      simp only [Int.cast_zero, zero_mul] at hq
      rw [hx]; simp only [Int.cast_zero, mul_zero]
      rcases mul_eq_zero.1 hq.symm with h | h
      · exact h
      · exact absurd h hyq
    · have hxq : (a.lon : ℚ) ≠ 0 := by exact_mod_cast hx
      refine ⟨b.lon / a.lon, by field_simp, ?_⟩
      field_simp; linarith
  · rintro ⟨k, h1, h2⟩
    have : ((a.cross b : ℤ) : ℚ) = 0 := by
      unfold Coord.cross; push_cast; rw [h1, h2]; ring
    exact_mod_cast this

theorem parallel_iff (a b : Coord) : a.parallel b = true ↔ a.cross b = 0 := by
  unfold Coord.parallel Coord.orient Coord.orientOfSign
  split_ifs <;> simp <;> omega

theorem Meets_symm {s t : Seg} (h : Meets s t) : Meets t s := by
  obtain ⟨x, y, h1, h2⟩ := h; exact ⟨x, y, h2, h1⟩

theorem OnSeg_rev {s : Seg} {x y : ℚ} (h : OnSeg s x y) : OnSeg ⟨s.q, s.p⟩ x y := by
  obtain ⟨t, h0, h1, hx, hy⟩ := h
  exact ⟨1 - t, by linarith, by linarith, by rw [hx]; ring, by rw [hy]; ring⟩

end Capi
