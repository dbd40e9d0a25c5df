import Verif.Model.Float64
import Mathlib.Tactic.Linarith
import Mathlib.Tactic.Ring
import Mathlib.Tactic.Positivity
import Mathlib.Tactic.FieldSimp
import Mathlib.Tactic.NormNum
import Mathlib.Algebra.Order.Field.Power

/-! # Facts about binary64 rounding -/

namespace Capi

theorem rne_err (x : ℚ) : |(rne x : ℚ) - x| ≤ 1 / 2 := by
  have h1 := Int.floor_le x
  have h2 := Int.lt_floor_add_one x
  unfold rne
  rw [abs_le]
  split_ifs with ha hb hc <;> push_cast <;> constructor <;> linarith

theorem rne_intCast (n : ℤ) : rne (n : ℚ) = n := by
  unfold rne
  simp

theorem rne_mono {x y : ℚ} (h : x ≤ y) : rne x ≤ rne y := by
  by_contra hlt
  push Not at hlt
  have hx := abs_le.1 (rne_err x)
  have hy := abs_le.1 (rne_err y)
  have hlt' : (rne y : ℚ) + 1 ≤ rne x := by exact_mod_cast hlt
  -- then x = y forces the same value
  have hxy : x = y := by linarith
  subst hxy
  exact lt_irrefl _ hlt

theorem rne_neg (x : ℚ) : rne (-x) = - rne x := by
  have hf1 := Int.floor_le x
  have hf2 := Int.lt_floor_add_one x
  by_cases hx : x = ⌊x⌋
  · have : rne x = ⌊x⌋ := by rw [hx]; simp [rne_intCast]
    rw [this]
    have h2 : (-x) = ((-⌊x⌋ : ℤ) : ℚ) := by push_cast; linarith
    rw [h2, rne_intCast]
  · have hlt : (⌊x⌋ : ℚ) < x := lt_of_le_of_ne hf1 (fun h => hx h.symm)
    have hfl : ⌊-x⌋ = -⌊x⌋ - 1 := by
      rw [Int.floor_eq_iff]; push_cast; constructor <;> linarith
    unfold rne
    rw [hfl]
    push_cast
    split_ifs <;> first | omega | (exfalso; linarith)

theorem ulp_pos (x : ℚ) : 0 < ulp x := by unfold ulp; positivity

theorem ulp_neg (x : ℚ) : ulp (-x) = ulp x := by simp [ulp]

theorem fl_zero : fl 0 = 0 := by simp [fl]

theorem fl_neg (x : ℚ) : fl (-x) = - fl x := by
  unfold fl
  by_cases h : x = 0
  · simp [h]
  · simp only [neg_eq_zero, h, if_false, ulp_neg]
    rw [neg_div, rne_neg]; push_cast; ring

theorem fl_eq (x : ℚ) : fl x = rne (x / ulp x) * ulp x := by
  unfold fl
  split_ifs with h
  · subst h
    have := rne_intCast 0
    simp at this
    simp [this]
  · rfl

theorem ulp_mul (x : ℚ) : ulp x * 2 ^ 52 = (2 : ℚ) ^ (Int.log 2 |x|) := by
  unfold ulp
  rw [zpow_sub₀ (by norm_num)]
  norm_num

theorem ulp_le {x : ℚ} (h : x ≠ 0) : ulp x * 2 ^ 52 ≤ |x| := by
  rw [ulp_mul]
  exact_mod_cast Int.zpow_log_le_self (b := 2) (by norm_num) (abs_pos.2 h)

theorem lt_ulp (x : ℚ) : |x| < ulp x * 2 ^ 53 := by
  have h := Int.lt_zpow_succ_log_self (R := ℚ) (b := 2) (by norm_num) |x|
  have h2 : ulp x * 2 ^ 53 = (2 : ℚ) ^ (Int.log 2 |x| + 1) := by
    rw [zpow_add₀ (by norm_num), ← ulp_mul]; norm_num; ring
  rw [h2]; exact_mod_cast h

/-- Half-ulp error. -/
theorem fl_err_ulp (x : ℚ) : |fl x - x| ≤ ulp x / 2 := by
  have hu := ulp_pos x
  rw [fl_eq]
  have h1 : rne (x / ulp x) * ulp x - x = (rne (x / ulp x) - x / ulp x) * ulp x := by
    field_simp
  rw [h1, abs_mul, abs_of_pos hu]
  have := rne_err (x / ulp x)
  nlinarith

/-- Relative error of rounding: at most `2^-53`. -/
theorem fl_err (x : ℚ) : |fl x - x| ≤ |x| / 2 ^ 53 := by
  by_cases h : x = 0
  · subst h; simp [fl_zero]
  · have h1 := fl_err_ulp x
    have h2 := ulp_le h
    have : ulp x / 2 ≤ |x| / 2 ^ 53 := by
      rw [le_div_iff₀ (by positivity)]
      linarith
    linarith

/-- `fl` is exact on values representable with a 53-bit significand. -/
theorem fl_exact (m : ℤ) (e : ℤ) (hm : |m| ≤ 2 ^ 53) : fl (m * 2 ^ e) = m * 2 ^ e := by
  by_cases h0 : m = 0
  · subst h0; simp [fl_zero]
  have h2e : (0 : ℚ) < 2 ^ e := by positivity
  set x : ℚ := m * 2 ^ e with hx
  have hx0 : x ≠ 0 := by
    rw [hx]; exact mul_ne_zero (by exact_mod_cast h0) (ne_of_gt h2e)
  have habs : |x| = |(m : ℚ)| * 2 ^ e := by rw [hx, abs_mul, abs_of_pos h2e]
  have hmq : |(m : ℚ)| ≤ 2 ^ 53 := by exact_mod_cast hm
  -- it is enough that x / ulp x is an integer
  suffices h : ∃ n : ℤ, x = n * ulp x by
    obtain ⟨n, hn⟩ := h
    rw [fl_eq]
    have : x / ulp x = n := by
      rw [div_eq_iff (ulp_pos x).ne']; exact hn
    rw [this, rne_intCast]; exact hn.symm
  by_cases hlog : Int.log 2 |x| - 52 ≤ e
  · refine ⟨m * 2 ^ (e - (Int.log 2 |x| - 52)).toNat, ?_⟩
    unfold ulp
    rw [hx]
    push_cast
    rw [mul_assoc, ← zpow_natCast, ← zpow_add₀ (by norm_num)]
    congr 2
    rw [← hx, Int.toNat_of_nonneg (by omega)]; ring
  · -- then |x| = 2^53 * 2^e exactly
    have hge : Int.log 2 |x| ≥ e + 53 := by omega
    have h3 : (2 : ℚ) ^ (e + 53) ≤ |x| := by
      have := Int.zpow_log_le_self (R := ℚ) (b := 2) (by norm_num) (abs_pos.2 hx0)
      refine le_trans ?_ (by exact_mod_cast this)
      exact zpow_le_zpow_right₀ (by norm_num) hge
    have h4 : |x| ≤ 2 ^ (e + 53) := by
      rw [habs, zpow_add₀ (by norm_num)]
      have : ((2 : ℚ) ^ (53 : ℤ)) = 2 ^ 53 := by norm_num
      rw [this]
      nlinarith
    have h5 : |x| = 2 ^ (e + 53) := le_antisymm h4 h3
    have hl : Int.log 2 |x| = e + 53 := by
      rw [h5]; exact_mod_cast Int.log_zpow (R := ℚ) (b := 2) (by norm_num) (e + 53)
    have hu : ulp x = 2 ^ (e + 1) := by
      unfold ulp; rw [hl]; congr 1; ring
    have hpow : |x| = 2 ^ 52 * ulp x := by
      rw [h5, hu, show e + 53 = (e + 1) + 52 by ring, zpow_add₀ (by norm_num)]
      norm_num; ring
    rcases abs_choice x with h | h
    · refine ⟨2 ^ 52, ?_⟩
      rw [h] at hpow
      push_cast
      exact hpow
    · refine ⟨-2 ^ 52, ?_⟩
      have : x = -|x| := by rw [h]; ring
      rw [hpow] at this
      push_cast
      linarith

theorem fl_int (n : ℤ) (h : |n| ≤ 2 ^ 53) : fl n = n := by
  have := fl_exact n 0 h
  simpa using this

theorem fl_pow2 (e : ℤ) : fl (2 ^ e) = 2 ^ e := by
  have := fl_exact 1 e (by norm_num)
  simpa using this

theorem fl_pos {x : ℚ} (h : 0 < x) : 0 < fl x := by
  have := abs_le.1 (fl_err x)
  rw [abs_of_pos h] at this
  have h2 : x / 2 ^ 53 < x := by
    rw [div_lt_iff₀ (by positivity)]; nlinarith
  linarith [this.1]

theorem fl_neg_of_neg {x : ℚ} (h : x < 0) : fl x < 0 := by
  have := fl_pos (x := -x) (by linarith)
  rw [fl_neg] at this; linarith

theorem fl_eq_zero_iff {x : ℚ} : fl x = 0 ↔ x = 0 := by
  constructor
  · intro h
    rcases lt_trichotomy x 0 with hx | hx | hx
    · exact absurd h (fl_neg_of_neg hx).ne
    · exact hx
    · exact absurd h (fl_pos hx).ne'
  · rintro rfl; exact fl_zero

theorem fl_pos_iff {x : ℚ} : 0 < fl x ↔ 0 < x := by
  constructor
  · intro h
    rcases lt_trichotomy x 0 with hx | hx | hx
    · exact absurd h (not_lt.2 (fl_neg_of_neg hx).le)
    · subst hx; simp [fl_zero] at h
    · exact hx
  · exact fl_pos

theorem fl_neg_iff {x : ℚ} : fl x < 0 ↔ x < 0 := by
  have := fl_pos_iff (x := -x)
  rw [fl_neg] at this
  constructor <;> intro h
  · linarith [this.1 (by linarith)]
  · linarith [this.2 (by linarith)]

private theorem fl_le_pow {x : ℚ} : fl x ≤ 2 ^ (Int.log 2 |x| + 1) := by
  have hu := ulp_pos x
  have h1 : |x| < ulp x * 2 ^ 53 := lt_ulp x
  have h2 : (2 : ℚ) ^ (Int.log 2 |x| + 1) = ulp x * 2 ^ 53 := by
    rw [zpow_add₀ (by norm_num), ← ulp_mul]; norm_num; ring
  rw [h2, fl_eq]
  have h3 : x / ulp x ≤ ((2 ^ 53 : ℤ) : ℚ) := by
    rw [div_le_iff₀ hu]; push_cast
    have := le_abs_self x
    linarith
  have h4 := rne_mono h3
  rw [rne_intCast] at h4
  have h5 : (rne (x / ulp x) : ℚ) ≤ 2 ^ 53 := by exact_mod_cast h4
  nlinarith

private theorem pow_le_fl {x : ℚ} (h : 0 < x) : 2 ^ (Int.log 2 |x|) ≤ fl x := by
  have hu := ulp_pos x
  rw [← ulp_mul, fl_eq]
  have h3 : ((2 ^ 52 : ℤ) : ℚ) ≤ x / ulp x := by
    rw [le_div_iff₀ hu]; push_cast
    have := ulp_le h.ne'
    rw [abs_of_pos h] at this
    linarith
  have h4 := rne_mono h3
  rw [rne_intCast] at h4
  have h5 : (2 : ℚ) ^ 52 ≤ (rne (x / ulp x) : ℚ) := by exact_mod_cast h4
  nlinarith

private theorem fl_mono_pos {x y : ℚ} (hx : 0 < x) (h : x ≤ y) : fl x ≤ fl y := by
  have hy : 0 < y := lt_of_lt_of_le hx h
  have hl : Int.log 2 |x| ≤ Int.log 2 |y| := by
    rw [abs_of_pos hx, abs_of_pos hy]
    exact Int.log_mono_right hx h
  rcases hl.lt_or_eq with hlt | heq
  · calc fl x ≤ 2 ^ (Int.log 2 |x| + 1) := fl_le_pow
      _ ≤ 2 ^ (Int.log 2 |y|) := zpow_le_zpow_right₀ (by norm_num) (by omega)
      _ ≤ fl y := pow_le_fl hy
  · have hu : ulp x = ulp y := by unfold ulp; rw [heq]
    rw [fl_eq, fl_eq, ← hu]
    have hup := ulp_pos x
    have : x / ulp x ≤ y / ulp x := by gcongr
    have := rne_mono this
    have h2 : (rne (x / ulp x) : ℚ) ≤ rne (y / ulp x) := by exact_mod_cast this
    nlinarith

theorem fl_mono {x y : ℚ} (h : x ≤ y) : fl x ≤ fl y := by
  rcases lt_trichotomy x 0 with hx | hx | hx
  · rcases lt_trichotomy y 0 with hy | hy | hy
    · have := fl_mono_pos (x := -y) (y := -x) (by linarith) (by linarith)
      rw [fl_neg, fl_neg] at this; linarith
    · subst hy; rw [fl_zero]; exact (fl_neg_of_neg hx).le
    · exact ((fl_neg_of_neg hx).trans (fl_pos hy)).le
  · subst hx; rw [fl_zero]
    rcases h.lt_or_eq with h | h
    · exact (fl_pos h).le
    · rw [← h, fl_zero]
  · exact fl_mono_pos hx h

/-- Two-sided multiplicative form of the rounding error. -/
theorem fl_bounds {x : ℚ} (h : 0 ≤ x) :
    x * (1 - 1 / 2 ^ 53) ≤ fl x ∧ fl x ≤ x * (1 + 1 / 2 ^ 53) := by
  have := abs_le.1 (fl_err x)
  rw [abs_of_nonneg h] at this
  constructor <;> [linarith [this.1]; linarith [this.2]]

/-- Evaluation rule used for concrete values: give the binade and the nearest integer. -/
theorem fl_eval {x : ℚ} (e : ℤ) (m : ℤ) (h1 : (2 : ℚ) ^ e ≤ |x|) (h2 : |x| < 2 ^ (e + 1))
    (h3 : rne (x / 2 ^ (e - 52)) = m) : fl x = m * 2 ^ (e - 52) := by
  have hx : 0 < |x| := lt_of_lt_of_le (by positivity) h1
  have hl : Int.log 2 |x| = e := by
    apply le_antisymm
    · have := (Int.lt_zpow_iff_log_lt (R := ℚ) (b := 2) (by norm_num) hx).1
        (by exact_mod_cast h2)
      omega
    · exact (Int.zpow_le_iff_le_log (R := ℚ) (b := 2) (by norm_num) hx).1 (by exact_mod_cast h1)
  rw [fl_eq, ulp, hl, h3]

/-- Rounding a double changes nothing. -/
theorem fl_idem (x : ℚ) : fl (fl x) = fl x := by
  have hu := ulp_pos x
  have hlt := lt_ulp x
  have hq : |x / ulp x| ≤ ((2 ^ 53 : ℤ) : ℚ) := by
    rw [abs_div, abs_of_pos hu, div_le_iff₀ hu]
    push_cast
    linarith
  rw [abs_le] at hq
  have h1 : |rne (x / ulp x)| ≤ 2 ^ 53 := by
    rw [abs_le]
    constructor
    · have := rne_mono hq.1
      rwa [rne_neg, rne_intCast] at this
    · have := rne_mono hq.2
      rwa [rne_intCast] at this
  rw [fl_eq x]
  exact fl_exact _ _ h1

end Capi
