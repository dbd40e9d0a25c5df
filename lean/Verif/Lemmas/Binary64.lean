import Verif.Model.Binary64
import Verif.Lemmas.Float64

/-!
# Doubles with their range
-/

namespace Capi

/-- Zero or of a size that binary64 represents with full precision. -/
def Normal (q : ℚ) : Prop := q = 0 ∨ ((2 : ℚ) ^ (-1022 : ℤ) ≤ |q| ∧ |q| ≤ 2 ^ (1023 : ℤ))

theorem fl_abs_le {x b : ℚ} (hb : fl b = b) (h : |x| ≤ b) : |fl x| ≤ b := by
  rw [abs_le] at h ⊢
  have h1 := fl_mono h.1
  have h2 := fl_mono h.2
  rw [fl_neg, hb] at h1
  rw [hb] at h2
  exact ⟨h1, h2⟩

theorem fl64_normal {q : ℚ} (h : Normal q) : fl64 q = .fin (fl q) := by
  rcases h with rfl | ⟨h1, h2⟩
  · simp [fl64, fl]
  · have hq : q ≠ 0 := by
      rintro rfl
      rw [abs_zero] at h1
      exact absurd h1 (not_le.2 (by positivity))
    have hlog : (-1022 : ℤ) ≤ Int.log 2 |q| :=
      (Int.zpow_le_iff_le_log (by norm_num) (abs_pos.2 hq)).1 (by exact_mod_cast h1)
    have hr : |fl q| ≤ 2 ^ (1023 : ℤ) := fl_abs_le (fl_pow2 _) h2
    have hlt : ¬ (2 : ℚ) ^ 1024 ≤ |fl q| := by
      rw [not_le]
      refine lt_of_le_of_lt hr ?_
      rw [← zpow_natCast]
      exact zpow_lt_zpow_right₀ (by norm_num) (by norm_num)
    have hu : (2 : ℚ) ^ (max (Int.log 2 |q| - 52) (-1074)) = ulp q := by
      unfold ulp; rw [max_eq_left (by omega)]
    unfold fl64
    rw [if_neg hq]
    simp only [hu, ← fl_eq]
    rw [if_neg hlt]

/-- A multiple of `2^-k`. -/
def OnGrid (k : ℕ) (q : ℚ) : Prop := ∃ m : ℤ, q = m / 2 ^ k

theorem OnGrid.neg {k : ℕ} {q : ℚ} (h : OnGrid k q) : OnGrid k (-q) := by
  obtain ⟨m, rfl⟩ := h
  exact ⟨-m, by push_cast; ring⟩

theorem OnGrid.add {k : ℕ} {q r : ℚ} (h : OnGrid k q) (h' : OnGrid k r) : OnGrid k (q + r) := by
  obtain ⟨m, rfl⟩ := h
  obtain ⟨n, rfl⟩ := h'
  exact ⟨m + n, by push_cast; ring⟩

theorem OnGrid.mul {k l : ℕ} {q r : ℚ} (h : OnGrid k q) (h' : OnGrid l r) :
    OnGrid (k + l) (q * r) := by
  obtain ⟨m, rfl⟩ := h
  obtain ⟨n, rfl⟩ := h'
  exact ⟨m * n, by push_cast; rw [pow_add]; field_simp⟩

theorem OnGrid.int (n : ℤ) : OnGrid 0 n := ⟨n, by simp⟩

theorem OnGrid.mono {k l : ℕ} {q : ℚ} (h : OnGrid k q) (hkl : k ≤ l) : OnGrid l q := by
  obtain ⟨m, rfl⟩ := h
  obtain ⟨d, rfl⟩ := Nat.exists_eq_add_of_le hkl
  exact ⟨m * 2 ^ d, by push_cast; rw [pow_add]; field_simp⟩

theorem OnGrid.le_abs {k : ℕ} {q : ℚ} (h : OnGrid k q) (h0 : q ≠ 0) : 1 / 2 ^ k ≤ |q| := by
  obtain ⟨m, rfl⟩ := h
  have hm : m ≠ 0 := by rintro rfl; simp at h0
  have : (1 : ℚ) ≤ |(m : ℚ)| := by exact_mod_cast Int.one_le_abs hm
  rw [abs_div, abs_of_pos (show (0 : ℚ) < 2 ^ k by positivity)]
  gcongr

theorem OnGrid.fl {k : ℕ} {q : ℚ} (h : OnGrid k q) : OnGrid k (fl q) := by
  rcases eq_or_ne q 0 with rfl | hq
  · rwa [fl_zero]
  obtain ⟨m, hm⟩ := h
  rcases le_or_gt (Int.log 2 |q| - 52) (-(k : ℤ)) with he | he
  · -- exact
    obtain ⟨d, hd⟩ := Int.eq_ofNat_of_zero_le (show 0 ≤ -(k : ℤ) - (Int.log 2 |q| - 52) by omega)
    have hu : q / ulp q = ((m * 2 ^ d : ℤ) : ℚ) := by
      unfold ulp
      rw [show Int.log 2 |q| - 52 = -(k : ℤ) - d by omega, zpow_sub₀ (by norm_num), zpow_neg,
        zpow_natCast, zpow_natCast]
      rw [hm]
      push_cast
      field_simp
    rw [fl_eq, hu, rne_intCast, ← hu, div_mul_cancel₀ _ (ulp_pos q).ne']
    exact ⟨m, hm⟩
  · obtain ⟨d, hd⟩ := Int.eq_ofNat_of_zero_le (show 0 ≤ (Int.log 2 |q| - 52) + k by omega)
    rw [fl_eq]
    refine ⟨rne (q / ulp q) * 2 ^ d, ?_⟩
    have hu : ulp q = 2 ^ d / 2 ^ k := by
      unfold ulp
      rw [show Int.log 2 |q| - 52 = d - (k : ℤ) by omega, zpow_sub₀ (by norm_num), zpow_natCast,
        zpow_natCast]
    rw [hu]
    push_cast
    ring

/-- A multiple of `2^-k` of size at most `b`. -/
def Fits (k : ℕ) (b q : ℚ) : Prop := OnGrid k q ∧ |q| ≤ b

namespace Fits

theorem neg {k : ℕ} {b q : ℚ} (h : Fits k b q) : Fits k b (-q) :=
  ⟨h.1.neg, by rw [abs_neg]; exact h.2⟩

theorem add {k : ℕ} {b c q r : ℚ} (h : Fits k b q) (h' : Fits k c r) : Fits k (b + c) (q + r) :=
  ⟨h.1.add h'.1, (abs_add_le q r).trans (add_le_add h.2 h'.2)⟩

theorem mul {k l : ℕ} {b c q r : ℚ} (h : Fits k b q) (h' : Fits l c r) :
    Fits (k + l) (b * c) (q * r) :=
  ⟨h.1.mul h'.1, by
    rw [abs_mul]; exact mul_le_mul h.2 h'.2 (abs_nonneg _) ((abs_nonneg _).trans h.2)⟩

theorem fl {k : ℕ} {b q : ℚ} (h : Fits k b q) (hb : Capi.fl b = b) : Fits k b (Capi.fl q) :=
  ⟨h.1.fl, fl_abs_le hb h.2⟩

theorem mono {k : ℕ} {b c q : ℚ} (h : Fits k b q) (hbc : b ≤ c) : Fits k c q :=
  ⟨h.1, h.2.trans hbc⟩

theorem normal {k : ℕ} {b q : ℚ} (h : Fits k b q) (hk : k ≤ 1022) (hb : b ≤ 2 ^ (1023 : ℤ)) :
    Normal q := by
  rcases eq_or_ne q 0 with h0 | h0
  · exact Or.inl h0
  · refine Or.inr ⟨le_trans ?_ (h.1.le_abs h0), h.2.trans hb⟩
    rw [one_div, ← zpow_natCast, ← zpow_neg]
    exact zpow_le_zpow_right₀ (by norm_num) (by omega)

end Fits

/-! ### Values outside the normal range -/

theorem trunc_tiny {r : ℚ} (h : |r| < 1) : truncZ r = 0 := by
  rw [abs_lt] at h
  unfold truncZ
  split_ifs with h0
  · rw [Int.floor_eq_iff]; push_cast; exact ⟨h0, by linarith⟩
  · rw [Int.ceil_eq_iff]; push_cast; exact ⟨by linarith, by linarith⟩

theorem round_tiny {r : ℚ} (h : |r| < 1 / 2) : roundHalfAway r = 0 := by
  rw [abs_lt] at h
  unfold roundHalfAway
  split_ifs with h0
  · rw [Int.floor_eq_iff]; push_cast; exact ⟨by linarith, by linarith⟩
  · rw [Int.ceil_eq_iff]; push_cast; exact ⟨by linarith, by linarith⟩

theorem tiny_lt {e : ℤ} (h : e ≤ -1000) : (2 : ℚ) ^ e < 1 / 2 ^ 100 := by
  rw [one_div, ← zpow_natCast, ← zpow_neg]
  exact zpow_lt_zpow_right₀ (by norm_num) (by push_cast; omega)

/-- Below the normal range the result is close to zero. -/
theorem fl64_tiny {q : ℚ} (h0 : q ≠ 0) (h : |q| < (2 : ℚ) ^ (-1022 : ℤ)) :
    (∃ r, fl64 q = .fin r ∧ |r| < 1 / 2) ∧ |fl q| < 1 / 2 := by
  have hq := tiny_lt (show (-1022 : ℤ) ≤ -1000 by norm_num)
  constructor
  · have hlog : Int.log 2 |q| < -1022 :=
      (Int.lt_zpow_iff_log_lt (by norm_num) (abs_pos.2 h0)).1 (by exact_mod_cast h)
    have hu : max (Int.log 2 |q| - 52) (-1074) = -1074 := max_eq_right (by omega)
    unfold fl64
    rw [if_neg h0]
    simp only [hu]
    set u : ℚ := 2 ^ (-1074 : ℤ) with hud
    have hu0 : 0 < u := by positivity
    have hu1 : u < 1 / 2 ^ 100 := tiny_lt (by norm_num)
    have hr : |(rne (q / u) : ℚ) * u| < 1 / 2 := by
      have e := rne_err (q / u)
      have e1 : (rne (q / u) : ℚ) * u - q = (rne (q / u) - q / u) * u := by field_simp
      have e2 : |(rne (q / u) : ℚ) * u - q| ≤ 1 / 2 * u := by
        rw [e1, abs_mul, abs_of_pos hu0]
        exact mul_le_mul_of_nonneg_right e hu0.le
      have e3 := abs_sub_abs_le_abs_sub ((rne (q / u) : ℚ) * u) q
      have : (1 : ℚ) / 2 ^ 100 < 1 / 8 := by norm_num
      linarith
    rw [if_neg]
    · exact ⟨_, rfl, hr⟩
    · rw [not_le]
      refine hr.trans (lt_of_lt_of_le (by norm_num) (one_le_pow₀ (by norm_num)))
  · have e := fl_err q
    have e3 := abs_sub_abs_le_abs_sub (fl q) q
    have e4 : |q| / 2 ^ 53 ≤ |q| := div_le_self (abs_nonneg _) (by norm_num)
    have : (1 : ℚ) / 2 ^ 100 < 1 / 8 := by norm_num
    linarith

/-- Above the normal range the result is infinite or very large. -/
theorem fl64_huge {q : ℚ} (h : (2 : ℚ) ^ (1023 : ℤ) < |q|) :
    ((∃ s, fl64 q = .inf s) ∨ fl64 q = .fin (fl q)) ∧ (2 : ℚ) ^ (1023 : ℤ) ≤ |fl q| := by
  have hq : q ≠ 0 := by
    rintro rfl
    rw [abs_zero] at h
    exact absurd h (not_lt.2 (by positivity))
  constructor
  · have hlog : (1023 : ℤ) ≤ Int.log 2 |q| :=
      (Int.zpow_le_iff_le_log (by norm_num) (abs_pos.2 hq)).1 (by exact_mod_cast h.le)
    have hu : (2 : ℚ) ^ (max (Int.log 2 |q| - 52) (-1074)) = ulp q := by
      unfold ulp; rw [max_eq_left (by omega)]
    unfold fl64
    rw [if_neg hq]
    simp only [hu, ← fl_eq]
    split_ifs
    · exact Or.inl ⟨_, rfl⟩
    · exact Or.inr rfl
  · have e := fl_pow2 1023
    rcases abs_cases q with ⟨h1, _⟩ | ⟨h1, _⟩
    · rw [h1] at h
      have := fl_mono h.le
      rw [e] at this
      exact this.trans (le_abs_self _)
    · rw [h1] at h
      have := fl_mono h.le
      rw [e, fl_neg] at this
      exact this.trans (neg_le_abs _)

theorem huge_gt : (2 : ℚ) ^ 40 ≤ 2 ^ (1023 : ℤ) := by
  rw [← zpow_natCast]
  exact zpow_le_zpow_right₀ (by norm_num) (by norm_num)

theorem chk32_far {k : ℤ} {r : ℚ} (hr : (2 : ℚ) ^ 40 ≤ |r|) (h : |(k : ℚ) - r| ≤ 1) :
    chk32 k = .error .ub := by
  unfold chk32
  rw [if_neg]
  rintro ⟨h1, h2⟩
  have h1' : (-2147483648 : ℚ) ≤ k := by exact_mod_cast h1
  have h2' : (k : ℚ) ≤ 2147483647 := by exact_mod_cast h2
  rw [abs_le] at h
  rcases abs_cases r with ⟨e, _⟩ | ⟨e, _⟩ <;> rw [e] at hr <;> norm_num at hr <;> linarith [h.1, h.2]

theorem trunc_off (r : ℚ) : |(truncZ r : ℚ) - r| ≤ 1 := by
  unfold truncZ
  split_ifs
  · rw [abs_le]; constructor <;> linarith [Int.floor_le r, Int.lt_floor_add_one r]
  · rw [abs_le]; constructor <;> linarith [Int.le_ceil r, Int.ceil_lt_add_one r]

theorem round_off (r : ℚ) : |(roundHalfAway r : ℚ) - r| ≤ 1 := by
  unfold roundHalfAway
  split_ifs
  · rw [abs_le]
    constructor <;> linarith [Int.floor_le (r + 1 / 2), Int.lt_floor_add_one (r + 1 / 2)]
  · rw [abs_le]
    constructor <;> linarith [Int.le_ceil (r - 1 / 2), Int.ceil_lt_add_one (r - 1 / 2)]

theorem normal_cases (q : ℚ) : Normal q ∨ (q ≠ 0 ∧ |q| < (2 : ℚ) ^ (-1022 : ℤ)) ∨
    (2 : ℚ) ^ (1023 : ℤ) < |q| := by
  rcases eq_or_ne q 0 with h | h
  · exact Or.inl (Or.inl h)
  rcases lt_or_ge |q| ((2 : ℚ) ^ (-1022 : ℤ)) with h1 | h1
  · exact Or.inr (Or.inl ⟨h, h1⟩)
  rcases lt_or_ge ((2 : ℚ) ^ (1023 : ℤ)) |q| with h2 | h2
  · exact Or.inr (Or.inr h2)
  · exact Or.inl (Or.inr ⟨h1, h2⟩)

/-- Casting a rounded value to `int32_t` does not depend on the range of the exponent. -/
theorem toInt_fl64 (q : ℚ) : (fl64 q).toInt = chk32 (truncZ (fl q)) := by
  rcases normal_cases q with h | ⟨h0, h⟩ | h
  · rw [fl64_normal h]; rfl
  · obtain ⟨⟨r, hr, h1⟩, h2⟩ := fl64_tiny h0 h
    rw [hr]
    show chk32 (truncZ r) = _
    rw [trunc_tiny (by linarith), trunc_tiny (by linarith)]
  · obtain ⟨h1, h2⟩ := fl64_huge h
    have : chk32 (truncZ (fl q)) = .error .ub := chk32_far (huge_gt.trans h2) (trunc_off _)
    rcases h1 with ⟨s, h1⟩ | h1
    · rw [h1, this]; rfl
    · rw [h1]; rfl

theorem roundInt_fl64 (q : ℚ) : (fl64 q).roundInt = chk32 (roundHalfAway (fl q)) := by
  rcases normal_cases q with h | ⟨h0, h⟩ | h
  · rw [fl64_normal h]; rfl
  · obtain ⟨⟨r, hr, h1⟩, h2⟩ := fl64_tiny h0 h
    rw [hr]
    show chk32 (roundHalfAway r) = _
    rw [round_tiny h1, round_tiny h2]
  · obtain ⟨h1, h2⟩ := fl64_huge h
    have : chk32 (roundHalfAway (fl q)) = .error .ub := chk32_far (huge_gt.trans h2) (round_off _)
    rcases h1 with ⟨s, h1⟩ | h1
    · rw [h1, this]; rfl
    · rw [h1]; rfl

end Capi
