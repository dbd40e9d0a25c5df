import Verif.Lemmas.Rounding

/-!
# C68: rounding

The rounding of the model is the one IEEE 754 prescribes.
-/

namespace Capi

/-- **C68** `fl x` is the number with 53 binary digits nearest to `x`, and of two the one that ends in
zero; no other number is. -/
theorem C68_nearest (x y : ℚ) : fl x = y ↔ Rounds 53 (fun _ => True) x y := by
  have key : Rounds 53 (fun _ => True) x (fl x) := by
    rw [fl_eq]
    unfold ulp
    by_cases h0 : x = 0
    · subst h0
      simp only [zero_div]
      have e : rne 0 = 0 := by simpa using rne_intCast 0
      rw [e]
      refine ⟨⟨0, 0, trivial, by norm_num, by norm_num⟩, fun z _ => by simp, ?_⟩
      intro z _ hz
      left
      simpa using hz
    · refine rounds_unit (by norm_num) (fun _ _ => trivial) trivial ?_ (Or.inl ?_)
      · have := lt_ulp x
        unfold ulp at this
        rwa [mul_comm]
      · have := ulp_le h0
        unfold ulp at this
        rwa [mul_comm]
  exact ⟨fun h => h ▸ key, fun h => key.unique (by norm_num) h⟩

/-- Non-vacuity: half way between two neighbours the even one is taken, whichever side it is on. -/
example : fl (2 ^ 53 + 1) = 2 ^ 53 ∧ fl (2 ^ 53 + 3) = 2 ^ 53 + 4 ∧
    Rounds 53 (fun _ => True) (2 ^ 53 + 3) (2 ^ 53 + 4) := by
  have h : fl (2 ^ 53 + 3) = 2 ^ 53 + 4 := by decide +kernel
  exact ⟨by decide +kernel, h, (C68_nearest _ _).1 h⟩

theorem rounds64 (x : ℚ) (h0 : x ≠ 0) : Rounds 53 (fun e => -1074 ≤ e) x
    (rne (x / 2 ^ (max (Int.log 2 |x| - 52) (-1074))) * 2 ^ (max (Int.log 2 |x| - 52) (-1074))) := by
  refine rounds_unit (by norm_num) (fun e he => by omega) (le_max_right _ _) ?_ ?_
  · have := lt_ulp x
    unfold ulp at this
    refine lt_of_lt_of_le this ?_
    rw [mul_comm]
    have : (2 : ℚ) ^ (Int.log 2 |x| - 52) ≤ 2 ^ (max (Int.log 2 |x| - 52) (-1074)) :=
      zpow_le_zpow_right₀ (by norm_num) (le_max_left _ _)
    linarith
  · rcases le_total (-1074) (Int.log 2 |x| - 52) with h | h
    · left
      rw [max_eq_left h]
      have := ulp_le h0
      unfold ulp at this
      rwa [mul_comm]
    · right
      rw [max_eq_right h]
      exact fun e he => he

/-- **C68** With the limits of the format: the last place is at least `2 ^ -1074`, and the result is
finite if it is below `2 ^ 1024`. -/
theorem C68_nearest64 (x y : ℚ) :
    fl64 x = .fin y ↔ Rounds 53 (fun e => -1074 ≤ e) x y ∧ |y| < 2 ^ 1024 := by
  by_cases h0 : x = 0
  · subst h0
    have z : Rounds 53 (fun e => -1074 ≤ e) 0 0 :=
      ⟨⟨0, 0, by norm_num, by norm_num, by norm_num⟩, fun z _ => by simp, fun z _ hz => by
        left; simpa using hz⟩
    have e : fl64 0 = .fin 0 := by simp [fl64]
    rw [e, F64.fin.injEq]
    constructor
    · rintro rfl
      exact ⟨z, by rw [abs_zero]; positivity⟩
    · exact fun h => z.unique (by norm_num) h.1
  · have key := rounds64 x h0
    unfold fl64
    rw [if_neg h0]
    dsimp only
    set r : ℚ := rne (x / 2 ^ (max (Int.log 2 |x| - 52) (-1074))) *
      2 ^ (max (Int.log 2 |x| - 52) (-1074))
    by_cases hr : 2 ^ 1024 ≤ |r|
    · rw [if_pos hr]
      constructor
      · intro h; cases h
      · rintro ⟨h, h'⟩
        rw [← key.unique (by norm_num) h] at h'
        exact absurd hr (not_le.2 h')
    · rw [if_neg hr, F64.fin.injEq]
      push Not at hr
      constructor
      · rintro rfl
        exact ⟨key, hr⟩
      · exact fun h => key.unique (by norm_num) h.1

theorem rne_abs (x : ℚ) : |rne x| = rne |x| := by
  have h0 : rne 0 = 0 := by simpa using rne_intCast 0
  rcases le_total 0 x with h | h
  · have := rne_mono h
    rw [h0] at this
    rw [abs_of_nonneg h, abs_of_nonneg this]
  · have := rne_mono h
    rw [h0] at this
    rw [abs_of_nonpos h, abs_of_nonpos this, rne_neg]

theorem rne_ge {n : ℤ} (hn : n % 2 = 0) (t : ℚ) : n ≤ rne t ↔ (n : ℚ) - 1 / 2 ≤ t := by
  constructor
  · intro h
    have h1 := (abs_le.1 (rne_err t)).2
    have h2 : (n : ℚ) ≤ rne t := by exact_mod_cast h
    linarith
  · intro h
    have h1 := rne_mono h
    have hf : ⌊(n : ℚ) - 1 / 2⌋ = n - 1 := by
      rw [Int.floor_eq_iff]; push_cast; constructor <;> linarith
    have : rne ((n : ℚ) - 1 / 2) = n := by
      unfold rne
      rw [hf, if_neg (by push_cast; linarith), if_neg (by push_cast; linarith), if_neg (by omega)]
      ring
    rwa [this] at h1

theorem rne_sign {x : ℚ} (h : rne x ≠ 0) : rne x < 0 ↔ x < 0 := by
  have h0 : rne 0 = 0 := by simpa using rne_intCast 0
  constructor
  · intro h1
    by_contra h2
    have := rne_mono (not_lt.1 h2)
    omega
  · intro h1
    have := rne_mono h1.le
    omega

theorem two_split (n : ℕ) {a b : ℤ} (h : b + n = a) : (2 : ℚ) ^ a = ((2 ^ n : ℤ) : ℚ) * 2 ^ b := by
  rw [← h, zpow_add₀ (by norm_num), zpow_natCast, Int.cast_pow, Int.cast_ofNat, mul_comm]

/-- **C68** The result is infinite from half a unit above the largest finite number on, with the sign
of the argument. -/
theorem C68_overflow (x : ℚ) (s : Bool) :
    fl64 x = .inf s ↔ 2 ^ 1024 - 2 ^ 970 ≤ |x| ∧ (s = true ↔ x < 0) := by
  have c1 : (2 : ℚ) ^ 1024 = 2 ^ (1024 : ℤ) := (zpow_natCast _ _).symm
  have c2 : (2 : ℚ) ^ 970 = 2 ^ (970 : ℤ) := (zpow_natCast _ _).symm
  have c3 : (2 : ℚ) ^ (1023 : ℤ) < 2 ^ (1024 : ℤ) - 2 ^ (970 : ℤ) := by
    have e1 : (2 : ℚ) ^ (1023 : ℤ) = 2 ^ 53 * 2 ^ (970 : ℤ) := by
      rw [← zpow_natCast, ← zpow_add₀ (by norm_num)]; norm_num
    have e2 : (2 : ℚ) ^ (1024 : ℤ) = 2 ^ 54 * 2 ^ (970 : ℤ) := by
      rw [← zpow_natCast, ← zpow_add₀ (by norm_num)]; norm_num
    have p : (0 : ℚ) < 2 ^ (970 : ℤ) := by positivity
    rw [e1, e2]
    generalize (2 : ℚ) ^ (970 : ℤ) = p at p
    linarith
  have c4 : (2 : ℚ) ^ (1023 : ℤ) < 2 ^ (1024 : ℤ) := zpow_lt_zpow_right₀ (by norm_num) (by norm_num)
  by_cases h0 : x = 0
  · subst h0
    have e : fl64 0 = .fin 0 := by simp [fl64]
    rw [e]
    constructor
    · intro h; cases h
    · rintro ⟨h, -⟩
      rw [abs_zero, c1, c2] at h
      exact absurd (c3.trans_le h) (not_lt.2 (by positivity))
  · unfold fl64
    rw [if_neg h0]
    dsimp only
    have hlo : (2 : ℚ) ^ (Int.log 2 |x|) ≤ |x| := by
      exact_mod_cast Int.zpow_log_le_self (b := 2) (by norm_num) (abs_pos.2 h0)
    have hhi : |x| < (2 : ℚ) ^ (Int.log 2 |x| + 1) := by
      exact_mod_cast Int.lt_zpow_succ_log_self (R := ℚ) (b := 2) (by norm_num) |x|
    generalize hL : Int.log 2 |x| = L at hlo hhi ⊢
    generalize hk : max (L - 52) (-1074) = k
    have hu : (0 : ℚ) < 2 ^ k := by positivity
    have habs : |(rne (x / 2 ^ k) : ℚ) * 2 ^ k| = rne (|x| / 2 ^ k) * 2 ^ k := by
      rw [abs_mul, abs_of_pos hu, ← Int.cast_abs, rne_abs, abs_div, abs_of_pos hu]
    have big : 2 ^ 1024 ≤ |(rne (x / 2 ^ k) : ℚ) * 2 ^ k| ↔ 2 ^ 1024 - 2 ^ 970 ≤ |x| := by
      rw [habs, c1, c2]
      rcases lt_trichotomy L 1023 with h | h | h
      · have hx : |x| < 2 ^ (1023 : ℤ) :=
          lt_of_lt_of_le hhi (zpow_le_zpow_right₀ (by norm_num) (by omega))
        have hkl : k ≤ 1023 := by omega
        have hn : |x| / 2 ^ k ≤ ((2 ^ (1023 - k).toNat : ℤ) : ℚ) := by
          rw [div_le_iff₀ hu]
          rw [← two_split (1023 - k).toNat (a := 1023) (by omega)]
          exact hx.le
        have := rne_mono hn
        rw [rne_intCast] at this
        have hr : (rne (|x| / 2 ^ k) : ℚ) * 2 ^ k ≤ 2 ^ (1023 : ℤ) := by
          have h' : (rne (|x| / 2 ^ k) : ℚ) ≤ ((2 ^ (1023 - k).toNat : ℤ) : ℚ) := by exact_mod_cast this
          refine (mul_le_mul_of_nonneg_right h' hu.le).trans (le_of_eq ?_)
          exact (two_split (1023 - k).toNat (by omega)).symm
        exact ⟨fun h' => absurd (c4.trans_le (h'.trans hr)) (lt_irrefl _),
          fun h' => absurd ((c3.trans_le h').trans hx) (lt_irrefl _)⟩
      · have hk' : k = 971 := by omega
        rw [hk'] at hu ⊢
        have e2 : (2 : ℚ) ^ (1024 : ℤ) = ((2 ^ 53 : ℤ) : ℚ) * 2 ^ (971 : ℤ) :=
          two_split 53 (by norm_num)
        have e3 : (2 : ℚ) ^ (970 : ℤ) = 1 / 2 * 2 ^ (971 : ℤ) := by
          rw [show (971 : ℤ) = 970 + 1 by norm_num, zpow_add_one₀ (by norm_num)]; ring
        rw [e2, e3, ← sub_mul, mul_le_mul_iff_left₀ hu, ← le_div_iff₀ hu, Int.cast_le]
        exact rne_ge (by norm_num) _
      · have hk' : k = L - 52 := by omega
        have h1 : (2 : ℚ) ^ (1024 : ℤ) ≤ 2 ^ L := zpow_le_zpow_right₀ (by norm_num) (by omega)
        have p : (0 : ℚ) < 2 ^ (970 : ℤ) := by positivity
        refine ⟨fun _ => (sub_le_self _ p.le).trans (h1.trans hlo), fun _ => ?_⟩
        have hn : (((2 : ℤ) ^ 52 : ℤ) : ℚ) ≤ |x| / 2 ^ k := by
          rw [le_div_iff₀ hu, ← two_split 52 (a := L) (by omega)]
          exact hlo
        have := rne_mono hn
        rw [rne_intCast] at this
        have h' : (((2 : ℤ) ^ 52 : ℤ) : ℚ) ≤ rne (|x| / 2 ^ k) := by exact_mod_cast this
        refine h1.trans (le_trans (le_of_eq ?_) (mul_le_mul_of_nonneg_right h' hu.le))
        exact two_split 52 (by omega)
    rw [← big]
    split_ifs with hb
    · rw [F64.inf.injEq]
      have hne : rne (x / 2 ^ k) ≠ 0 := by
        intro e
        rw [e, Int.cast_zero, zero_mul, abs_zero] at hb
        exact absurd hb (not_le.2 (by positivity))
      have hs : (rne (x / 2 ^ k) : ℚ) * 2 ^ k < 0 ↔ x < 0 := by
        rw [mul_neg_iff, Int.cast_lt_zero, rne_sign hne]
        have e1 : x / 2 ^ k < 0 ↔ x < 0 := div_neg_iff.trans (by simp [hu, not_lt.2 hu.le])
        rw [e1]
        simp [hu, not_lt.2 hu.le]
      constructor
      · rintro rfl
        refine ⟨hb, ?_⟩
        rw [decide_eq_true_eq]
        exact hs
      · rintro ⟨-, h⟩
        rw [← hs] at h
        cases s
        · simpa using h
        · simpa using h
    · constructor
      · intro h; cases h
      · exact fun h => absurd h.1 hb

/-- Non-vacuity: the least number that is rounded to infinity, one just below it, and half of the
smallest subnormal number, which is rounded to the even zero. -/
example : fl64 (2 ^ 1024 - 2 ^ 970) = .inf false ∧ fl64 (2 ^ 970 - 2 ^ 1024) = .inf true ∧
    fl64 (2 ^ 1024 - 2 ^ 970 - 1) = .fin (2 ^ 1024 - 2 ^ 971) ∧ fl64 (1 / 2 ^ 1075) = .fin 0 ∧
    fl64 (3 / 2 ^ 1075) = .fin (2 / 2 ^ 1074) := by
  decide +kernel

end Capi
