import Verif.Lemmas.Rounding
import Verif.Model.Progress
import Verif.Spec.Progress

/-!
# Lemmas about the progress bar
-/

namespace Capi

theorem Rounds.mono {p : ℕ} (hp : 2 ≤ p) {ok : ℤ → Prop} {x y a b : ℚ} (h : x ≤ y)
    (hx : Rounds p ok x a) (hy : Rounds p ok y b) : a ≤ b := by
  by_contra hc
  push Not at hc
  have h1 := hx.nearest b hy.digits
  have h2 := hy.nearest a hx.digits
  have hxy : x = y := by
    by_contra hne
    have hlt : x < y := lt_of_le_of_ne h hne
    rcases abs_cases (x - a) with ⟨e1, _⟩ | ⟨e1, _⟩ <;> rcases abs_cases (x - b) with ⟨e2, _⟩ | ⟨e2, _⟩ <;>
    rcases abs_cases (y - a) with ⟨e3, _⟩ | ⟨e3, _⟩ <;> rcases abs_cases (y - b) with ⟨e4, _⟩ | ⟨e4, _⟩ <;>
    rw [e1, e2] at h1 <;> rw [e3, e4] at h2 <;> linarith
  subst hxy
  rw [hx.unique hp hy] at hc
  exact lt_irrefl _ hc

theorem Rounds.le_two {p : ℕ} {ok : ℤ → Prop} (h0 : ∃ e, ok e) {x y : ℚ}
    (h : Rounds p ok x y) : |y| ≤ 2 * |x| := by
  obtain ⟨e, he⟩ := h0
  have := h.nearest 0 ⟨0, e, he, by rw [abs_zero]; positivity, by simp⟩
  rw [sub_zero] at this
  have h2 := abs_sub_abs_le_abs_sub y x
  rw [abs_sub_comm] at h2
  linarith

/-- `2 ^ l` for the binade. -/
theorem log_bounds {x : ℚ} (h0 : x ≠ 0) :
    (2 : ℚ) ^ (Int.log 2 |x|) ≤ |x| ∧ |x| < 2 ^ (Int.log 2 |x| + 1) :=
  ⟨by exact_mod_cast Int.zpow_log_le_self (b := 2) (by norm_num) (abs_pos.2 h0),
    by exact_mod_cast Int.lt_zpow_succ_log_self (b := 2) (by norm_num) |x|⟩

theorem round32_rounds (x : ℚ) : Rounds 24 (fun e => -149 ≤ e) x (round32 x) := by
  unfold round32
  by_cases h0 : x = 0
  · subst h0
    rw [if_pos rfl]
    exact ⟨⟨0, 0, by norm_num, by norm_num, by norm_num⟩, fun z _ => by simp, fun z _ hz => by
      left; simpa using hz⟩
  rw [if_neg h0]
  obtain ⟨l1, l2⟩ := log_bounds h0
  generalize Int.log 2 |x| = l at *
  refine rounds_unit (by norm_num) (fun e he => by omega) (le_max_right _ _) ?_ ?_
  · refine lt_of_lt_of_le l2 ?_
    have e : (2 : ℚ) ^ (l + 1) = 2 ^ 24 * 2 ^ (l - 23) := by
      rw [← zpow_natCast, ← zpow_add₀ (by norm_num)]
      congr 1
      push_cast
      ring
    rw [e]
    exact mul_le_mul_of_nonneg_left (zpow_le_zpow_right₀ (by norm_num) (le_max_left _ _)) (by norm_num)
  · rcases le_total (-149) (l - 23) with h | h
    · left
      rw [max_eq_left h]
      refine le_of_eq_of_le ?_ l1
      rw [← zpow_natCast, ← zpow_add₀ (by norm_num)]
      congr 1
      push_cast
      ring
    · right
      rw [max_eq_right h]
      exact fun e he => he

theorem round32_mono {x y : ℚ} (h : x ≤ y) : round32 x ≤ round32 y :=
  (round32_rounds x).mono (by norm_num) h (round32_rounds y)

theorem round32_abs (x : ℚ) : |round32 x| ≤ 2 * |x| :=
  (round32_rounds x).le_two ⟨0, by norm_num⟩

theorem round32_exact {m e : ℤ} (he : -149 ≤ e) (hm : |m| < 2 ^ 24) :
    round32 (m * 2 ^ e) = m * 2 ^ e := by
  have := (round32_rounds (m * 2 ^ e)).nearest _ ⟨m, e, he, hm, rfl⟩
  rw [sub_self, abs_zero] at this
  have := abs_nonpos_iff.1 this
  linarith

theorem round32_int {n : ℤ} (h : |n| < 2 ^ 24) : round32 n = n := by
  have := round32_exact (m := n) (e := 0) (by norm_num) h
  simpa using this

theorem round32_half {x : ℚ} (h : 1 ≤ x) : x / 2 ≤ round32 x := by
  have h0 : x ≠ 0 := by linarith
  obtain ⟨l1, l2⟩ := log_bounds h0
  rw [abs_of_nonneg (by linarith)] at l1 l2
  have hl : 0 ≤ Int.log 2 x := by
    have := Int.log_mono_right (b := 2) (by norm_num) h
    simpa using this
  have e := round32_exact (m := 1) (e := Int.log 2 x) (by omega) (by norm_num)
  rw [Int.cast_one, one_mul] at e
  have := round32_mono l1
  rw [e] at this
  rw [zpow_add_one₀ (by norm_num)] at l2
  linarith

theorem fl32_fin {x : ℚ} (h : |x| ≤ 2 ^ 120) : fl32 x = .fin (round32 x) := by
  unfold fl32
  rw [if_neg]
  have := round32_abs x
  push Not
  calc |round32 x| ≤ 2 * |x| := this
    _ ≤ 2 * 2 ^ 120 := by linarith
    _ < 2 ^ 128 := by norm_num

theorem round32_zero : round32 0 = 0 := by simp [round32]

/-- The value whose integer part is the position, for a ratio. -/
def Progress.scaled (x : ℚ) : ℚ := fl (round32 (round32 (fl (fl x * 100)) * 50) / 100)

theorem scaled_mono {x y : ℚ} (h : x ≤ y) : Progress.scaled x ≤ Progress.scaled y := by
  unfold Progress.scaled
  refine fl_mono (div_le_div_of_nonneg_right (round32_mono ?_) (by norm_num))
  refine mul_le_mul_of_nonneg_right (round32_mono (fl_mono ?_)) (by norm_num)
  exact mul_le_mul_of_nonneg_right (fl_mono h) (by norm_num)

/-- Zero, or between the given powers of two. -/
def Span (a b : ℤ) (q : ℚ) : Prop := q = 0 ∨ (2 : ℚ) ^ a ≤ q ∧ q ≤ 2 ^ b

namespace Span

variable {a b : ℤ} {q : ℚ}

theorem nonneg (h : Span a b q) : 0 ≤ q := by
  rcases h with rfl | ⟨h, -⟩
  · exact le_rfl
  · exact le_trans (by positivity) h

theorem le (h : Span a b q) : q ≤ 2 ^ b := by
  rcases h with rfl | ⟨-, h⟩
  · positivity
  · exact h

theorem fl (h : Span a b q) : Span a b (fl q) := by
  rcases h with rfl | ⟨h1, h2⟩
  · exact Or.inl fl_zero
  · have h1 := fl_mono h1
    have h2 := fl_mono h2
    rw [fl_pow2] at h1 h2
    exact Or.inr ⟨h1, h2⟩

theorem fl64 (h : Span a b q) (ha : -1022 ≤ a) (hb : b ≤ 1023) : fl64 q = .fin (Capi.fl q) := by
  refine fl64_normal ?_
  rcases h with rfl | ⟨h1, h2⟩
  · exact Or.inl rfl
  · refine Or.inr ⟨?_, ?_⟩
    · rw [abs_of_nonneg (le_trans (by positivity) h1)]
      exact le_trans (zpow_le_zpow_right₀ (by norm_num) ha) h1
    · rw [abs_of_nonneg (le_trans (by positivity) h1)]
      exact le_trans h2 (zpow_le_zpow_right₀ (by norm_num) hb)

theorem round32 (h : Span a b q) (ha : -149 ≤ a) (hab : -149 ≤ b) : Span a b (round32 q) := by
  rcases h with rfl | ⟨h1, h2⟩
  · exact Or.inl round32_zero
  · have h1 := round32_mono h1
    have h2 := round32_mono h2
    have e : ∀ c : ℤ, -149 ≤ c → Capi.round32 (2 ^ c) = 2 ^ c := fun c hc => by
      have := round32_exact (m := 1) hc (by norm_num)
      simpa using this
    rw [e _ ha] at h1
    rw [e _ hab] at h2
    exact Or.inr ⟨h1, h2⟩

theorem fl32 (h : Span a b q) (hb : b ≤ 120) : fl32 q = .fin (Capi.round32 q) := by
  refine fl32_fin ?_
  rw [abs_of_nonneg h.nonneg]
  refine h.le.trans ?_
  have : (2 : ℚ) ^ (120 : ℤ) = 2 ^ 120 := zpow_natCast _ _
  rw [← this]
  exact zpow_le_zpow_right₀ (by norm_num) hb

theorem scale (h : Span a b q) {c : ℚ} {i j : ℤ} (h1 : (2 : ℚ) ^ i ≤ c) (h2 : c ≤ 2 ^ j) :
    Span (a + i) (b + j) (q * c) := by
  have hc : 0 ≤ c := le_trans (by positivity) h1
  rcases h with rfl | ⟨h3, h4⟩
  · exact Or.inl (by ring)
  · refine Or.inr ⟨?_, ?_⟩
    · rw [zpow_add₀ (by norm_num)]
      exact mul_le_mul h3 h1 (by positivity) (le_trans (by positivity) h3)
    · rw [zpow_add₀ (by norm_num)]
      exact mul_le_mul h4 h2 hc (by positivity)

end Span

theorem fl64_nat {n : ℕ} (h : n ≤ 2 ^ 40) : fl64 n = .fin n := by
  have hq : (n : ℚ) ≤ 2 ^ (40 : ℤ) := by exact_mod_cast h
  have hs : Span 0 40 (n : ℚ) := by
    rcases Nat.eq_zero_or_pos n with rfl | h0
    · exact Or.inl (by simp)
    · exact Or.inr ⟨by rw [zpow_zero]; exact_mod_cast h0, hq⟩
  rw [hs.fl64 (by norm_num) (by norm_num)]
  have := fl_int n (by rw [Nat.abs_cast]; exact_mod_cast h.trans (by norm_num))
  push_cast at this
  rw [this]

theorem ratio_span {p m : ℕ} (hm : 1 ≤ m) (hp : p ≤ 2 ^ 40) (hm' : m ≤ 2 ^ 40) :
    Span (-40) 40 ((p : ℚ) / m) := by
  have hm0 : (1 : ℚ) ≤ m := by exact_mod_cast hm
  have hmq : (m : ℚ) ≤ 2 ^ 40 := by exact_mod_cast hm'
  have hpq : (p : ℚ) ≤ 2 ^ 40 := by exact_mod_cast hp
  have e : (2 : ℚ) ^ (40 : ℤ) = 2 ^ 40 := zpow_natCast _ _
  rcases Nat.eq_zero_or_pos p with rfl | h0
  · exact Or.inl (by simp)
  · have hp1 : (1 : ℚ) ≤ p := by exact_mod_cast h0
    refine Or.inr ⟨?_, ?_⟩
    · rw [zpow_neg, e, inv_eq_one_div, div_le_div_iff₀ (by positivity) (by linarith)]
      nlinarith
    · rw [e, div_le_iff₀ (by linarith)]
      nlinarith

/-- The position is defined when there is something to do. -/
theorem pos_eq {p m : ℕ} (hm : 1 ≤ m) (hp : p ≤ 2 ^ 40) (hm' : m ≤ 2 ^ 40) :
    Progress.pos p m = .ok ⌊Progress.scaled (p / m)⌋.toNat := by
  have s0 := ratio_span hm hp hm'
  have hm0 : (m : ℚ) ≠ 0 := by
    have : (1 : ℚ) ≤ m := by exact_mod_cast hm
    linarith
  have s1 := s0.fl.scale (c := 100) (i := 0) (j := 7) (by norm_num) (by norm_num)
  have s2 := s1.fl.round32 (by norm_num) (by norm_num)
  have s3 := s2.scale (c := 50) (i := 0) (j := 6) (by norm_num) (by norm_num)
  have s4 := (s3.round32 (by norm_num) (by norm_num)).scale (c := 1 / 100) (i := -7) (j := 0)
    (by norm_num) (by norm_num)
  unfold Progress.pos
  rw [fl64_nat hp, fl64_nat hm']
  unfold F64.div
  simp only [if_neg hm0]
  rw [s0.fl64 (by norm_num) (by norm_num)]
  unfold F64.mul
  dsimp only
  rw [s1.fl64 (by norm_num) (by norm_num)]
  unfold F64.toFloat
  dsimp only
  rw [s1.fl.fl32 (by norm_num)]
  unfold F64.mulFloat
  dsimp only
  rw [s3.fl32 (by norm_num)]
  simp only [show ¬ ((100 : ℚ) = 0) by norm_num, if_false]
  rw [show ∀ t : ℚ, t / 100 = t * (1 / 100) from fun t => by ring]
  rw [s4.fl64 (by norm_num) (by norm_num)]
  unfold F64.toSize
  have h1 := s4.fl.nonneg
  have h2 := s4.fl.le
  have h3 : Progress.scaled (p / m) = fl (round32 (round32 (fl (fl (↑p / ↑m) * 100)) * 50) * (1 / 100)) := by
    unfold Progress.scaled
    congr 1
    ring
  rw [← h3] at h1 h2 ⊢
  have h4 : (2 : ℚ) ^ ((-40 : ℤ) + 0 + 7) < 1 := by norm_num
  dsimp only
  rw [if_pos ⟨by linarith, lt_of_le_of_lt h2 (by norm_num)⟩]
  unfold truncZ
  rw [if_pos h1]

/-- Nothing to do: the position is undefined. -/
theorem pos_zero {p : ℕ} (hp : p ≤ 2 ^ 40) : Progress.pos p 0 = .error .ub := by
  unfold Progress.pos
  rw [fl64_nat hp, fl64_nat (by norm_num)]
  rcases Nat.eq_zero_or_pos p with rfl | h
  · decide +kernel
  · have : (p : ℚ) ≠ 0 := by positivity
    have h' : ¬ ((p : ℚ) < 0) := by
      have : (0 : ℚ) < p := by positivity
      linarith
    simp [F64.div, F64.mul, F64.infMul, F64.toFloat, F64.mulFloat, F64.toSize, this, h']

/-- With more than 100000 steps the rounding may show; otherwise the position is exact. -/
theorem scaled_floor {p m : ℕ} (hm : 1 ≤ m) (hm' : m ≤ 100000) (hlt : p < m) :
    ⌊Progress.scaled (p / m)⌋ = ((50 * p / m : ℕ) : ℤ) := by
  have key : ∀ k : ℕ, k < 50 → (k : ℚ) ≤ Progress.scaled (k / 50) ∧
      Progress.scaled ((k + 1) / 50 - 1 / 5000000) < k + 1 := by decide +kernel
  have hmq : (0 : ℚ) < m := by exact_mod_cast hm
  have hk : 50 * p / m < 50 := by
    rw [Nat.div_lt_iff_lt_mul (by omega)]
    omega
  obtain ⟨k1, k2⟩ := key _ hk
  have d1 : 50 * p / m * m ≤ 50 * p := Nat.div_mul_le_self _ _
  have d2 : 50 * p + 1 ≤ (50 * p / m + 1) * m := Nat.lt_mul_of_div_lt (Nat.lt_succ_self _) (by omega)
  generalize 50 * p / m = k at *
  have e1 : (k : ℚ) * m ≤ 50 * p := by exact_mod_cast d1
  have e2 : (50 : ℚ) * p + 1 ≤ (k + 1) * m := by exact_mod_cast d2
  have e3 : (m : ℚ) ≤ 100000 := by exact_mod_cast hm'
  have a1 : (k : ℚ) / 50 ≤ p / m := by
    rw [div_le_div_iff₀ (by norm_num) hmq]
    linarith
  have a2 : (p : ℚ) / m ≤ (k + 1) / 50 - 1 / 5000000 := by
    rw [div_le_iff₀ hmq]
    linarith
  rw [Int.floor_eq_iff]
  push_cast
  exact ⟨k1.trans (scaled_mono a1), lt_of_le_of_lt (scaled_mono a2) k2⟩

theorem scaled_full {x : ℚ} (h : 1 ≤ x) : 50 ≤ Progress.scaled x := by
  have e : Progress.scaled 1 = 50 := by decide +kernel
  rw [← e]
  exact scaled_mono h

theorem remaining_ok {p m : ℕ} {t : ℤ} (hp : 1 ≤ p) (hm : m ≤ 2 ^ 40) (hpm : p ≤ 2 ^ 40)
    (h1 : |t| ≤ 2 ^ 61) (h2 : |t| * m ≤ 2 ^ 56 * p) : ∃ r, Progress.remaining p m t = .ok r := by
  have hpq : (1 : ℚ) ≤ p := by exact_mod_cast hp
  have hpq' : (p : ℚ) ≤ 2 ^ 40 := by exact_mod_cast hpm
  have hmq : (m : ℚ) ≤ 2 ^ 40 := by exact_mod_cast hm
  have hmq0 : (0 : ℚ) ≤ m := by positivity
  have ht : |(t : ℚ)| ≤ 2 ^ 61 := by exact_mod_cast h1
  have htm : |(t : ℚ)| * m ≤ 2 ^ 56 * p := by exact_mod_cast h2
  have f1 : fl32 t = .fin (round32 t) := fl32_fin (ht.trans (by norm_num))
  have f2 : fl32 m = .fin (round32 m) := fl32_fin (by rw [abs_of_nonneg hmq0]; exact hmq.trans (by norm_num))
  have f3 : fl32 p = .fin (round32 p) := fl32_fin (by rw [abs_of_nonneg (by linarith)]; exact hpq'.trans (by norm_num))
  have r1 := round32_abs t
  have r2 := round32_abs m
  rw [abs_of_nonneg hmq0] at r2
  have r3 := round32_half hpq
  have prod : |round32 t * round32 m| ≤ 4 * (|(t : ℚ)| * m) := by
    rw [abs_mul]
    calc |round32 t| * |round32 m| ≤ (2 * |(t : ℚ)|) * (2 * m) :=
          mul_le_mul r1 r2 (abs_nonneg _) (by positivity)
      _ = _ := by ring
  have big : (2 : ℚ) ^ 56 * p ≤ 2 ^ 96 := by
    calc (2 : ℚ) ^ 56 * p ≤ 2 ^ 56 * 2 ^ 40 := mul_le_mul_of_nonneg_left hpq' (by norm_num)
      _ = _ := by norm_num
  have f4 : fl32 (round32 t * round32 m) = .fin (round32 (round32 t * round32 m)) :=
    fl32_fin (prod.trans (by
      calc 4 * (|(t : ℚ)| * m) ≤ 4 * 2 ^ 96 := by linarith
        _ ≤ _ := by norm_num))
  have r4 := round32_abs (round32 t * round32 m)
  have hp0 : 0 < round32 p := lt_of_lt_of_le (by linarith) r3
  have quot : |round32 (round32 t * round32 m) / round32 p| ≤ 2 ^ 60 := by
    rw [abs_div, abs_of_pos hp0, div_le_iff₀ hp0]
    calc |round32 (round32 t * round32 m)| ≤ 8 * (|(t : ℚ)| * m) := by linarith
      _ ≤ 8 * (2 ^ 56 * p) := by linarith
      _ = 2 ^ 60 * (p / 2) := by ring
      _ ≤ _ := mul_le_mul_of_nonneg_left r3 (by norm_num)
  have f5 : fl32 (round32 (round32 t * round32 m) / round32 p) =
      .fin (round32 (round32 (round32 t * round32 m) / round32 p)) :=
    fl32_fin (quot.trans (by norm_num))
  have r5 := round32_abs (round32 (round32 t * round32 m) / round32 p)
  unfold Progress.remaining
  rw [if_pos (by omega), f1, f2, f3]
  unfold F64.mulFloat
  dsimp only
  rw [f4]
  unfold F64.divFloat
  dsimp only
  rw [if_neg hp0.ne', f5]
  unfold F64.ceilLong
  dsimp only
  set z := round32 (round32 (round32 t * round32 m) / round32 p) with hz
  have hz' : |z| ≤ 2 ^ 61 := by
    calc |z| ≤ 2 * 2 ^ 60 := by linarith
      _ = _ := by norm_num
  have hc : |⌈z⌉| ≤ 2 ^ 61 := by
    rw [abs_le] at hz' ⊢
    constructor
    · have : ((-2 ^ 61 : ℤ) : ℚ) ≤ ⌈z⌉ := le_trans (by push_cast; exact hz'.1) (Int.le_ceil z)
      exact_mod_cast this
    · rw [Int.ceil_le]
      push_cast
      exact hz'.2
  rw [abs_le] at hc h1
  rw [chk64_ok (by unfold FitsI64; constructor <;> omega), Res.bind_ok]
  refine ⟨_, chk64_ok ?_⟩
  unfold FitsI64
  split <;> constructor <;> omega

theorem cells_eq (k : ℕ) : Progress.cells k = barOf k := by
  unfold Progress.cells barOf
  split
  · rename_i h
    have : ∀ k < 50, ((List.range 50).map fun i => if i < k then '=' else if i = k then '>' else ' ') =
      List.replicate k '=' ++ '>' :: List.replicate (49 - k) ' ' := by decide +kernel
    exact this k h
  · rename_i h
    rw [List.eq_replicate_iff]
    refine ⟨by simp, fun c hc => ?_⟩
    obtain ⟨i, hi, rfl⟩ := List.mem_map.1 hc
    rw [List.mem_range] at hi
    rw [if_pos (by omega)]

open Progress

/-- The state after `i` ticks. -/
structure After (m i : ℕ) (b : Bar) : Prop where
  progress : b.progress = i
  max : b.max = m
  started : b.started = true → 1 ≤ i
  completed : b.completed = decide (m ≤ i)
  elapsed : 1 ≤ i → ∃ e, b.elapsed = some e ∧ |e| ≤ 2 ^ 61 ∧ |e| * m ≤ 2 ^ 56 * i

/-- The cells shown after `p` of `m` steps. -/
noncomputable def shownAt (p m : ℕ) : ℕ := ⌊scaled ((p : ℚ) / m)⌋.toNat

theorem print_ok {b : Bar} {now : ℤ} {m p : ℕ} (hm : 1 ≤ m) (hm' : m ≤ 2 ^ 40) (hp' : p ≤ 2 ^ 40)
    (h1 : b.progress = p) (h2 : b.max = m) (h3 : b.started = true → 1 ≤ p)
    (h4 : 1 ≤ p → ∃ e, (if b.completed then b.elapsed else some now) = some e ∧ |e| ≤ 2 ^ 61 ∧
      |e| * m ≤ 2 ^ 56 * p) :
    print b now = .ok (⟨p, m, b.started, if b.completed then b.elapsed else some now,
      b.completed || decide (m ≤ p)⟩,
      ⟨barOf (shownAt p m), b.completed || decide (m ≤ p)⟩) := by
  subst h1 h2
  have e : (if b.completed then b else { b with elapsed := some now }) =
      ⟨b.progress, b.max, b.started, if b.completed then b.elapsed else some now, b.completed⟩ := by
    obtain ⟨p, m, s, e, c⟩ := b
    cases c <;> rfl
  unfold print
  rw [e]
  simp only
  rw [pos_eq hm hp' hm', Res.bind_ok, cells_eq]
  cases hs : b.started with
  | false => rfl
  | true =>
    obtain ⟨t, t1, t2, t3⟩ := h4 (h3 hs)
    obtain ⟨r, hr⟩ := remaining_ok (h3 hs) hm' hp' t2 t3
    simp only [t1, if_true]
    rw [hr]
    rfl

theorem tick_ok {b : Bar} {now : ℤ} {m i : ℕ} (hm : 1 ≤ m) (hm' : m ≤ 2 ^ 40) (hi : i + 1 ≤ 2 ^ 40)
    (h : After m i b) (h1 : |now| ≤ 2 ^ 61) (h2 : |now| * m ≤ 2 ^ 56 * (i + 1)) :
    ∃ b', tick b now = .ok (b', ⟨barOf (shownAt (i + 1) m), decide (m ≤ i + 1)⟩) ∧
      After m (i + 1) b' := by
  have hcl : ∃ e, (if b.completed then b.elapsed else some now) = some e ∧ |e| ≤ 2 ^ 61 ∧
      |e| * m ≤ 2 ^ 56 * ((i + 1 : ℕ) : ℤ) := by
    cases hc : b.completed with
    | false => exact ⟨now, rfl, h1, by push_cast; exact h2⟩
    | true =>
      have hmi : m ≤ i := by simpa [hc] using h.completed
      obtain ⟨e, e1, e2, e3⟩ := h.elapsed (by omega)
      refine ⟨e, e1, e2, e3.trans ?_⟩
      push_cast
      linarith
  have hd : (b.completed || decide (m ≤ i + 1)) = decide (m ≤ i + 1) := by
    rw [h.completed, Bool.or_eq_right_iff_imp]
    simp only [decide_eq_true_eq]
    omega
  have key := print_ok (b := { b with progress := b.progress + 1, started := true }) (now := now) hm hm' hi
    (by rw [h.progress]) h.max (fun _ => by omega) (fun _ => hcl)
  simp only [hd] at key
  exact ⟨_, key, rfl, rfl, fun _ => by simp, rfl, fun _ => hcl⟩

theorem ticks_ok {m : ℕ} (hm : 1 ≤ m) (hm' : m ≤ 2 ^ 40) :
    ∀ (times : List ℤ) (i : ℕ) (b : Bar), i + times.length ≤ 2 ^ 40 → After m i b →
      (∀ (j : ℕ) (t : ℤ), times[j]? = some t → |t| ≤ 2 ^ 61 ∧ |t| * m ≤ 2 ^ 56 * (i + j + 1)) →
      ∃ b', ticks b times = .ok (b', (List.range times.length).map fun j =>
          ⟨barOf (shownAt (i + j + 1) m), decide (m ≤ i + j + 1)⟩) ∧
        After m (i + times.length) b'
  | [], i, b, _, h, _ => ⟨b, rfl, h⟩
  | t :: r, i, b, hl, h, hc => by
    rw [List.length_cons] at hl
    obtain ⟨c1, c2⟩ := hc 0 t rfl
    obtain ⟨b1, e1, a1⟩ := tick_ok hm hm' (by omega) h c1 (by push_cast at c2; simpa using c2)
    obtain ⟨b2, e2, a2⟩ := ticks_ok hm hm' r (i + 1) b1 (by omega) a1 fun j t' hj => by
      have := hc (j + 1) t' (by simpa using hj)
      push_cast at this ⊢
      refine ⟨this.1, this.2.trans (le_of_eq (by ring))⟩
    refine ⟨b2, ?_, by rw [List.length_cons]; convert a2 using 1; omega⟩
    unfold ticks
    rw [e1, Res.bind_ok]
    simp only
    rw [e2, Res.bind_ok]
    simp only [List.length_cons, List.range_succ_eq_map, List.map_cons, List.map_map]
    congr 3
    refine List.map_congr_left fun j _ => ?_
    simp only [Function.comp]
    rw [show i + 1 + j + 1 = i + (j + 1) + 1 by omega]

theorem run_ok {n threads : ℕ} {times : List ℤ} (last : ℤ) (h1 : 1 ≤ threads) (h2 : threads ≤ n)
    (h3 : n ≤ 2 ^ 40) (h4 : times.length ≤ n) (h5 : ClockOk (n / threads) times) :
    run n threads times last = .ok ((List.range (times.length + 1)).map fun i =>
      ⟨barOf (shownAt (min (i + 1) times.length) (n / threads)),
        decide (n / threads ≤ min (i + 1) times.length ∨ i = times.length)⟩) := by
  have hm : 1 ≤ n / threads := Nat.div_pos h2 h1
  have hm' : n / threads ≤ 2 ^ 40 := (Nat.div_le_self _ _).trans h3
  obtain ⟨b, e, a⟩ := ticks_ok hm hm' times 0 ⟨0, n / threads, false, none, false⟩ (by omega)
    ⟨rfl, rfl, by simp, by simp; omega, by omega⟩ (by simpa [ClockOk] using h5)
  rw [zero_add] at a
  have key := print_ok (b := { b with completed := true }) (now := last) hm hm' (h4.trans h3) a.progress
    a.max a.started a.elapsed
  unfold run
  rw [e, Res.bind_ok]
  simp only
  unfold finish
  rw [key, Res.bind_ok, List.range_succ, List.map_append]
  simp only [List.map_cons, List.map_nil]
  refine congrArg Except.ok (congrArg₂ _ (List.map_congr_left fun j hj => ?_) ?_)
  · rw [List.mem_range] at hj
    rw [min_eq_left (by omega)]
    have : ¬ (j = times.length) := by omega
    simp [this]
  · simp

end Capi
