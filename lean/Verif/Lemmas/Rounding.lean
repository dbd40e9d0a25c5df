import Verif.Spec.Rounding
import Verif.Lemmas.Binary64

/-!
# Rounding to nearest even
-/

namespace Capi

theorem rne_nearest (x : ℚ) (n : ℤ) : |x - rne x| ≤ |x - n| := by
  have h := abs_le.1 (rne_err x)
  rcases eq_or_ne n (rne x) with rfl | hn
  · exact le_refl _
  · have h1 : (1 : ℚ) ≤ |(n : ℚ) - rne x| := by
      have : 1 ≤ |n - rne x| := Int.one_le_abs (sub_ne_zero.2 hn)
      exact_mod_cast this
    have h2 : |(n : ℚ) - rne x| ≤ |x - n| + |x - rne x| := by
      have := abs_sub_le (n : ℚ) x (rne x)
      rwa [abs_sub_comm (n : ℚ) x] at this
    have h3 : |x - rne x| ≤ 1 / 2 := by rw [abs_sub_comm]; exact rne_err x
    linarith

theorem rne_even {x : ℚ} {n : ℤ} (h : |x - n| = |x - rne x|) (hn : n ≠ rne x) : rne x % 2 = 0 := by
  have h1 : (1 : ℚ) ≤ |(n : ℚ) - rne x| := by
    have : 1 ≤ |n - rne x| := Int.one_le_abs (sub_ne_zero.2 hn)
    exact_mod_cast this
  have h2 : |(n : ℚ) - rne x| ≤ |x - n| + |x - rne x| := by
    have := abs_sub_le (n : ℚ) x (rne x)
    rwa [abs_sub_comm (n : ℚ) x] at this
  have h3 : |x - rne x| ≤ 1 / 2 := by rw [abs_sub_comm]; exact rne_err x
  have h4 : |x - rne x| = 1 / 2 := by linarith
  have f1 := Int.floor_le x
  have f2 := Int.lt_floor_add_one x
  unfold rne at h4 ⊢
  split_ifs at h4 ⊢ with a b c
  · rw [abs_of_nonneg (by linarith)] at h4
    linarith
  · push_cast at h4
    rw [abs_of_nonpos (by linarith)] at h4
    linarith
  · exact c
  · omega

/-- Rounding to a multiple of a unit that suits the size of `x`. -/
theorem rounds_unit {p : ℕ} (hp : 2 ≤ p) {ok : ℤ → Prop} (hup : ∀ e, ok e → ok (e + 1)) {x : ℚ}
    {k : ℤ} (hk : ok k) (h1 : |x| < 2 ^ p * (2 : ℚ) ^ k)
    (h2 : (2 : ℚ) ^ (p - 1) * 2 ^ k ≤ |x| ∨ ∀ e, ok e → k ≤ e) :
    Rounds p ok x (rne (x / 2 ^ k) * 2 ^ k) := by
  obtain ⟨r, rfl⟩ : ∃ r, p = r + 1 := ⟨p - 1, by omega⟩
  rw [Nat.add_sub_cancel] at h2
  have hupn : ∀ n : ℕ, ok (k + n) := by
    intro n
    induction n with
    | zero => simpa using hk
    | succ n ih => have := hup _ ih; push_cast; rwa [← add_assoc]
  have hu : (0 : ℚ) < 2 ^ k := by positivity
  set u : ℚ := 2 ^ k with hu'
  have hx : x = x / u * u := by field_simp
  have dist : ∀ n : ℤ, |x - n * u| = |x / u - n| * u := by
    intro n
    rw [← abs_of_pos hu, ← abs_mul, abs_of_pos hu]
    congr 1
    rw [sub_mul, ← hx]
  have hq : |x / u| < 2 ^ (r + 1) := by
    rw [abs_div, abs_of_pos hu, div_lt_iff₀ hu]
    exact h1
  have hb : |rne (x / u)| ≤ 2 ^ (r + 1) := by
    obtain ⟨a, b⟩ := abs_lt.1 hq
    have a' := rne_mono a.le
    have b' := rne_mono b.le
    have e1 : rne (2 ^ (r + 1) : ℚ) = 2 ^ (r + 1) := by
      have := rne_intCast ((2 : ℤ) ^ (r + 1))
      push_cast at this
      exact this
    have e2 : rne (-2 ^ (r + 1) : ℚ) = -2 ^ (r + 1) := by rw [rne_neg, e1]
    rw [e1] at b'
    rw [e2] at a'
    exact abs_le.2 ⟨a', b'⟩
  -- candidates with a smaller unit are farther away
  have cand : ∀ z, Digits (r + 1) ok z → (∃ n : ℤ, z = n * u) ∨ |x - rne (x / u) * u| < |x - z| := by
    rintro z ⟨m, e, he, hm, rfl⟩
    rcases le_or_gt k e with hke | hke
    · left
      refine ⟨m * 2 ^ (e - k).toNat, ?_⟩
      push_cast
      rw [mul_assoc, hu', ← zpow_natCast, ← zpow_add₀ (by norm_num), Int.toNat_of_nonneg (by omega)]
      congr 2
      omega
    · right
      have h2 := h2.resolve_right fun h => absurd (h e he) (by omega)
      have hz : |(m : ℚ) * 2 ^ e| < 2 ^ r * u := by
        rw [abs_mul, abs_of_pos (by positivity : (0 : ℚ) < 2 ^ e)]
        have hm' : |(m : ℚ)| < 2 ^ (r + 1) := by exact_mod_cast hm
        have he' : (2 : ℚ) ^ e ≤ 2 ^ (k - 1) := zpow_le_zpow_right₀ (by norm_num) (by omega)
        have : (2 : ℚ) ^ (k - 1) = u / 2 := by rw [zpow_sub_one₀ (by norm_num)]; rfl
        have p : (0 : ℚ) < 2 ^ e := by positivity
        have e2 : (2 : ℚ) ^ (r + 1) * (u / 2) = 2 ^ r * u := by ring
        rw [← e2]
        exact mul_lt_mul hm' he' p (by positivity) |>.trans_eq (by rw [this])
      set z : ℚ := (m : ℚ) * 2 ^ e with hz'
      rcases le_total 0 x with hx0 | hx0
      · rw [abs_of_nonneg hx0] at h2
        have n1 := mul_le_mul_of_nonneg_right (rne_nearest (x / u) (2 ^ r)) hu.le
        rw [← dist, ← dist] at n1
        refine lt_of_le_of_lt n1 ?_
        push_cast
        rw [abs_of_nonneg (by linarith)]
        have := (abs_lt.1 hz).2
        rw [abs_of_nonneg (by linarith)]
        linarith
      · rw [abs_of_nonpos hx0] at h2
        have n1 := mul_le_mul_of_nonneg_right (rne_nearest (x / u) (-2 ^ r)) hu.le
        rw [← dist, ← dist] at n1
        refine lt_of_le_of_lt n1 ?_
        push_cast
        have := (abs_lt.1 hz).1
        rw [abs_of_nonpos (by linarith), abs_of_nonpos (by linarith)]
        linarith
  have near : ∀ z, Digits (r + 1) ok z → |x - rne (x / u) * u| ≤ |x - z| := by
    intro z hz
    rcases cand z hz with ⟨n, rfl⟩ | h
    · rw [dist, dist]
      exact mul_le_mul_of_nonneg_right (rne_nearest _ _) hu.le
    · exact h.le
  -- a significand of `2 ^ p` is carried over
  have carry : ∀ (p : ℕ) (ok' : ℤ → Prop) (m j : ℤ), (∀ n : ℕ, ok' (j + n)) → |m| ≤ 2 ^ p → 1 ≤ p →
      Digits p ok' (m * 2 ^ j) := by
    intro p ok' m j hok hm hp
    rcases lt_or_eq_of_le hm with hm | hm
    · exact ⟨m, j, by simpa using hok 0, hm, rfl⟩
    · rcases abs_eq (by positivity) |>.1 hm with h | h
      · refine ⟨1, j + p, hok p, by rw [abs_one]; exact one_lt_pow₀ (by norm_num) (by omega), ?_⟩
        rw [h, zpow_add₀ (by norm_num)]
        push_cast
        rw [zpow_natCast]
        ring
      · refine ⟨-1, j + p, hok p, by rw [abs_neg, abs_one]; exact one_lt_pow₀ (by norm_num) (by omega), ?_⟩
        rw [h, zpow_add₀ (by norm_num)]
        push_cast
        rw [zpow_natCast]
        ring
  refine ⟨carry (r + 1) ok _ k hupn hb (by omega), near, ?_⟩
  intro z hz heq
  rcases cand z hz with ⟨n, rfl⟩ | h
  · rw [dist, dist] at heq
    have heq := mul_right_cancel₀ hu.ne' heq
    by_cases hn : n = rne (x / u)
    · left; rw [hn]
    · right
      have hev := rne_even heq hn
      obtain ⟨j, hj⟩ : ∃ j, rne (x / u) = 2 * j := ⟨rne (x / u) / 2, by omega⟩
      have : (rne (x / u) : ℚ) * u = j * 2 ^ (k + 1) := by
        rw [hj, zpow_add_one₀ (by norm_num)]; push_cast; ring
      rw [this]
      refine carry r _ j (k + 1) (fun n => ?_) ?_ (by omega)
      · have := hupn n
        rwa [show k + 1 + (n : ℤ) - 1 = k + n by ring]
      · rw [hj, abs_mul, pow_succ'] at hb
        norm_num at hb ⊢
        omega
  · rw [heq] at h
    exact absurd h (lt_irrefl _)

/-- The result of rounding is determined. -/
theorem Rounds.unique {p : ℕ} (hp : 2 ≤ p) {ok : ℤ → Prop} {x y z : ℚ} (hy : Rounds p ok x y)
    (hz : Rounds p ok x z) : y = z := by
  obtain ⟨r, rfl⟩ : ∃ r, p = r + 1 := ⟨p - 1, by omega⟩
  wlog hlt : y < z generalizing y z
  · rcases lt_trichotomy y z with h | h | h
    · exact this hy hz h
    · exact h
    · exact (this hz hy h).symm
  exfalso
  have heq : |x - y| = |x - z| := le_antisymm (hy.nearest z hz.digits) (hz.nearest y hy.digits)
  have hmid : x - y = z - x := by
    rcases abs_eq_abs.1 heq with h | h
    · linarith
    · linarith
  have between : ∀ t, Digits (r + 1) ok t → y < t → t < z → False := by
    intro t ht h1 h2
    have := hy.nearest t ht
    rw [abs_of_pos (by linarith : 0 < x - y)] at this
    rcases le_total t x with h | h
    · rw [abs_of_nonneg (by linarith)] at this; linarith
    · rw [abs_of_nonpos (by linarith)] at this; linarith
  have sy := (hy.even z hz.digits heq.symm).resolve_left hlt.ne'
  have sz := (hz.even y hy.digits heq).resolve_left hlt.ne
  obtain ⟨m, e, he, hm, rfl⟩ := sy
  obtain ⟨n, f, hf, hn, rfl⟩ := sz
  have pe : (2 : ℚ) ^ e = 2 * 2 ^ (e - 1) := by rw [zpow_sub_one₀ (by norm_num)]; ring
  have pf : (2 : ℚ) ^ f = 2 * 2 ^ (f - 1) := by rw [zpow_sub_one₀ (by norm_num)]; ring
  have qe : (0 : ℚ) < 2 ^ (e - 1) := by positivity
  have qf : (0 : ℚ) < 2 ^ (f - 1) := by positivity
  have a : (n : ℚ) * 2 ^ f - m * 2 ^ e ≤ 2 ^ (e - 1) := by
    by_contra hc
    push Not at hc
    refine between ((2 * m + 1 : ℤ) * 2 ^ (e - 1)) ⟨_, _, he, ?_, rfl⟩ ?_ ?_
    · rw [Nat.add_sub_cancel] at hm; rw [abs_lt] at hm ⊢; rw [pow_succ']; constructor <;> omega
    · push_cast; rw [pe]; linarith
    · push_cast; rw [pe] at hc; linarith
  have b : (n : ℚ) * 2 ^ f - m * 2 ^ e ≤ 2 ^ (f - 1) := by
    by_contra hc
    push Not at hc
    refine between ((2 * n - 1 : ℤ) * 2 ^ (f - 1)) ⟨_, _, hf, ?_, rfl⟩ ?_ ?_
    · rw [Nat.add_sub_cancel] at hn; rw [abs_lt] at hn ⊢; rw [pow_succ']; constructor <;> omega
    · push_cast; rw [pf] at hc; linarith
    · push_cast; rw [pf]; linarith
  -- the distance is a multiple of the smaller of the two units
  have mult : ∀ (i j : ℤ) (g : ℤ) (l : ℕ), (0 : ℚ) < (i * 2 ^ l + j) * 2 ^ g →
      (2 : ℚ) ^ g ≤ (i * 2 ^ l + j) * 2 ^ g := by
    intro i j g l h
    have hg : (0 : ℚ) < 2 ^ g := by positivity
    have h' : (0 : ℚ) < ((i * 2 ^ l + j : ℤ) : ℚ) := by
      push_cast
      exact (mul_pos_iff_of_pos_right hg).1 h
    have h1 : 0 < i * 2 ^ l + j := by exact_mod_cast h'
    have : (1 : ℚ) ≤ i * 2 ^ l + j := by exact_mod_cast Int.add_one_le_iff.2 h1
    nlinarith
  rcases le_total e f with h | h
  · obtain ⟨l, rfl⟩ : ∃ l : ℕ, f = e + l := ⟨(f - e).toNat, by omega⟩
    have e1 : (n : ℚ) * 2 ^ (e + (l : ℤ)) - m * 2 ^ e = (n * 2 ^ l + (-m : ℤ)) * 2 ^ e := by
      rw [zpow_add₀ (by norm_num), zpow_natCast]; push_cast; ring
    rw [e1] at a
    have := mult n (-m) e l (by rw [← e1]; linarith)
    rw [pe] at this a
    linarith
  · obtain ⟨l, rfl⟩ : ∃ l : ℕ, e = f + l := ⟨(e - f).toNat, by omega⟩
    have e1 : (n : ℚ) * 2 ^ f - m * 2 ^ (f + (l : ℤ)) = ((-m : ℤ) * 2 ^ l + n) * 2 ^ f := by
      rw [zpow_add₀ (by norm_num), zpow_natCast]; push_cast; ring
    rw [e1] at b
    have := mult (-m) n f l (by rw [← e1]; linarith)
    rw [pf] at this b
    linarith

end Capi
