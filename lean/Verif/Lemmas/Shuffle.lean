import Mathlib.Data.Int.CardIntervalMod
import Mathlib.Data.List.Perm.Basic
import Mathlib.Tactic.Linarith
import Verif.Spec.Shuffle

/-! # Lemmas on `std::mt19937` and `std::shuffle` -/

namespace Capi

namespace Shuffle

/-! ### Sizes of words -/

theorem word_lt (seed i : ℕ) : word seed i < 2 ^ 32 := by
  cases i <;> exact Nat.mod_lt _ (by norm_num)

theorem mix_lt (u v : ℕ) : mix u v < 2 ^ 32 := by
  unfold mix
  refine Nat.xor_lt_two_pow (lt_of_le_of_lt (Nat.shiftRight_le _ _) ?_) (by split <;> norm_num)
  exact Nat.or_lt_two_pow (lt_of_le_of_lt Nat.and_le_right (by norm_num))
    (lt_of_le_of_lt Nat.and_le_right (by norm_num))

theorem twist_lt {x : ℕ → ℕ} (hx : ∀ k, x k < 2 ^ 32) (k : ℕ) : twist x k < 2 ^ 32 := by
  have hl : ∀ k, low x k < 2 ^ 32 := fun k => Nat.xor_lt_two_pow (hx _) (mix_lt _ _)
  have hm : ∀ k, mid x k < 2 ^ 32 := fun k => Nat.xor_lt_two_pow (hl _) (mix_lt _ _)
  unfold twist
  split_ifs
  · exact hl k
  · exact hm k
  · exact Nat.xor_lt_two_pow (hm _) (mix_lt _ _)
  · exact Nat.xor_lt_two_pow (hm _) (mix_lt _ _)

theorem words_lt (seed b k : ℕ) : words seed b k < 2 ^ 32 := by
  induction b generalizing k with
  | zero => exact word_lt seed k
  | succ b ih => exact twist_lt ih k

theorem temper_lt {z : ℕ} (hz : z < 2 ^ 32) : temper z < 2 ^ 32 := by
  unfold temper
  have sh : ∀ {z : ℕ} (s : ℕ), z < 2 ^ 32 → z ^^^ z >>> s < 2 ^ 32 := fun s h =>
    Nat.xor_lt_two_pow h (lt_of_le_of_lt (Nat.shiftRight_le _ _) h)
  refine sh _ (Nat.xor_lt_two_pow (Nat.xor_lt_two_pow (sh _ hz) ?_) ?_) <;>
  exact lt_of_le_of_lt Nat.and_le_right (by norm_num)

theorem mt19937_lt (seed i : ℕ) : mt19937 seed i < 2 ^ 32 := temper_lt (words_lt _ _ _)

/-! ### Scaling -/

theorem scale_lt {lib : Lib} {e r v : ℕ} (he : 0 < e) (hr : r < 2 ^ 32)
    (h : scale lib e r = some v) : v < e := by
  cases lib with
  | upTo10 =>
    unfold scale at h
    dsimp only at h
    split_ifs at h with h1
    obtain rfl := Option.some.inj h
    exact Nat.div_lt_of_lt_mul (by rwa [Nat.mul_comm])
  | from11 =>
    unfold scale at h
    dsimp only at h
    split_ifs at h with h1
    obtain rfl := Option.some.inj h
    exact Nat.div_lt_of_lt_mul (Nat.mul_lt_mul_of_pos_right hr he)

theorem pick_lt {lib : Lib} {g : ℕ → ℕ} {e fuel i v j : ℕ} (he : 0 < e) (hg : ∀ i, g i < 2 ^ 32)
    (h : pick lib g e fuel i = some (v, j)) : v < e := by
  induction fuel generalizing i with
  | zero => exact absurd h (by simp [pick])
  | succ n ih =>
    unfold pick at h
    split_ifs at h
    split at h
    · rename_i w hw
      obtain ⟨rfl, -⟩ := Prod.mk.inj (Option.some.inj h)
      exact scale_lt he (hg i) hw
    · exact ih h

/-- Among the outputs as many are scaled to one number as to any other. -/
theorem scale_count (lib : Lib) {e : ℕ} (he : 0 < e) (he' : e < 2 ^ 32) {v : ℕ} (hv : v < e) :
    ((Finset.range (2 ^ 32)).filter fun r => scale lib e r = some v).card =
      match lib with
      | .upTo10 => (2 ^ 32 - 1) / e
      | .from11 => 2 ^ 32 / e := by
  cases lib with
  | upTo10 =>
    dsimp only
    set q := (2 ^ 32 - 1) / e with hq
    have hq0 : 0 < q := Nat.div_pos (by omega) he
    have hqe : e * q ≤ 2 ^ 32 - 1 := Nat.mul_div_le _ _
    have : ((Finset.range (2 ^ 32)).filter fun r => scale .upTo10 e r = some v) =
        Finset.Ico (v * q) ((v + 1) * q) := by
      ext r
      have h1 : (v + 1) * q ≤ e * q := Nat.mul_le_mul_right q hv
      simp only [Finset.mem_filter, Finset.mem_range, Finset.mem_Ico, scale, ← hq]
      constructor
      · rintro ⟨h2, h3⟩
        split_ifs at h3 with h4
        have h5 := Option.some.inj h3
        rw [Nat.div_eq_iff hq0] at h5
        have h6 : (v + 1) * q = v * q + q := by ring
        omega
      · rintro ⟨h2, h3⟩
        refine ⟨by omega, ?_⟩
        rw [if_pos (by omega)]
        congr 1
        rw [Nat.div_eq_iff hq0]
        have h6 : (v + 1) * q = v * q + q := by ring
        omega
    rw [this, Nat.card_Ico]
    have h6 : (v + 1) * q = v * q + q := by ring
    omega
  | from11 =>
    dsimp only
    have ht : (2 ^ 32 - e) % e = 2 ^ 32 % e := (Nat.mod_eq_sub_mod (le_of_lt he')).symm
    set t := 2 ^ 32 % e with htd
    have hte : t < e := Nat.mod_lt _ he
    have hdm : e * (2 ^ 32 / e) + t = 2 ^ 32 := Nat.div_add_mod _ _
    set q := 2 ^ 32 / e
    have key : ((Finset.range (2 ^ 32)).filter fun r => scale .from11 e r = some v).card =
        ((Finset.Ico ((v * 2 ^ 32 + t : ℕ) : ℤ) (((v + 1) * 2 ^ 32 : ℕ) : ℤ)).filter
          fun x => (e : ℤ) ∣ x).card := by
      refine Finset.card_bij (fun r _ => ((r * e : ℕ) : ℤ)) ?_ ?_ ?_
      · intro r hr
        simp only [Finset.mem_filter, Finset.mem_range, scale, ht] at hr
        obtain ⟨h1, h2⟩ := hr
        split_ifs at h2 with h3
        have h4 := Option.some.inj h2
        have h5 := Nat.div_add_mod (r * e) (2 ^ 32)
        rw [h4] at h5
        have h6 := Nat.mod_lt (r * e) (show 0 < 2 ^ 32 by norm_num)
        simp only [Finset.mem_filter, Finset.mem_Ico]
        refine ⟨⟨?_, ?_⟩, ?_⟩
        · have : t ≤ r * e % 2 ^ 32 := by
            by_contra h7
            exact h3 ⟨by omega, by omega⟩
          exact_mod_cast (by omega : v * 2 ^ 32 + t ≤ r * e)
        · exact_mod_cast (by omega : r * e < (v + 1) * 2 ^ 32)
        · exact_mod_cast Dvd.intro_left r rfl
      · intro r hr s hs h
        have : r * e = s * e := by exact_mod_cast h
        exact Nat.eq_of_mul_eq_mul_right he this
      · intro x hx
        simp only [Finset.mem_filter, Finset.mem_Ico] at hx
        obtain ⟨⟨h1, h2⟩, h3⟩ := hx
        obtain ⟨n, rfl⟩ := Int.eq_ofNat_of_zero_le (le_trans (Int.natCast_nonneg _) h1)
        obtain ⟨r, rfl⟩ : e ∣ n := by exact_mod_cast h3
        have h1 : v * 2 ^ 32 + t ≤ e * r := by exact_mod_cast h1
        have h2 : e * r < (v + 1) * 2 ^ 32 := by exact_mod_cast h2
        rw [Nat.mul_comm e r] at h1 h2
        have h4 : r * e / 2 ^ 32 = v := by omega
        have h5 : r < 2 ^ 32 := by
          by_contra h6
          have h7 : 2 ^ 32 * e ≤ r * e := Nat.mul_le_mul_right e (not_lt.1 h6)
          have h8 : (v + 1) * 2 ^ 32 ≤ e * 2 ^ 32 := Nat.mul_le_mul_right _ hv
          rw [Nat.mul_comm e] at h8
          omega
        refine ⟨r, ?_, by rw [Nat.mul_comm]⟩
        simp only [Finset.mem_filter, Finset.mem_range, scale, ht]
        refine ⟨h5, ?_⟩
        rw [if_neg (by rintro ⟨_, h6⟩; omega), h4]
    have hz := Int.Ico_filter_dvd_card ((v * 2 ^ 32 + t : ℕ) : ℤ) (((v + 1) * 2 ^ 32 : ℕ) : ℤ)
      (show (0 : ℤ) < e by exact_mod_cast he)
    have he0 : (e : ℚ) ≠ 0 := by exact_mod_cast he.ne'
    have hb : ((((v + 1) * 2 ^ 32 : ℕ) : ℤ) : ℚ) / ((e : ℤ) : ℚ) =
        (((v * 2 ^ 32 + t : ℕ) : ℤ) : ℚ) / ((e : ℤ) : ℚ) + ((q : ℤ) : ℚ) := by
      have h1 : (v + 1) * 2 ^ 32 = v * 2 ^ 32 + t + e * q := by omega
      rw [h1]
      push_cast
      field_simp
    rw [hb, Int.ceil_add_intCast] at hz
    rw [key]
    have : (max (⌈(((v * 2 ^ 32 + t : ℕ) : ℤ) : ℚ) / ((e : ℤ) : ℚ)⌉ + (q : ℤ) -
        ⌈(((v * 2 ^ 32 + t : ℕ) : ℤ) : ℚ) / ((e : ℤ) : ℚ)⌉) 0) = (q : ℤ) := by
      rw [add_sub_cancel_left]
      exact max_eq_left (Int.natCast_nonneg q)
    rw [this] at hz
    exact_mod_cast hz

/-! ### Swapping -/

theorem swap_ok {α : Type} (l : List α) {i j : ℕ} (hi : i < l.length) (hj : j < l.length) :
    ∃ l', swap l i j = .ok l' ∧ l'.Perm l := by
  refine ⟨(l.set i l[j]).set j l[i], ?_, List.set_set_perm hi hj⟩
  unfold swap
  rw [List.getElem?_eq_getElem hi, List.getElem?_eq_getElem hj]

theorem pairs_perm {α : Type} {lib : Lib} {g : ℕ → ℕ} (hg : ∀ i, g i < 2 ^ 32) {fuel : ℕ} :
    ∀ {m p i : ℕ} {l : List α} {r : Res (List α)}, p + 2 * m ≤ l.length →
      pairs lib g fuel m p i l = some r → ∃ l', r = .ok l' ∧ l'.Perm l := by
  intro m
  induction m with
  | zero =>
    intro p i l r _ h
    exact ⟨l, (Option.some.inj h).symm, List.Perm.refl l⟩
  | succ m ih =>
    intro p i l r hl h
    unfold pairs at h
    split at h
    · exact absurd h (by simp)
    · rename_i x i' hx
      have hlt := pick_lt (by positivity) hg hx
      have h1 : x / (p + 2) < p + 1 := Nat.div_lt_of_lt_mul (by rwa [Nat.mul_comm])
      have h2 : x % (p + 2) < p + 2 := Nat.mod_lt _ (by omega)
      obtain ⟨l1, e1, p1⟩ := swap_ok l (i := p) (j := x / (p + 2)) (by omega) (by omega)
      have n1 := p1.length_eq
      obtain ⟨l2, e2, p2⟩ := swap_ok l1 (i := p + 1) (j := x % (p + 2)) (by omega) (by omega)
      have n2 := p2.length_eq
      rw [e1, Res.bind_ok, e2] at h
      obtain ⟨l', h3, h4⟩ := ih (by omega) h
      exact ⟨l', h3, h4.trans (p2.trans p1)⟩

theorem singles_perm {α : Type} {lib : Lib} {g : ℕ → ℕ} (hg : ∀ i, g i < 2 ^ 32) {fuel : ℕ} :
    ∀ {m p i : ℕ} {l : List α} {r : Res (List α)}, p + m ≤ l.length →
      singles lib g fuel m p i l = some r → ∃ l', r = .ok l' ∧ l'.Perm l := by
  intro m
  induction m with
  | zero =>
    intro p i l r _ h
    exact ⟨l, (Option.some.inj h).symm, List.Perm.refl l⟩
  | succ m ih =>
    intro p i l r hl h
    unfold singles at h
    split at h
    · exact absurd h (by simp)
    · rename_i x i' hx
      have hlt := pick_lt (by omega) hg hx
      obtain ⟨l1, e1, p1⟩ := swap_ok l (i := p) (j := x) (by omega) (by omega)
      have n1 := p1.length_eq
      rw [e1] at h
      obtain ⟨l', h3, h4⟩ := ih (by omega) h
      exact ⟨l', h3, h4.trans p1⟩

theorem shuffleFor_perm {α : Type} {lib : Lib} {g : ℕ → ℕ} (hg : ∀ i, g i < 2 ^ 32) {fuel : ℕ}
    {l : List α} {r : Res (List α)} (h : shuffleFor lib g fuel l = some r) :
    ∃ l', r = .ok l' ∧ l'.Perm l := by
  unfold shuffleFor at h
  dsimp only at h
  split_ifs at h with h0 h1 h2
  · exact ⟨l, (Option.some.inj h).symm, List.Perm.refl l⟩
  · split at h
    · exact absurd h (by simp)
    · rename_i x i hx
      have hlt := pick_lt (by omega) hg hx
      obtain ⟨l1, e1, p1⟩ := swap_ok l (i := 1) (j := x) (by omega) (by omega)
      have n1 := p1.length_eq
      rw [e1] at h
      obtain ⟨l', h3, h4⟩ := pairs_perm hg (by omega) h
      exact ⟨l', h3, h4.trans p1⟩
  · exact pairs_perm hg (by omega) h
  · exact singles_perm hg (by omega) h

/-! ### Ending -/

theorem pick_ends {lib : Lib} {g : ℕ → ℕ} {e : ℕ} (he : e < 2 ^ 32) {fuel i : ℕ}
    (h : ∃ j < fuel, (scale lib e (g (i + j))).isSome) : ∃ v k, pick lib g e fuel i = some (v, k) := by
  induction fuel generalizing i with
  | zero =>
    obtain ⟨j, hj, -⟩ := h
    omega
  | succ n ih =>
    obtain ⟨j, hj, hs⟩ := h
    unfold pick
    rw [if_pos he]
    cases hc : scale lib e (g i) with
    | some v => exact ⟨v, i + 1, rfl⟩
    | none =>
      cases j with
      | zero => rw [Nat.add_zero, hc] at hs; exact absurd hs (by simp)
      | succ j => exact ih ⟨j, by omega, by rwa [show i + 1 + j = i + (j + 1) by omega]⟩

theorem pairs_ends {α : Type} {lib : Lib} {g : ℕ → ℕ} (hg : ∀ i, g i < 2 ^ 32) {fuel : ℕ}
    (hl : Lively lib g fuel) {n : ℕ} (hn : n * n < 2 ^ 32) :
    ∀ {m p i : ℕ} {l : List α}, l.length = n → p + 2 * m ≤ n →
      ∃ r, pairs lib g fuel m p i l = some r := by
  intro m
  induction m with
  | zero => intro p i l _ _; exact ⟨_, rfl⟩
  | succ m ih =>
    intro p i l hln hp
    have hmul : (p + 1) * (p + 2) ≤ n * n := Nat.mul_le_mul (by omega) (by omega)
    obtain ⟨x, k, hx⟩ := pick_ends (lib := lib) (g := g) (show (p + 1) * (p + 2) < 2 ^ 32 by omega)
      (hl _ (by positivity) (by omega) i)
    have hlt := pick_lt (by positivity) hg hx
    have h1 : x / (p + 2) < p + 1 := Nat.div_lt_of_lt_mul (by rwa [Nat.mul_comm])
    have h2 : x % (p + 2) < p + 2 := Nat.mod_lt _ (by omega)
    obtain ⟨l1, e1, p1⟩ := swap_ok l (i := p) (j := x / (p + 2)) (by omega) (by omega)
    have n1 := p1.length_eq
    obtain ⟨l2, e2, p2⟩ := swap_ok l1 (i := p + 1) (j := x % (p + 2)) (by omega) (by omega)
    have n2 := p2.length_eq
    unfold pairs
    rw [hx]
    dsimp only
    rw [e1, Res.bind_ok, e2]
    exact ih (by omega) (by omega)

theorem singles_ends {α : Type} {lib : Lib} {g : ℕ → ℕ} (hg : ∀ i, g i < 2 ^ 32) {fuel : ℕ}
    (hl : Lively lib g fuel) {n : ℕ} (hn : n < 2 ^ 32) :
    ∀ {m p i : ℕ} {l : List α}, l.length = n → p + m ≤ n →
      ∃ r, singles lib g fuel m p i l = some r := by
  intro m
  induction m with
  | zero => intro p i l _ _; exact ⟨_, rfl⟩
  | succ m ih =>
    intro p i l hln hp
    obtain ⟨x, k, hx⟩ := pick_ends (lib := lib) (g := g) (show p + 1 < 2 ^ 32 by omega)
      (hl _ (by omega) (by omega) i)
    have hlt := pick_lt (by omega) hg hx
    obtain ⟨l1, e1, p1⟩ := swap_ok l (i := p) (j := x) (by omega) (by omega)
    have n1 := p1.length_eq
    unfold singles
    rw [hx]
    dsimp only
    rw [e1]
    exact ih (by omega) (by omega)

theorem shuffleFor_ends {α : Type} {lib : Lib} {g : ℕ → ℕ} (hg : ∀ i, g i < 2 ^ 32) {fuel : ℕ}
    (hl : Lively lib g fuel) {l : List α} (hn : l.length < 2 ^ 32) :
    ∃ r, shuffleFor lib g fuel l = some r := by
  unfold shuffleFor
  dsimp only
  split_ifs with h0 h1 h2
  · exact ⟨_, rfl⟩
  · have hsq : l.length * l.length < 2 ^ 32 := by
      have := (Nat.le_div_iff_mul_le (Nat.pos_of_ne_zero h0)).1 h1
      omega
    obtain ⟨x, k, hx⟩ := pick_ends (lib := lib) (g := g) (show 2 < 2 ^ 32 by norm_num)
      (hl 2 (by norm_num) (by norm_num) 0)
    have hlt := pick_lt (by omega) hg hx
    obtain ⟨l1, e1, p1⟩ := swap_ok l (i := 1) (j := x) (by omega) (by omega)
    have n1 := p1.length_eq
    rw [hx]
    dsimp only
    rw [e1]
    exact pairs_ends hg hl hsq (by omega) (by omega)
  · have hsq : l.length * l.length < 2 ^ 32 := by
      have := (Nat.le_div_iff_mul_le (Nat.pos_of_ne_zero h0)).1 h1
      omega
    exact pairs_ends hg hl hsq rfl (by omega)
  · exact singles_ends hg hl hn rfl (by omega)

/-! ### Orders -/

theorem exchanges_append (p k : ℕ) (ks : List ℕ) :
    exchanges p (ks ++ [k]) = exchanges p ks * Equiv.swap (p + ks.length) k := by
  induction ks generalizing p with
  | nil => simp [exchanges]
  | cons a r ih =>
    rw [List.cons_append, exchanges, exchanges, ih, mul_assoc, List.length_cons]
    congr 3
    omega

theorem exchanges_fix {p n : ℕ} {ks : List ℕ} (hn : p + ks.length ≤ n)
    (hk : ∀ i (h : i < ks.length), ks[i] ≤ p + i) {i : ℕ} (hi : n ≤ i) : exchanges p ks i = i := by
  induction ks generalizing p with
  | nil => rfl
  | cons a r ih =>
    rw [exchanges, Equiv.Perm.mul_apply, ih (p := p + 1) (by rw [List.length_cons] at hn; omega)]
    · refine Equiv.swap_apply_of_ne_of_ne ?_ ?_
      · rw [List.length_cons] at hn; omega
      · have := hk 0 (by simp)
        rw [List.length_cons] at hn
        simp only [List.getElem_cons_zero] at this
        omega
    · intro j hj
      have := hk (j + 1) (by simpa using hj)
      simp only [List.getElem_cons_succ] at this
      omega

theorem swap_getElem {α : Type} {l l' : List α} {i j : ℕ} (h : swap l i j = .ok l') (k : ℕ) :
    l'[k]? = l[Equiv.swap i j k]? := by
  unfold swap at h
  split at h
  · rename_i a b ha hb
    obtain rfl := Except.ok.inj h
    have hi := (List.getElem?_eq_some_iff.1 ha).1
    have hj := (List.getElem?_eq_some_iff.1 hb).1
    rcases eq_or_ne k j with rfl | hkj
    · rw [List.getElem?_set_self (by simpa using hj), Equiv.swap_apply_right, ha]
    · rw [List.getElem?_set_ne (Ne.symm hkj)]
      rcases eq_or_ne k i with rfl | hki
      · rw [List.getElem?_set_self hi, Equiv.swap_apply_left, hb]
      · rw [List.getElem?_set_ne (Ne.symm hki), Equiv.swap_apply_of_ne_of_ne hki hkj]
  · exact absurd h (by simp)

theorem singles_order {α : Type} {lib : Lib} {g : ℕ → ℕ} (hg : ∀ i, g i < 2 ^ 32) {fuel : ℕ} :
    ∀ {m p i : ℕ} {l l' : List α}, singles lib g fuel m p i l = some (.ok l') →
      ∃ ks : List ℕ, ks.length = m ∧ (∀ i (h : i < ks.length), ks[i] ≤ p + i) ∧
        ∀ i, l'[i]? = l[exchanges p ks i]? := by
  intro m
  induction m with
  | zero =>
    intro p i l l' h
    obtain rfl := Except.ok.inj (Option.some.inj h)
    exact ⟨[], rfl, by simp, fun _ => rfl⟩
  | succ m ih =>
    intro p i l l' h
    unfold singles at h
    split at h
    · exact absurd h (by simp)
    · rename_i x i' hx
      have hlt := pick_lt (by omega) hg hx
      split at h
      · exact absurd h (by simp)
      · rename_i l1 e1
        obtain ⟨ks, h1, h2, h3⟩ := ih h
        refine ⟨x :: ks, by simp [h1], ?_, fun i => ?_⟩
        · intro j hj
          cases j with
          | zero => simp only [List.getElem_cons_zero]; omega
          | succ j =>
            simp only [List.getElem_cons_succ]
            have := h2 j (by simpa using hj)
            omega
        · rw [h3, swap_getElem e1, exchanges, Equiv.Perm.mul_apply]

theorem pairs_order {α : Type} {lib : Lib} {g : ℕ → ℕ} (hg : ∀ i, g i < 2 ^ 32) {fuel : ℕ} :
    ∀ {m p i : ℕ} {l l' : List α}, pairs lib g fuel m p i l = some (.ok l') →
      ∃ ks : List ℕ, ks.length = 2 * m ∧ (∀ i (h : i < ks.length), ks[i] ≤ p + i) ∧
        ∀ i, l'[i]? = l[exchanges p ks i]? := by
  intro m
  induction m with
  | zero =>
    intro p i l l' h
    obtain rfl := Except.ok.inj (Option.some.inj h)
    exact ⟨[], rfl, by simp, fun _ => rfl⟩
  | succ m ih =>
    intro p i l l' h
    unfold pairs at h
    split at h
    · exact absurd h (by simp)
    · rename_i x i' hx
      have hlt := pick_lt (by positivity) hg hx
      have b1 : x / (p + 2) < p + 1 := Nat.div_lt_of_lt_mul (by rwa [Nat.mul_comm])
      have b2 : x % (p + 2) < p + 2 := Nat.mod_lt _ (by omega)
      cases e1 : swap l p (x / (p + 2)) with
      | error f => rw [e1] at h; exact absurd h (by simp [bind, Except.bind])
      | ok l1 =>
        rw [e1, Res.bind_ok] at h
        split at h
        · exact absurd h (by simp)
        · rename_i l2 e2
          obtain ⟨ks, h1, h2, h3⟩ := ih h
          refine ⟨x / (p + 2) :: x % (p + 2) :: ks, by simp [h1]; omega, ?_, fun i => ?_⟩
          · intro j hj
            match j with
            | 0 => simp only [List.getElem_cons_zero]; omega
            | 1 => simp only [List.getElem_cons_succ, List.getElem_cons_zero]; omega
            | j + 2 =>
              simp only [List.getElem_cons_succ]
              have := h2 j (by simpa using hj)
              omega
          · rw [h3, swap_getElem e2, swap_getElem e1, exchanges, exchanges, Equiv.Perm.mul_apply,
              Equiv.Perm.mul_apply]

theorem shuffleFor_order {α : Type} {lib : Lib} {g : ℕ → ℕ} (hg : ∀ i, g i < 2 ^ 32) {fuel : ℕ}
    {l l' : List α} (h : shuffleFor lib g fuel l = some (.ok l')) :
    ∃ ks, Choices l.length ks ∧ ∀ i, l'[i]? = l[exchanges 1 ks i]? := by
  have conv : ∀ ks : List ℕ, (∀ i (h : i < ks.length), ks[i] ≤ 1 + i) →
      ∀ i (h : i < ks.length), ks[i] ≤ i + 1 := fun ks h i hi => by have := h i hi; omega
  unfold shuffleFor at h
  dsimp only at h
  split_ifs at h with h0 h1 h2
  · obtain rfl := Except.ok.inj (Option.some.inj h)
    exact ⟨[], ⟨by simp [h0], by simp⟩, fun _ => rfl⟩
  · split at h
    · exact absurd h (by simp)
    · rename_i x i hx
      have hlt := pick_lt (by omega) hg hx
      split at h
      · exact absurd h (by simp)
      · rename_i l1 e1
        obtain ⟨ks, a1, a2, a3⟩ := pairs_order hg h
        refine ⟨x :: ks, ⟨by simp [a1]; omega, ?_⟩, fun i => ?_⟩
        · intro j hj
          cases j with
          | zero => simp only [List.getElem_cons_zero]; omega
          | succ j =>
            simp only [List.getElem_cons_succ]
            have := a2 j (by simpa using hj)
            omega
        · rw [a3, swap_getElem e1, exchanges, Equiv.Perm.mul_apply]
  · obtain ⟨ks, a1, a2, a3⟩ := pairs_order hg h
    exact ⟨ks, ⟨by omega, conv ks a2⟩, a3⟩
  · obtain ⟨ks, a1, a2, a3⟩ := singles_order hg h
    exact ⟨ks, ⟨by omega, conv ks a2⟩, a3⟩

/-- Every order arises from exactly one sequence of choices. -/
theorem exchanges_unique (n : ℕ) (σ : Equiv.Perm ℕ) (hσ : ∀ i, n ≤ i → σ i = i) :
    ∃! ks, Choices n ks ∧ exchanges 1 ks = σ := by
  induction n generalizing σ with
  | zero =>
    refine ⟨[], ⟨⟨rfl, by simp⟩, ?_⟩, ?_⟩
    · ext i
      rw [hσ i (by omega)]
      rfl
    · rintro ks ⟨⟨h, -⟩, -⟩
      exact List.length_eq_zero_iff.1 (by omega)
  | succ n ih =>
    rcases Nat.eq_zero_or_pos n with rfl | hn
    · refine ⟨[], ⟨⟨rfl, by simp⟩, ?_⟩, ?_⟩
      · ext i
        rcases Nat.eq_zero_or_pos i with rfl | hi
        · by_contra hne
          have h1 : 1 ≤ σ 0 := by
            rcases Nat.eq_zero_or_pos (σ 0) with h | h
            · exact absurd h.symm hne
            · exact h
          have h2 := σ.injective (hσ (σ 0) h1)
          omega
        · rw [hσ i (by omega)]
          rfl
      · rintro ks ⟨⟨h, -⟩, -⟩
        exact List.length_eq_zero_iff.1 (by omega)
    · -- the last choice is where the last position went
      set k := σ.symm n with hk
      have hσk : σ k = n := σ.apply_symm_apply n
      have hkn : k ≤ n := by
        by_contra h
        have := hσ k (by omega)
        omega
      obtain ⟨ks, ⟨⟨c1, c2⟩, c3⟩, cu⟩ := ih (σ * Equiv.swap n k) (by
        intro i hi
        rw [Equiv.Perm.mul_apply]
        rcases eq_or_lt_of_le hi with rfl | hi
        · rw [Equiv.swap_apply_left, hσk]
        · rw [Equiv.swap_apply_of_ne_of_ne (by omega) (by omega), hσ i (by omega)])
      refine ⟨ks ++ [k], ⟨⟨by simp [c1]; omega, ?_⟩, ?_⟩, ?_⟩
      · intro i hi
        rw [List.getElem_append]
        split
        · exact c2 i _
        · simp only [List.getElem_singleton]
          simp at hi
          omega
      · rw [exchanges_append, c3, c1, show 1 + (n - 1) = n by omega, mul_assoc,
          Equiv.swap_mul_self, mul_one]
      · rintro ls ⟨⟨d1, d2⟩, d3⟩
        obtain ⟨ms, m, rfl⟩ : ∃ ms m, ls = ms ++ [m] :=
          ⟨ls.dropLast, ls.getLast (by rintro rfl; simp at d1; omega),
            (List.dropLast_append_getLast _).symm⟩
        have hms : ms.length = n - 1 := by simp at d1; omega
        have hm : m ≤ n := by
          have := d2 ms.length (by simp)
          simpa [hms, show n - 1 + 1 = n by omega] using this
        have hmsc : ∀ i (h : i < ms.length), ms[i] ≤ i + 1 := by
          intro i hi
          have := d2 i (by simp; omega)
          rwa [List.getElem_append_left hi] at this
        rw [exchanges_append, hms, show 1 + (n - 1) = n by omega] at d3
        have hfix : exchanges 1 ms n = n :=
          exchanges_fix (n := n) (by omega) (fun i hi => by have := hmsc i hi; omega) (le_refl n)
        have hmk : m = k := by
          apply σ.injective
          rw [hσk, ← d3, Equiv.Perm.mul_apply, Equiv.swap_apply_right, hfix]
        subst hmk
        have : ms = ks := cu ms ⟨⟨hms, hmsc⟩, by
          rw [← d3, mul_assoc, Equiv.swap_mul_self, mul_one]⟩
        rw [this]

/-! ### Every order -/

theorem scale_reach (lib : Lib) {e v : ℕ} (he' : e < 2 ^ 32) (hv : v < e) :
    ∃ r < 2 ^ 32, scale lib e r = some v := by
  have he : 0 < e := by omega
  have hc := scale_count lib he he' hv
  have hpos : 0 < ((Finset.range (2 ^ 32)).filter fun r => scale lib e r = some v).card := by
    rw [hc]
    cases lib with
    | upTo10 => exact Nat.div_pos (by omega) he
    | from11 => exact Nat.div_pos (by omega) he
  obtain ⟨r, hr⟩ := Finset.card_pos.1 hpos
  obtain ⟨h1, h2⟩ := Finset.mem_filter.1 hr
  exact ⟨r, Finset.mem_range.1 h1, h2⟩

theorem pick_now {lib : Lib} {g : ℕ → ℕ} {e v i fuel : ℕ} (he : e < 2 ^ 32) (hf : 1 ≤ fuel)
    (h : scale lib e (g i) = some v) : pick lib g e fuel i = some (v, i + 1) := by
  obtain ⟨n, rfl⟩ : ∃ n, fuel = n + 1 := ⟨fuel - 1, by omega⟩
  unfold pick
  rw [if_pos he, h]

theorem swap_at {α : Type} (l : List α) {i j : ℕ} (hi : i < l.length) (hj : j < l.length) :
    ∃ l', swap l i j = .ok l' ∧ l'.length = l.length ∧ ∀ k, l'[k]? = l[Equiv.swap i j k]? := by
  obtain ⟨l', h, hp⟩ := swap_ok l hi hj
  exact ⟨l', h, hp.length_eq, swap_getElem h⟩

theorem singles_reach {α : Type} (lib : Lib) {n : ℕ} (hn : n < 2 ^ 32) (ks : List ℕ) :
    ∀ (p i : ℕ), (∀ j (h : j < ks.length), ks[j] ≤ p + j) → p + ks.length ≤ n →
      ∃ rs : ℕ → ℕ, (∀ j, rs j < 2 ^ 32) ∧ ∀ g : ℕ → ℕ, (∀ j, i ≤ j → g j = rs j) →
        ∀ fuel, 1 ≤ fuel → ∀ l : List α, l.length = n →
          ∃ l', singles lib g fuel ks.length p i l = some (.ok l') ∧
            ∀ k, l'[k]? = l[exchanges p ks k]? := by
  induction ks with
  | nil =>
    intro p i _ _
    exact ⟨fun _ => 0, fun _ => by norm_num, fun g _ fuel _ l _ => ⟨l, rfl, fun _ => rfl⟩⟩
  | cons x ks ih =>
    intro p i hk hp
    rw [List.length_cons] at hp
    have hx : x ≤ p := hk 0 (by simp)
    obtain ⟨r, hr, hs⟩ := scale_reach lib (e := p + 1) (v := x) (by omega) (by omega)
    obtain ⟨rs, h1, h2⟩ := ih (p + 1) (i + 1) (fun j hj => by
      have := hk (j + 1) (by simpa using hj)
      simp only [List.getElem_cons_succ] at this
      omega) (by omega)
    refine ⟨fun j => if j = i then r else rs j, fun j => ?_, fun g hg fuel hf l hl => ?_⟩
    · dsimp only
      split_ifs
      exacts [hr, h1 j]
    · obtain ⟨l1, e1, c1, g1⟩ := swap_at l (i := p) (j := x) (by omega) (by omega)
      obtain ⟨l', e2, g2⟩ := h2 g (fun j hj => by
        rw [hg j (by omega)]
        dsimp only
        rw [if_neg (by omega)]) fuel hf l1 (by omega)
      refine ⟨l', ?_, fun k => ?_⟩
      · have hgi : g i = r := by
          rw [hg i le_rfl]
          dsimp only
          rw [if_pos rfl]
        rw [List.length_cons, singles, pick_now (by omega) hf (by rw [hgi]; exact hs)]
        dsimp only
        rw [e1]
        exact e2
      · rw [g2, g1, exchanges, Equiv.Perm.mul_apply]

theorem pairs_reach {α : Type} (lib : Lib) {n : ℕ} (hn : n * n < 2 ^ 32) (m : ℕ) :
    ∀ (ks : List ℕ) (p i : ℕ), ks.length = 2 * m → (∀ j (h : j < ks.length), ks[j] ≤ p + j) →
      p + ks.length ≤ n →
      ∃ rs : ℕ → ℕ, (∀ j, rs j < 2 ^ 32) ∧ ∀ g : ℕ → ℕ, (∀ j, i ≤ j → g j = rs j) →
        ∀ fuel, 1 ≤ fuel → ∀ l : List α, l.length = n →
          ∃ l', pairs lib g fuel m p i l = some (.ok l') ∧
            ∀ k, l'[k]? = l[exchanges p ks k]? := by
  induction m with
  | zero =>
    intro ks p i hm _ _
    obtain rfl := List.length_eq_zero_iff.1 (by omega : ks.length = 0)
    exact ⟨fun _ => 0, fun _ => by norm_num, fun g _ fuel _ l _ => ⟨l, rfl, fun _ => rfl⟩⟩
  | succ m ih =>
    intro ks p i hm hk hp
    match ks, hm, hk, hp with
    | [], hm, _, _ => simp at hm
    | [_], hm, _, _ => simp at hm; omega
    | u :: v :: ks, hm, hk, hp =>
      simp only [List.length_cons] at hm hp
      have hu : u ≤ p := hk 0 (by simp)
      have hv : v ≤ p + 1 := hk 1 (by simp)
      have hle : (p + 1) * (p + 2) ≤ n * n := Nat.mul_le_mul (by omega) (by omega)
      have hval : u * (p + 2) + v < (p + 1) * (p + 2) := by nlinarith
      have hdiv : (u * (p + 2) + v) / (p + 2) = u := by
        rw [Nat.mul_comm, Nat.mul_add_div (by omega), Nat.div_eq_of_lt (by omega), Nat.add_zero]
      have hmod : (u * (p + 2) + v) % (p + 2) = v := by
        rw [Nat.mul_comm, Nat.mul_add_mod, Nat.mod_eq_of_lt (by omega)]
      obtain ⟨r, hr, hs⟩ := scale_reach lib (by omega) hval
      obtain ⟨rs, h1, h2⟩ := ih ks (p + 2) (i + 1) (by omega) (fun j hj => by
        have := hk (j + 2) (by simpa using hj)
        simp only [List.getElem_cons_succ] at this
        omega) (by omega)
      refine ⟨fun j => if j = i then r else rs j, fun j => ?_, fun g hg fuel hf l hl => ?_⟩
      · dsimp only
        split_ifs
        exacts [hr, h1 j]
      · obtain ⟨l1, e1, c1, g1⟩ := swap_at l (i := p) (j := u) (by omega) (by omega)
        obtain ⟨l2, e2, c2, g2⟩ := swap_at l1 (i := p + 1) (j := v) (by omega) (by omega)
        obtain ⟨l', e3, g3⟩ := h2 g (fun j hj => by
          rw [hg j (by omega)]
          dsimp only
          rw [if_neg (by omega)]) fuel hf l2 (by omega)
        refine ⟨l', ?_, fun k => ?_⟩
        · have hgi : g i = r := by
            rw [hg i le_rfl]
            dsimp only
            rw [if_pos rfl]
          rw [pairs, pick_now (by omega) hf (by rw [hgi]; exact hs)]
          dsimp only
          rw [hdiv, hmod, e1, Res.bind_ok, e2]
          exact e3
        · rw [g3, g2, g1, exchanges, exchanges, Equiv.Perm.mul_apply, Equiv.Perm.mul_apply]

/-- Every sequence of choices is made by some outputs. -/
theorem shuffleFor_reach {α : Type} (lib : Lib) (l : List α) (hn : l.length < 2 ^ 32) (ks : List ℕ)
    (hk : Choices l.length ks) :
    ∃ g : ℕ → ℕ, (∀ i, g i < 2 ^ 32) ∧ ∀ fuel, 1 ≤ fuel →
      ∃ l', shuffleFor lib g fuel l = some (.ok l') ∧ ∀ i, l'[i]? = l[exchanges 1 ks i]? := by
  obtain ⟨k1, k2⟩ := hk
  have k2' : ∀ j (h : j < ks.length), ks[j] ≤ 1 + j := fun j h => by have := k2 j h; omega
  by_cases h0 : l.length = 0
  · obtain rfl := List.length_eq_zero_iff.1 (by omega : ks.length = 0)
    refine ⟨fun _ => 0, fun _ => by norm_num, fun fuel _ => ⟨l, ?_, fun _ => rfl⟩⟩
    unfold shuffleFor
    rw [if_pos h0]
  by_cases h1 : l.length ≤ (2 ^ 32 - 1) / l.length
  · have hsq : l.length * l.length < 2 ^ 32 := by
      have := (Nat.le_div_iff_mul_le (Nat.pos_of_ne_zero h0)).1 h1
      omega
    by_cases h2 : l.length % 2 = 0
    · match ks, k1, k2' with
      | [], k1, _ => simp at k1; omega
      | x :: ks, k1, k2' =>
        rw [List.length_cons] at k1
        have hx : x ≤ 1 := k2' 0 (by simp)
        obtain ⟨r, hr, hs⟩ := scale_reach lib (e := 2) (v := x) (by norm_num) (by omega)
        obtain ⟨rs, r1, r2⟩ := pairs_reach (α := α) lib hsq ((l.length - 2) / 2) ks 2 1 (by omega)
          (fun j hj => by
            have := k2' (j + 1) (by simpa using hj)
            simp only [List.getElem_cons_succ] at this
            omega) (by omega)
        refine ⟨fun j => if j = 0 then r else rs j, fun j => ?_, fun fuel hf => ?_⟩
        · dsimp only
          split_ifs
          exacts [hr, r1 j]
        · obtain ⟨l1, e1, c1, g1⟩ := swap_at l (i := 1) (j := x) (by omega) (by omega)
          obtain ⟨l', e2, g2⟩ := r2 (fun j => if j = 0 then r else rs j) (fun j hj => if_neg (by omega)) fuel hf l1 c1
          refine ⟨l', ?_, fun k => ?_⟩
          · unfold shuffleFor
            dsimp only
            rw [if_neg h0, if_pos h1, if_pos h2,
              pick_now (v := x) (by norm_num) hf (by rw [if_pos rfl]; exact hs)]
            dsimp only
            rw [e1]
            exact e2
          · rw [g2, g1, exchanges, Equiv.Perm.mul_apply]
    · obtain ⟨rs, r1, r2⟩ := pairs_reach (α := α) lib hsq ((l.length - 1) / 2) ks 1 0 (by omega) k2'
        (by omega)
      refine ⟨rs, r1, fun fuel hf => ?_⟩
      obtain ⟨l', e, g⟩ := r2 rs (fun _ _ => rfl) fuel hf l rfl
      refine ⟨l', ?_, g⟩
      unfold shuffleFor
      dsimp only
      rw [if_neg h0, if_pos h1, if_neg h2]
      exact e
  · obtain ⟨rs, r1, r2⟩ := singles_reach (α := α) lib hn ks 1 0 k2' (by omega)
    refine ⟨rs, r1, fun fuel hf => ?_⟩
    obtain ⟨l', e, g⟩ := r2 rs (fun _ _ => rfl) fuel hf l rfl
    refine ⟨l', ?_, g⟩
    unfold shuffleFor
    dsimp only
    rw [if_neg h0, if_neg h1, ← k1]
    exact e

end Shuffle

end Capi
