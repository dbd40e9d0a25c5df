import Verif.Lemmas.Ring

/-!
# Sums over the edges of a ring, and what the preparation of a polygon leaves unchanged
-/

namespace Capi

open Jordan Complex

/-! ### Sums over edges -/

/-- The sum of a quantity over the edges. -/
noncomputable def ringSum (f : Coord → Coord → ℝ) (p : List Coord) : ℝ :=
  ∑ i ∈ Finset.range p.length, f (ringAt p i) (ringAt p (i + 1))

/-- The sum along a chain. -/
noncomputable def chainSum (f : Coord → Coord → ℝ) (a : Coord) (l : List Coord) (z : Coord) : ℝ :=
  ((chainPairs a l z).map fun p => f p.1 p.2).sum

theorem chainSum_cons (f : Coord → Coord → ℝ) (a b : Coord) (r : List Coord) (z : Coord) :
    chainSum f a (b :: r) z = f a b + chainSum f b r z := by simp [chainSum, chainPairs]
theorem chainSum_nil (f : Coord → Coord → ℝ) (a z : Coord) : chainSum f a [] z = f a z := by
  simp [chainSum, chainPairs]

theorem list_range_sum (g : ℕ → ℝ) (n : ℕ) :
    ((List.range n).map g).sum = ∑ i ∈ Finset.range n, g i := by
  induction n with
  | zero => rfl
  | succ n ih => rw [List.range_succ, List.map_append, List.sum_append, ih, Finset.sum_range_succ]; simp

theorem ringSum_cons (f : Coord → Coord → ℝ) (x : Coord) (t : List Coord) :
    ringSum f (x :: t) = chainSum f x t x := by
  unfold ringSum chainSum
  rw [← ringPairs_eq, List.map_map, ← list_range_sum]
  rfl

theorem ringSum_rotate (f : Coord → Coord → ℝ) (l r : List Coord) :
    ringSum f (l ++ r) = ringSum f (r ++ l) := by
  rcases l with _ | ⟨x, l⟩
  · simp
  rcases r with _ | ⟨y, r⟩
  · simp
  rw [List.cons_append, List.cons_append, ringSum_cons, ringSum_cons]
  unfold chainSum
  rw [chainPairs_append, chainPairs_append, List.map_append, List.map_append, List.sum_append,
    List.sum_append, add_comm]

theorem ringSum_reverse (f : Coord → Coord → ℝ) (vs : List Coord) :
    ringSum f vs.reverse = ringSum (fun a b => f b a) vs := by
  rcases vs with _ | ⟨x, t⟩
  · rfl
  rw [List.reverse_cons, ringSum_rotate, List.singleton_append, ringSum_cons, ringSum_cons]
  unfold chainSum
  rw [chainPairs_reverse, List.map_reverse, List.sum_reverse, List.map_map]
  rfl

theorem go_sum {f : Coord → Coord → ℝ} (h0 : ∀ a, f a a = 0)
    (hf : ∀ a' a n, SD (a.sub a') (n.sub a) → f a' n = f a' a + f a n) {a' a : Coord}
    {l : List Coord} {z : Coord} (hne : NE a l z) (hs : Straight a' a (l.headD z)) :
    chainSum f a' (go a l z) z = f a' a + chainSum f a l z := by
  have key : ∀ {a' a n : Coord}, Straight a' a n → f a' n = f a' a + f a n := by
    rintro a' a n (rfl | h)
    · rw [h0, zero_add]
    · exact hf _ _ _ h
  induction l generalizing a a' with
  | nil => rw [go, chainSum_nil, chainSum_nil]; exact key hs
  | cons b r ih =>
    rw [NE_cons] at hne
    rw [go]
    have hs' : Straight a' a b := hs
    split_ifs with hk
    · rw [chainSum_cons, ih hne.2 (Or.inl rfl), chainSum_cons, key hs', h0]
      ring
    · have hd := (keeps_false_iff_SD hne.1 hne.2.ne_head).1 (Bool.not_eq_true _ ▸ hk)
      rw [ih hne.2 (hs'.next hne.1 hd), chainSum_cons, key hs']; ring

/-- Merging edges in line with each other leaves the sum of an additive quantity unchanged. -/
theorem removeCollinear_sum {f : Coord → Coord → ℝ} (h0 : ∀ a, f a a = 0)
    (hf : ∀ a' a n, SD (a.sub a') (n.sub a) → f a' n = f a' a + f a n) {vs : List Coord}
    (h : NoRepeat vs) : ringSum f (Polygon.removeCollinear vs) = ringSum f vs := by
  by_cases hvs : vs = []
  · subst hvs; rfl
  obtain ⟨l, b, r, rfl, hk⟩ := exists_kept hvs h
  have hk := removeCollinear_cons_kept hk
  obtain ⟨l', r', e1, e2, _⟩ := removeCollinear_rotate l (b :: r)
  rw [noRepeat_rotate, List.cons_append, noRepeat_cons] at h
  rw [e1, ringSum_rotate, ← e2, ringSum_rotate f l, List.cons_append, hk, ringSum_cons,
    ringSum_cons, go_sum h0 hf h (Or.inl rfl), h0, zero_add]

/-! ### How often a point is met -/

/-- The point is on the edge, the end not counted. -/
def OnHalf (z : ℂ) (a b : Coord) : Prop :=
  a ≠ b ∧ ∃ t : ℝ, 0 ≤ t ∧ t < 1 ∧ z = a.pt + t • (b.pt - a.pt)

open Classical in
/-- One if the point is on the edge, the end not counted. -/
noncomputable def met (z : ℂ) (a b : Coord) : ℝ := if OnHalf z a b then 1 else 0

theorem met_nonneg (z : ℂ) (a b : Coord) : 0 ≤ met z a b := by
  unfold met
  split <;> norm_num

/-- A vertex taken out is within the edge that remains. -/
theorem SD.between {a' a n : Coord} (h : SD (a.sub a') (n.sub a)) :
    a' ≠ n ∧ ∃ t : ℝ, 0 < t ∧ t < 1 ∧ a.pt = a'.pt + t • (n.pt - a'.pt) := by
  have h1 : a ≠ a' := fun e => h.left_ne (sub_eq_zero_iff.2 e)
  have h2 : n ≠ a := fun e => h.right_ne (sub_eq_zero_iff.2 e)
  have h3 : a' ≠ n := by
    rintro rfl
    exact h.chain.left_ne (sub_eq_zero_iff.2 rfl)
  refine ⟨h3, ?_⟩
  obtain ⟨t, t0, t1, hx, hy⟩ :=
    (keeps_false_iff_onSeg a' a n).1 ((keeps_false_iff_cross a' a n).2 ⟨h.1, h.2.le⟩)
  simp only at hx hy
  have e : a.pt = a'.pt + (t : ℝ) • (n.pt - a'.pt) := by
    apply Complex.ext
    · simp only [Coord.pt, add_re, real_smul, re_ofReal_mul, sub_re]
      exact_mod_cast congrArg (fun q : ℚ => (q : ℝ)) hx
    · simp only [Coord.pt, add_im, real_smul, im_ofReal_mul, sub_im]
      exact_mod_cast congrArg (fun q : ℚ => (q : ℝ)) hy
  refine ⟨t, ?_, ?_, e⟩
  · refine lt_of_le_of_ne (by exact_mod_cast t0) fun h0 => h1 ?_
    rw [← h0, zero_smul, add_zero] at e
    exact pt_inj e
  · refine lt_of_le_of_ne (by exact_mod_cast t1) fun h0 => h2 ?_
    rw [h0, one_smul, add_sub_cancel] at e
    exact pt_inj e.symm

theorem met_same (z : ℂ) (a : Coord) : met z a a = 0 := by
  unfold met
  rw [if_neg]
  exact fun h => h.1 rfl

theorem met_add (z : ℂ) {a' a n : Coord} (h : SD (a.sub a') (n.sub a)) :
    met z a' n = met z a' a + met z a n := by
  have h1 : a' ≠ a := fun e => h.left_ne (sub_eq_zero_iff.2 e.symm)
  have h2 : a ≠ n := fun e => h.right_ne (sub_eq_zero_iff.2 e.symm)
  obtain ⟨h3, t, t0, t1, e⟩ := h.between
  have hw : n.pt - a'.pt ≠ 0 := fun h0 => h3 (pt_inj (sub_eq_zero.1 h0)).symm
  have e1 : a.pt - a'.pt = t • (n.pt - a'.pt) := by rw [e]; module
  have e2 : n.pt - a.pt = (1 - t) • (n.pt - a'.pt) := by rw [e]; module
  have i1 : OnHalf z a' n ↔ ∃ s : ℝ, 0 ≤ s ∧ s < 1 ∧ z = a'.pt + s • (n.pt - a'.pt) := by
    unfold OnHalf; simp [h3]
  have i2 : OnHalf z a' a ↔ ∃ s : ℝ, 0 ≤ s ∧ s < t ∧ z = a'.pt + s • (n.pt - a'.pt) := by
    unfold OnHalf
    constructor
    · rintro ⟨_, s, s0, s1, hz⟩
      refine ⟨s * t, by positivity, by nlinarith, ?_⟩
      rw [hz, e1, smul_smul]
    · rintro ⟨s, s0, s1, hz⟩
      refine ⟨h1, s / t, by positivity, by rw [div_lt_one t0]; exact s1, ?_⟩
      rw [hz, e1, smul_smul, div_mul_cancel₀ _ t0.ne']
  have ht1 : 0 < 1 - t := by linarith
  have i3 : OnHalf z a n ↔ ∃ s : ℝ, t ≤ s ∧ s < 1 ∧ z = a'.pt + s • (n.pt - a'.pt) := by
    unfold OnHalf
    constructor
    · rintro ⟨_, s, s0, s1, hz⟩
      refine ⟨t + s * (1 - t), by nlinarith, by nlinarith, ?_⟩
      rw [hz, e2, e, smul_smul, add_smul, add_assoc]
    · rintro ⟨s, s0, s1, hz⟩
      refine ⟨h2, (s - t) / (1 - t), div_nonneg (by linarith) ht1.le,
        by rw [div_lt_one ht1]; linarith, ?_⟩
      rw [hz, e2, e, smul_smul, div_mul_cancel₀ _ ht1.ne', add_assoc, ← add_smul]
      congr 2
      ring
  have excl : ¬ (OnHalf z a' a ∧ OnHalf z a n) := by
    rw [i2, i3]
    rintro ⟨⟨s, s0, s1, hz⟩, ⟨r, r0, r1, hz'⟩⟩
    rw [hz] at hz'
    have := smul_left_injective ℝ hw (add_left_cancel hz')
    linarith
  have cover : OnHalf z a' n ↔ OnHalf z a' a ∨ OnHalf z a n := by
    rw [i1, i2, i3]
    constructor
    · rintro ⟨s, s0, s1, hz⟩
      rcases lt_or_ge s t with k | k
      · exact Or.inl ⟨s, s0, k, hz⟩
      · exact Or.inr ⟨s, k, s1, hz⟩
    · rintro (⟨s, s0, s1, hz⟩ | ⟨s, s0, s1, hz⟩)
      · exact ⟨s, s0, by linarith, hz⟩
      · exact ⟨s, by linarith, s1, hz⟩
  unfold met
  by_cases k1 : OnHalf z a' a
  · have k2 : ¬ OnHalf z a n := fun k => excl ⟨k1, k⟩
    rw [if_pos (cover.2 (Or.inl k1)), if_pos k1, if_neg k2]
    norm_num
  · by_cases k2 : OnHalf z a n
    · rw [if_pos (cover.2 (Or.inr k2)), if_neg k1, if_pos k2]
      norm_num
    · rw [if_neg fun k => (cover.1 k).elim k1 k2, if_neg k1, if_neg k2]
      norm_num

/-- Counting the end instead of the beginning. -/
theorem met_swap (z : ℂ) {a b : Coord} (h : a ≠ b) :
    met z b a = met z a b + ((if z = b.pt then 1 else 0) - (if z = a.pt then 1 else 0)) := by
  have hw : b.pt - a.pt ≠ 0 := fun h0 => h (pt_inj (sub_eq_zero.1 h0)).symm
  have i1 : OnHalf z b a ↔ ∃ s : ℝ, 0 < s ∧ s ≤ 1 ∧ z = a.pt + s • (b.pt - a.pt) := by
    unfold OnHalf
    constructor
    · rintro ⟨_, t, t0, t1, hz⟩
      exact ⟨1 - t, by linarith, by linarith, by rw [hz]; module⟩
    · rintro ⟨t, t0, t1, hz⟩
      exact ⟨h.symm, 1 - t, by linarith, by linarith, by rw [hz]; module⟩
  have i2 : OnHalf z a b ↔ ∃ s : ℝ, 0 ≤ s ∧ s < 1 ∧ z = a.pt + s • (b.pt - a.pt) := by
    unfold OnHalf; simp [h]
  by_cases hs : ∃ s : ℝ, z = a.pt + s • (b.pt - a.pt)
  · obtain ⟨s, rfl⟩ := hs
    have inj : ∀ r : ℝ, a.pt + s • (b.pt - a.pt) = a.pt + r • (b.pt - a.pt) → s = r :=
      fun r e => smul_left_injective ℝ hw (add_left_cancel e)
    have j1 : OnHalf (a.pt + s • (b.pt - a.pt)) b a ↔ 0 < s ∧ s ≤ 1 := by
      rw [i1]
      constructor
      · rintro ⟨r, r0, r1, e⟩
        rw [inj r e]
        exact ⟨r0, r1⟩
      · rintro ⟨r0, r1⟩
        exact ⟨s, r0, r1, rfl⟩
    have j2 : OnHalf (a.pt + s • (b.pt - a.pt)) a b ↔ 0 ≤ s ∧ s < 1 := by
      rw [i2]
      constructor
      · rintro ⟨r, r0, r1, e⟩
        rw [inj r e]
        exact ⟨r0, r1⟩
      · rintro ⟨r0, r1⟩
        exact ⟨s, r0, r1, rfl⟩
    have j3 : a.pt + s • (b.pt - a.pt) = b.pt ↔ s = 1 := by
      constructor
      · intro e
        exact inj 1 (by rw [e]; module)
      · rintro rfl
        module
    have j4 : a.pt + s • (b.pt - a.pt) = a.pt ↔ s = 0 := by
      constructor
      · intro e
        exact inj 0 (by rw [e]; module)
      · rintro rfl
        module
    unfold met
    simp only [j1, j2, j3, j4]
    rcases lt_trichotomy s 0 with k | rfl | k
    · rw [if_neg (by intro h; linarith [h.1]), if_neg (by intro h; linarith [h.1]),
        if_neg (by linarith), if_neg (by linarith)]
      norm_num
    · norm_num
    · rcases lt_trichotomy s 1 with m | rfl | m
      · rw [if_pos ⟨k, m.le⟩, if_pos ⟨k.le, m⟩, if_neg m.ne, if_neg k.ne']
        norm_num
      · norm_num
      · rw [if_neg (by intro h; linarith [h.2]), if_neg (by intro h; linarith [h.2]),
          if_neg m.ne', if_neg k.ne']
        norm_num
  · have k1 : ¬ OnHalf z b a := fun k => by
      obtain ⟨s, _, _, e⟩ := i1.1 k
      exact hs ⟨s, e⟩
    have k2 : ¬ OnHalf z a b := fun k => by
      obtain ⟨s, _, _, e⟩ := i2.1 k
      exact hs ⟨s, e⟩
    have k3 : z ≠ b.pt := fun e => hs ⟨1, by rw [e]; module⟩
    have k4 : z ≠ a.pt := fun e => hs ⟨0, by rw [e]; module⟩
    unfold met
    rw [if_neg k1, if_neg k2, if_neg k3, if_neg k4]
    norm_num

/-- How often the point is met on the way round. -/
noncomputable def often (p : List Coord) (z : ℂ) : ℝ := ringSum (met z) p

theorem ringSum_telescope (g : Coord → ℝ) (p : List Coord) :
    ringSum (fun a b => g b - g a) p = 0 := by
  unfold ringSum
  rw [Finset.sum_range_sub fun i => g (ringAt p i)]
  unfold ringAt
  rw [Nat.mod_self, Nat.zero_mod, sub_self]

theorem often_reverse {p : List Coord} (h : NoRepeat p) (z : ℂ) : often p.reverse z = often p z := by
  unfold often
  rw [ringSum_reverse]
  have : ringSum (fun a b => met z b a) p = ringSum (met z) p +
      ringSum (fun a b => (if z = b.pt then (1 : ℝ) else 0) - (if z = a.pt then 1 else 0)) p := by
    unfold ringSum
    rw [← Finset.sum_add_distrib]
    exact Finset.sum_congr rfl fun i hi => met_swap z (h i (Finset.mem_range.1 hi))
  rw [this, ringSum_telescope (fun c => if z = c.pt then (1 : ℝ) else 0), add_zero]

theorem often_removeCollinear {p : List Coord} (h : NoRepeat p) (z : ℂ) :
    often (Polygon.removeCollinear p) z = often p z :=
  removeCollinear_sum (met_same z) (fun _ _ _ => met_add z) h

/-- The coast is what is met. -/
theorem coast_often {p : List Coord} (h : NoRepeat p) (z : ℂ) : z ∈ Coast p ↔ 0 < often p z := by
  have hpos : 0 < often p z ↔ ∃ i < p.length, OnHalf z (ringAt p i) (ringAt p (i + 1)) := by
    unfold often ringSum
    constructor
    · intro hp
      by_contra hc
      push Not at hc
      rw [Finset.sum_eq_zero] at hp
      · exact lt_irrefl _ hp
      · intro i hi
        unfold met
        rw [if_neg (hc i (Finset.mem_range.1 hi))]
    · rintro ⟨i, hi, k⟩
      refine Finset.sum_pos' (fun j _ => met_nonneg _ _ _) ⟨i, Finset.mem_range.2 hi, ?_⟩
      unfold met
      rw [if_pos k]
      norm_num
  rw [hpos]
  constructor
  · rintro ⟨i, hi, hz⟩
    rw [segment_eq_image'] at hz
    obtain ⟨t, ⟨t0, t1⟩, e⟩ := hz
    rcases t1.lt_or_eq with t1 | rfl
    · exact ⟨i, hi, h i hi, t, t0, t1, e.symm⟩
    · have hn : 0 < p.length := by omega
      refine ⟨(i + 1) % p.length, Nat.mod_lt _ hn, h _ (Nat.mod_lt _ hn), 0, le_rfl, one_pos, ?_⟩
      have : ringAt p ((i + 1) % p.length) = ringAt p (i + 1) := by
        unfold ringAt
        rw [Nat.mod_mod]
      rw [this, ← e]
      module
  · rintro ⟨i, hi, _, t, t0, t1, e⟩
    refine ⟨i, hi, ?_⟩
    rw [segment_eq_image']
    exact ⟨t, ⟨t0, t1.le⟩, e.symm⟩

theorem simple_noRepeat {p : List Coord} (h : SimpleRing p) : NoRepeat p := by
  intro i hi e
  have hl := (simple_loop h).ne i
  exact hl (congrArg Coord.pt e)

/-- A ring is simple if no point is met twice. -/
theorem simple_often {p : List Coord} :
    SimpleRing p ↔ 3 ≤ p.length ∧ NoRepeat p ∧ ∀ z, often p z ≤ 1 := by
  constructor
  · intro h
    have hr := simple_noRepeat h
    refine ⟨h.size, hr, fun z => ?_⟩
    unfold often ringSum
    by_cases hc : ∃ i < p.length, OnHalf z (ringAt p i) (ringAt p (i + 1))
    · obtain ⟨i, hi, k⟩ := hc
      rw [Finset.sum_eq_single_of_mem i (Finset.mem_range.2 hi)]
      · unfold met
        rw [if_pos k]
      · intro j hj hji
        unfold met
        rw [if_neg]
        rintro ⟨_, t, t0, t1, e⟩
        obtain ⟨_, s, s0, s1, e'⟩ := k
        exact h.apart j (Finset.mem_range.1 hj) i hi hji t s t0 t1 s0 s1 (e.symm.trans e')
    · rw [Finset.sum_eq_zero]
      · norm_num
      · intro i hi
        unfold met
        rw [if_neg fun k => hc ⟨i, Finset.mem_range.1 hi, k⟩]
  · rintro ⟨h1, h2, h3⟩
    refine ⟨h1, fun i hi j hj hij s t s0 s1 t0 t1 e => ?_⟩
    have := h3 (Along p i s)
    unfold often ringSum at this
    have k1 : met (Along p i s) (ringAt p i) (ringAt p (i + 1)) = 1 := by
      unfold met
      rw [if_pos ⟨h2 i hi, s, s0, s1, rfl⟩]
    have k2 : met (Along p i s) (ringAt p j) (ringAt p (j + 1)) = 1 := by
      unfold met
      rw [if_pos ⟨h2 j hj, t, t0, t1, e⟩]
    have hle : ∑ k ∈ {i, j}, met (Along p i s) (ringAt p k) (ringAt p (k + 1)) ≤
        ∑ k ∈ Finset.range p.length, met (Along p i s) (ringAt p k) (ringAt p (k + 1)) := by
      apply Finset.sum_le_sum_of_subset_of_nonneg
      · intro k hk
        simp only [Finset.mem_insert, Finset.mem_singleton] at hk
        rcases hk with rfl | rfl <;> simpa
      · intro k _ _
        exact met_nonneg _ _ _
    rw [Finset.sum_pair hij, k1, k2] at hle
    linarith

/-! ### The angle -/

open Classical in
/-- The angle under which an edge is seen, zero from its own points. -/
noncomputable def seen (x : ℂ) (a b : Coord) : ℝ :=
  if x ∈ segment ℝ a.pt b.pt then 0 else angle a.pt b.pt x

theorem seen_same (x : ℂ) (a : Coord) : seen x a a = 0 := by
  unfold seen angle
  split_ifs with h
  · rfl
  · rw [segment_same] at h
    rw [div_self (sub_ne_zero.2 fun e => h e.symm), arg_one]

theorem turning_seen {p : List Coord} {x : ℂ} (hx : x ∉ Coast p) :
    turning p x = ringSum (seen x) p := by
  unfold turning ringSum
  refine Finset.sum_congr rfl fun i hi => ?_
  unfold seen
  rw [if_neg fun h => hx ⟨i, Finset.mem_range.1 hi, h⟩]
  rfl

theorem angle_line {a v : ℂ} {c : ℝ} (hc : 0 < c) (h : v = c • a) (ha : a ≠ 0) : arg (v / a) = 0 := by
  rw [h, real_smul, mul_div_assoc, div_self ha, mul_one, arg_ofReal_of_nonneg hc.le]

theorem angle_add {a b w x : ℂ} {t : ℝ} (t0 : 0 < t) (t1 : t < 1) (hb : b = a + t • (w - a))
    (hx : x ∉ segment ℝ a w) : angle a w x = angle a b x + angle b w x := by
  have hpi := Real.pi_pos
  have hbm : b ∈ segment ℝ a w := by
    rw [segment_eq_image']
    exact ⟨t, ⟨t0.le, t1.le⟩, hb.symm⟩
  have ha0 : a - x ≠ 0 := fun h => hx (sub_eq_zero.1 h ▸ left_mem_segment ℝ a w)
  have hw0 : w - x ≠ 0 := fun h => hx (sub_eq_zero.1 h ▸ right_mem_segment ℝ a w)
  have hb0 : b - x ≠ 0 := fun h => hx (sub_eq_zero.1 h ▸ hbm)
  have hsub1 : x ∉ segment ℝ a b := fun h =>
    hx ((convex_segment a w).segment_subset (left_mem_segment ℝ a w) hbm h)
  have hsub2 : x ∉ segment ℝ b w := fun h =>
    hx ((convex_segment a w).segment_subset hbm (right_mem_segment ℝ a w) h)
  have hprod : (w - x) / (a - x) = ((b - x) / (a - x)) * ((w - x) / (b - x)) := by
    field_simp
  have e1 : turn a b x = t * turn a w x := by
    rw [hb]
    unfold turn
    simp only [add_re, add_im, real_smul, re_ofReal_mul, im_ofReal_mul, sub_re, sub_im]
    ring
  have e2 : turn b w x = (1 - t) * turn a w x := by
    rw [hb]
    unfold turn
    simp only [add_re, add_im, real_smul, re_ofReal_mul, im_ofReal_mul, sub_re, sub_im]
    ring
  have q1 := ratio_im a w x
  have q2 := ratio_im a b x
  have q3 := ratio_im b w x
  have na : 0 < normSq (a - x) := normSq_pos.2 ha0
  have nb : 0 < normSq (b - x) := normSq_pos.2 hb0
  have hang : ((angle a w x : ℝ) : Real.Angle) = ((angle a b x + angle b w x : ℝ) : Real.Angle) := by
    unfold angle
    rw [hprod, arg_mul_coe_angle (div_ne_zero hb0 ha0) (div_ne_zero hw0 hb0), Real.Angle.coe_add]
  obtain ⟨k, hk⟩ := Real.Angle.angle_eq_iff_two_pi_dvd_sub.1 hang
  have b1 : -Real.pi < angle a w x ∧ angle a w x < Real.pi :=
    ⟨neg_pi_lt_arg _, lt_of_le_of_ne (arg_le_pi _) (mem_slitPlane_iff_arg.1 (slit hx)).1⟩
  have b2 : -Real.pi < angle a b x ∧ angle a b x < Real.pi :=
    ⟨neg_pi_lt_arg _, lt_of_le_of_ne (arg_le_pi _) (mem_slitPlane_iff_arg.1 (slit hsub1)).1⟩
  have b3 : -Real.pi < angle b w x ∧ angle b w x < Real.pi :=
    ⟨neg_pi_lt_arg _, lt_of_le_of_ne (arg_le_pi _) (mem_slitPlane_iff_arg.1 (slit hsub2)).1⟩
  have hk0 : k = 0 := by
    have hcase : |angle a w x - (angle a b x + angle b w x)| < 2 * Real.pi := by
      rw [abs_lt]
      rcases lt_trichotomy (turn a w x) 0 with ht | ht | ht
      · have r1 := arg_neg (z := (w - x) / (a - x)) (by rw [q1]; exact div_neg_of_neg_of_pos ht na)
        have r2 := arg_neg (z := (b - x) / (a - x))
          (by rw [q2, e1]; exact div_neg_of_neg_of_pos (mul_neg_of_pos_of_neg t0 ht) na)
        have r3 := arg_neg (z := (w - x) / (b - x))
          (by rw [q3, e2]; exact div_neg_of_neg_of_pos (mul_neg_of_pos_of_neg (by linarith) ht) nb)
        unfold angle
        constructor <;> linarith [r1.1, r1.2, r2.1, r2.2, r3.1, r3.2]
      · have z1 : angle a b x = 0 ∨ angle a b x = Real.pi := by
          unfold angle
          have : ((b - x) / (a - x)).im = 0 := by rw [q2, e1, ht]; simp
          rcases le_or_gt 0 ((b - x) / (a - x)).re with h | h
          · exact Or.inl (arg_eq_zero_iff.2 ⟨h, this⟩)
          · exact Or.inr (arg_eq_pi_iff.2 ⟨h, this⟩)
        rcases z1 with z1 | z1
        · rw [z1]
          constructor <;> linarith [b1.1, b1.2, b3.1, b3.2]
        · linarith [b2.2]
      · have r1 := arg_pos (z := (w - x) / (a - x)) (by rw [q1]; positivity)
        have r2 := arg_pos (z := (b - x) / (a - x)) (by rw [q2, e1]; positivity)
        have r3 := arg_pos (z := (w - x) / (b - x))
          (by rw [q3, e2]; exact div_pos (mul_pos (by linarith) ht) nb)
        unfold angle
        constructor <;> linarith [r1.1, r1.2, r2.1, r2.2, r3.1, r3.2]
    rw [hk, abs_mul, abs_of_pos (by positivity : 0 < 2 * Real.pi)] at hcase
    have : |(k : ℝ)| < 1 := by
      by_contra hc
      have := mul_le_mul_of_nonneg_left (not_lt.1 hc) (by positivity : 0 ≤ 2 * Real.pi)
      linarith
    have : |k| < 1 := by exact_mod_cast this
    exact Int.abs_lt_one_iff.1 this
  rw [hk0, Int.cast_zero, mul_zero] at hk
  linarith

theorem seen_add (x : ℂ) {a' a n : Coord} (h : SD (a.sub a') (n.sub a)) :
    seen x a' n = seen x a' a + seen x a n := by
  obtain ⟨h3, t, t0, t1, e⟩ := h.between
  have ham : a.pt ∈ segment ℝ a'.pt n.pt := by
    rw [segment_eq_image']
    exact ⟨t, ⟨t0.le, t1.le⟩, e.symm⟩
  by_cases hx : x ∈ segment ℝ a'.pt n.pt
  · have hw : n.pt - a'.pt ≠ 0 := fun h0 => h3 (pt_inj (sub_eq_zero.1 h0)).symm
    have z1 : seen x a' n = 0 := by unfold seen; rw [if_pos hx]
    rw [segment_eq_image'] at hx
    obtain ⟨s, ⟨s0, s1⟩, rfl⟩ := hx
    have d1 : a.pt - (a'.pt + s • (n.pt - a'.pt)) = (t - s) • (n.pt - a'.pt) := by rw [e]; module
    have d2 : n.pt - (a'.pt + s • (n.pt - a'.pt)) = (1 - s) • (n.pt - a'.pt) := by module
    have d3 : a'.pt - (a'.pt + s • (n.pt - a'.pt)) = (-s) • (n.pt - a'.pt) := by module
    have z2 : seen (a'.pt + s • (n.pt - a'.pt)) a' a = 0 := by
      unfold seen
      split_ifs with k
      · rfl
      · have hst : t < s := by
          by_contra hc
          apply k
          rw [segment_eq_image']
          refine ⟨s / t, ⟨by positivity, by rw [div_le_one t0]; exact not_lt.1 hc⟩, ?_⟩
          simp only
          rw [e, add_sub_cancel_left, smul_smul, div_mul_cancel₀ _ t0.ne']
        unfold angle
        rw [d1, d3]
        refine angle_line (c := (t - s) / (-s)) (div_pos_of_neg_of_neg (by linarith) (by linarith))
          ?_ (smul_ne_zero (by linarith) hw)
        rw [smul_smul, div_mul_cancel₀ _ (by linarith)]
    have z3 : seen (a'.pt + s • (n.pt - a'.pt)) a n = 0 := by
      unfold seen
      split_ifs with k
      · rfl
      · have hst : s < t := by
          by_contra hc
          apply k
          have ht1 : 0 < 1 - t := by linarith
          rw [segment_eq_image']
          refine ⟨(s - t) / (1 - t), ⟨div_nonneg (by linarith [not_lt.1 hc]) ht1.le,
            by rw [div_le_one ht1]; linarith⟩, ?_⟩
          simp only
          have e2 : n.pt - a.pt = (1 - t) • (n.pt - a'.pt) := by rw [e]; module
          rw [e2, e, smul_smul, div_mul_cancel₀ _ ht1.ne', add_assoc, ← add_smul]
          congr 2
          ring
        unfold angle
        rw [d1, d2]
        refine angle_line (c := (1 - s) / (t - s)) (div_pos (by linarith) (by linarith))
          ?_ (smul_ne_zero (by linarith) hw)
        rw [smul_smul, div_mul_cancel₀ _ (by linarith)]
    rw [z1, z2, z3, add_zero]
  · have h1 : x ∉ segment ℝ a'.pt a.pt := fun k =>
      hx ((convex_segment _ _).segment_subset (left_mem_segment ℝ _ _) ham k)
    have h2 : x ∉ segment ℝ a.pt n.pt := fun k =>
      hx ((convex_segment _ _).segment_subset ham (right_mem_segment ℝ _ _) k)
    unfold seen
    rw [if_neg hx, if_neg h1, if_neg h2]
    exact angle_add t0 t1 e hx

theorem seen_swap (x : ℂ) (a b : Coord) : seen x b a = -seen x a b := by
  unfold seen
  rw [segment_symm ℝ b.pt a.pt]
  split_ifs with h
  · rw [neg_zero]
  · unfold angle
    have := (mem_slitPlane_iff_arg.1 (slit h)).1
    rw [← inv_div, arg_inv, if_neg this]

theorem ringSum_neg (f : Coord → Coord → ℝ) (p : List Coord) :
    ringSum (fun a b => -f a b) p = -ringSum f p := by
  unfold ringSum
  rw [Finset.sum_neg_distrib]

/-! ### Preparation of a polygon -/

theorem coast_reverse {p : List Coord} (h : NoRepeat p) : Coast p.reverse = Coast p := by
  have h' : NoRepeat p.reverse := by
    rcases p with _ | ⟨x, t⟩
    · exact h
    rw [List.reverse_cons, noRepeat_rotate, List.singleton_append, noRepeat_cons]
    rw [noRepeat_cons] at h
    unfold NE at *
    rw [chainPairs_reverse]
    intro p hp
    simp only [List.mem_reverse, List.mem_map] at hp
    obtain ⟨q, hq, rfl⟩ := hp
    exact fun e => h q hq e.symm
  ext z
  rw [coast_often h', coast_often h, often_reverse h]

theorem noRepeat_reverse {p : List Coord} (h : NoRepeat p) : NoRepeat p.reverse := by
  rcases p with _ | ⟨x, t⟩
  · exact h
  rw [List.reverse_cons, noRepeat_rotate, List.singleton_append, noRepeat_cons]
  rw [noRepeat_cons] at h
  unfold NE at *
  rw [chainPairs_reverse]
  intro p hp
  simp only [List.mem_reverse, List.mem_map] at hp
  obtain ⟨q, hq, rfl⟩ := hp
  exact fun e => h q hq e.symm

theorem interior_reverse {p : List Coord} (h : NoRepeat p) : Interior p.reverse = Interior p := by
  ext x
  unfold Interior
  simp only [Set.mem_ofPred_eq]
  rw [coast_reverse h]
  refine and_congr_right fun hx => ?_
  rw [turning_seen hx, turning_seen (by rwa [coast_reverse h]), ringSum_reverse]
  have : (fun a b => seen x b a) = fun a b => -seen x a b := by
    funext a b
    exact seen_swap x a b
  rw [this, ringSum_neg, Ne, neg_eq_zero]

theorem coast_removeCollinear {p : List Coord} (h : NoRepeat p) :
    Coast (Polygon.removeCollinear p) = Coast p := by
  ext z
  rw [coast_often (removeCollinear_noRepeat h), coast_often h, often_removeCollinear h]

theorem interior_removeCollinear {p : List Coord} (h : NoRepeat p) :
    Interior (Polygon.removeCollinear p) = Interior p := by
  ext x
  unfold Interior
  simp only [Set.mem_ofPred_eq]
  rw [coast_removeCollinear h]
  refine and_congr_right fun hx => ?_
  rw [turning_seen hx, turning_seen (by rwa [coast_removeCollinear h]),
    removeCollinear_sum (seen_same x) (fun _ _ _ => seen_add x) h]

theorem area_size {p : List Coord} (h : twiceArea p ≠ 0) : 3 ≤ p.length := by
  rcases p with _ | ⟨a, _ | ⟨b, _ | ⟨c, t⟩⟩⟩
  · exact absurd rfl h
  · exact absurd (by simp [twiceArea, ringAt]) h
  · refine absurd ?_ h
    simp [twiceArea, ringAt, Finset.sum_range_succ]
    ring
  · simp

theorem simple_reverse {p : List Coord} (h : SimpleRing p) : SimpleRing p.reverse := by
  have hr := simple_noRepeat h
  rw [simple_often] at h ⊢
  refine ⟨by simpa using h.1, noRepeat_reverse hr, fun z => ?_⟩
  rw [often_reverse hr]
  exact h.2.2 z

theorem simple_removeCollinear {p : List Coord} (h : SimpleRing p) (hA : twiceArea p ≠ 0) :
    SimpleRing (Polygon.removeCollinear p) := by
  have hr := simple_noRepeat h
  rw [simple_often] at h ⊢
  refine ⟨area_size (by rwa [removeCollinear_area hr]), removeCollinear_noRepeat hr, fun z => ?_⟩
  rw [often_removeCollinear hr]
  exact h.2.2 z

end Capi
