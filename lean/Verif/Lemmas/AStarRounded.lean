import Verif.Lemmas.AStar

/-!
# A* search with rounded distances

As the section on real distances in `Lemmas/AStar.lean`, but every operation may be off by a
relative error.
-/

namespace Capi

namespace AStar

variable {V D : Type} [DecidableEq V] [LinearOrder D]

/-- The search computes with distances that stand for reals and errs relatively by at most `ε` in
each addition and length, and by three such errors in each priority. -/
structure IsNear (P : Problem V D) (verts : Finset V) (val : D → ℝ) (len : V → V → ℝ) (h : V → ℝ)
    (w ε : ℝ) : Prop where
  eps : 0 ≤ ε ∧ ε ≤ 1
  mono : ∀ x y, x ≤ y → val x ≤ val y
  zero : val P.zero = 0
  nonneg : ∀ u v, 0 ≤ len u v
  lenLo : ∀ u ∈ verts, ∀ v ∈ P.nbrs u, (1 - ε) * len u v ≤ val (P.len u v)
  lenHi : ∀ u ∈ verts, ∀ v ∈ P.nbrs u, val (P.len u v) ≤ (1 + ε) * len u v
  addLo : ∀ x y, 0 ≤ val x → 0 ≤ val y → (1 - ε) * (val x + val y) ≤ val (P.add x y)
  addHi : ∀ x y, 0 ≤ val x → 0 ≤ val y → val (P.add x y) ≤ (1 + ε) * (val x + val y)
  prioLo : ∀ d v, 0 ≤ val d → (1 - ε) ^ 3 * (val d + h v * w) ≤ val (P.prio d v)
  prioHi : ∀ d v, 0 ≤ val d → val (P.prio d v) ≤ (1 + ε) ^ 3 * (val d + h v * w)

section

variable {P : Problem V D} {verts : Finset V} {val : D → ℝ} {len : V → V → ℝ} {h : V → ℝ} {w ε : ℝ}

omit [DecidableEq V] [LinearOrder D] in
theorem walkLength_nonneg (hn : ∀ u v, 0 ≤ len u v) (l : List V) : 0 ≤ walkLength len l := by
  induction l with
  | nil => simp [walkLength]
  | cons a r ih =>
    cases r with
    | nil => simp [walkLength]
    | cons b t =>
      have := hn a b
      simp only [walkLength] at ih ⊢
      linarith

omit [DecidableEq V] in
theorem IsNear.len_nonneg (hN : IsNear P verts val len h w ε) {u v : V} (hu : u ∈ verts)
    (hv : v ∈ P.nbrs u) : 0 ≤ val (P.len u v) :=
  le_trans (mul_nonneg (by linarith [hN.eps.2]) (hN.nonneg u v)) (hN.lenLo u hu v hv)

omit [DecidableEq V] in
/-- The rounded cost of a walk is not much less than its cost. -/
theorem IsNear.cost_lower (hN : IsNear P verts val len h w ε) (hW : Within P verts) (l : List V)
    (c : D) (u : V) (hu : u ∈ verts) (hc : 0 ≤ val c)
    (hch : (u :: l).IsChain fun a b => b ∈ P.nbrs a) :
    (1 - ε) ^ l.length * (val c + (1 - ε) * walkLength len (u :: l)) ≤ val (costFrom P c u l) := by
  have he := hN.eps
  have h1 : 0 ≤ 1 - ε := by linarith
  induction l generalizing c u with
  | nil => simp [costFrom, walkLength]
  | cons v r ih =>
    rw [List.isChain_cons_cons] at hch
    have a := hN.addLo c _ hc (hN.len_nonneg hu hch.1)
    have b := hN.lenLo u hu v hch.1
    have hl := hN.nonneg u v
    have hc' : 0 ≤ val (P.add c (P.len u v)) :=
      le_trans (mul_nonneg h1 (add_nonneg hc (hN.len_nonneg hu hch.1))) a
    have key := ih (P.add c (P.len u v)) v (hW.nbrs u hu v hch.1) hc' hch.2
    refine le_trans ?_ key
    rw [List.length_cons, pow_succ, mul_assoc]
    apply mul_le_mul_of_nonneg_left _ (pow_nonneg h1 _)
    have hw := walkLength_nonneg hN.nonneg (v :: r)
    have e : walkLength len (u :: v :: r) = len u v + walkLength len (v :: r) := by
      simp [walkLength]
    rw [e]
    nlinarith [mul_nonneg h1 hw, mul_nonneg (mul_nonneg h1 he.1) hw,
      mul_nonneg h1 (sub_nonneg.2 b)]

omit [DecidableEq V] in
/-- The rounded cost of a walk is not much more than its cost. -/
theorem IsNear.cost_upper (hN : IsNear P verts val len h w ε) (hW : Within P verts) (l : List V)
    (c : D) (u : V) (hu : u ∈ verts) (hc : 0 ≤ val c)
    (hch : (u :: l).IsChain fun a b => b ∈ P.nbrs a) :
    val (costFrom P c u l) ≤ (1 + ε) ^ l.length * (val c + (1 + ε) * walkLength len (u :: l)) := by
  have he := hN.eps
  have h1 : 0 ≤ 1 - ε := by linarith
  have h2 : 0 ≤ 1 + ε := by linarith
  induction l generalizing c u with
  | nil => simp [costFrom, walkLength]
  | cons v r ih =>
    rw [List.isChain_cons_cons] at hch
    have a := hN.addHi c _ hc (hN.len_nonneg hu hch.1)
    have a' := hN.addLo c _ hc (hN.len_nonneg hu hch.1)
    have b := hN.lenHi u hu v hch.1
    have hl := hN.nonneg u v
    have hc' : 0 ≤ val (P.add c (P.len u v)) :=
      le_trans (mul_nonneg h1 (add_nonneg hc (hN.len_nonneg hu hch.1))) a'
    have key := ih (P.add c (P.len u v)) v (hW.nbrs u hu v hch.1) hc' hch.2
    refine le_trans key ?_
    rw [List.length_cons, pow_succ, mul_assoc]
    apply mul_le_mul_of_nonneg_left _ (pow_nonneg h2 _)
    have hw := walkLength_nonneg hN.nonneg (v :: r)
    have e : walkLength len (u :: v :: r) = len u v + walkLength len (v :: r) := by
      simp [walkLength]
    rw [e]
    nlinarith [mul_nonneg h2 hw, mul_nonneg (mul_nonneg h2 he.1) hw,
      mul_nonneg h2 (sub_nonneg.2 b)]

/-- The list followed from a known node is not much longer than the node's rounded distance. -/
theorem IsNear.follow (hN : IsNear P verts val len h w ε) (hM : Monotone P) (hW : Within P verts)
    {ex : V → D → Prop} {s : State V D} (hI : Inv P verts ex s) (k : ℕ) (n : V) (d : D)
    (hd : s.dist n = some d) (l : List V) (hf : follow P.src s.prev k n = some (.ok l)) :
    (1 - ε) ^ l.length * walkLength len l.reverse ≤ val d := by
  have he := hN.eps
  have h0 : 0 ≤ 1 - ε := by linarith
  induction k generalizing n d l with
  | zero => cases hf
  | succ k ih =>
    rcases follow_ok hf with ⟨hc, hl⟩ | ⟨k', u, l', hk, hc, hpr, hl, hf'⟩
    · subst hl
      obtain ⟨lc, -, hcost, -⟩ := hI.costs n d hd
      have : P.zero ≤ d := by rw [hcost]; exact le_costFrom hM _ _ _
      have := hN.mono _ _ this
      rw [hN.zero] at this
      simpa [walkLength] using this
    · cases hk
      subst hl
      obtain ⟨u', du, h1, h2, h3, -, h5, h6⟩ := hI.pred n d hd
      rw [hpr] at h1
      cases h1
      have hhead := follow_head hf'
      rw [List.reverse_cons, walkLength_concat len l'.reverse u n
        (by rw [List.getLast?_reverse]; exact hhead)]
      have hu : u ∈ verts := by
        rcases h6 with ⟨hus, -⟩ | ⟨d', hd', -⟩
        · exact hus ▸ hW.src
        · exact hI.keys u d' hd'
      have hw : 0 ≤ walkLength len l'.reverse := walkLength_nonneg hN.nonneg _
      have hdu : 0 ≤ val du ∧ (1 - ε) ^ l'.length * walkLength len l'.reverse ≤ val du := by
        rcases h6 with ⟨hus, hz⟩ | ⟨d', hd', hle⟩
        · subst hus
          have := hN.mono _ _ hz
          rw [hN.zero] at this
          rcases follow_ok hf' with ⟨-, hl'⟩ | ⟨_, _, _, -, hne, -⟩
          · refine ⟨this, ?_⟩
            rw [hl']
            simpa [walkLength] using this
          · exact absurd rfl hne
        · have a := ih u d' hd' l' hf'
          have b := hN.mono _ _ hle
          exact ⟨le_trans (mul_nonneg (pow_nonneg h0 _) hw) (a.trans b), a.trans b⟩
      have hlen : 1 ≤ l'.length := by
        cases l' with
        | nil => cases hhead
        | cons => simp
      have hp : (1 - ε) ^ l'.length ≤ 1 - ε := by
        have := pow_le_pow_of_le_one h0 (by linarith : 1 - ε ≤ 1) hlen
        rwa [pow_one] at this
      have a := hN.addLo du _ hdu.1 (hN.len_nonneg hu h2)
      have b := hN.lenLo u hu n h2
      rw [h5] at a
      refine le_trans ?_ a
      rw [List.length_cons, pow_succ', mul_assoc]
      apply mul_le_mul_of_nonneg_left _ h0
      have := mul_le_mul_of_nonneg_right hp (hN.nonneg u n)
      rw [mul_add]
      linarith [hdu.2]

omit [DecidableEq V] [LinearOrder D] in
/-- A consistent heuristic that vanishes at the destination is at most the length of any walk to
the destination. -/
theorem heuristic_le' (hW : Within P verts)
    (hcons : ∀ u ∈ verts, ∀ v ∈ P.nbrs u, h u ≤ len u v + h v) (hdst : h P.dst = 0) (l : List V)
    (u : V) (hu : u ∈ verts) (hch : (u :: l).IsChain fun a b => b ∈ P.nbrs a)
    (hlast : l.getLastD u = P.dst) : h u ≤ walkLength len (u :: l) := by
  induction l generalizing u with
  | nil =>
    have : u = P.dst := hlast
    rw [this, hdst]
    simp [walkLength]
  | cons v r ih =>
    rw [List.isChain_cons_cons] at hch
    rw [List.getLastD_cons] at hlast
    have h1 := hcons u hu v hch.1
    have h2 := ih v (hW.nbrs u hu v hch.1) hch.2 hlast
    simp only [walkLength]
    linarith

/-- With a consistent heuristic, the path is not much more than `max 1 w` times as long as any walk
within the limit. -/
theorem IsNear.outcome_length (hN : IsNear P verts val len h w ε) (hM : Monotone P) (hw : 0 ≤ w)
    (hW : Within P verts)
    (hcons : ∀ u ∈ verts, ∀ v ∈ P.nbrs u, h u ≤ len u v + h v) (hdst : h P.dst = 0)
    {path : List V} (ho : Outcome P (.ok path))
    (rest : List V) (hch : (P.src :: rest).IsChain fun a b => b ∈ P.nbrs a)
    (hlast : rest.getLastD P.src = P.dst) (hfar : ∀ v ∈ rest, P.tooFar v = false) :
    (1 - ε) ^ (path.length + rest.length + 4) * walkLength len path ≤
      (1 + ε) ^ (rest.length + 4) * (max 1 w * walkLength len (P.src :: rest)) := by
  have he := hN.eps
  have h0 : 0 ≤ 1 - ε := by linarith
  have h0' : 0 ≤ 1 + ε := by linarith
  obtain ⟨s, k, r', hends, hf, hr⟩ := ho
  cases r' with
  | error f => cases hr
  | ok l =>
  have hpath : path = l.reverse := Except.ok.inj hr
  obtain ⟨s0, hH, hp, hd, hq | ⟨e, ht, hed⟩⟩ := ends_cases hM hW hends
  · obtain ⟨x, b, d', -, hx, -⟩ := head_frontier hM hH rest hch hlast hfar
    rw [hq] at hx
    cases hx
  · rw [hp] at hf
    obtain ⟨k', l', hl', hcase⟩ := found_follow hH ht.1 hed
    obtain ⟨le, hle⟩ := hH.inv.entry e ht.1
    have hpos : 0 ≤ val e.dist := by
      have := hN.mono _ _ (hle.zero_le hM)
      rwa [hN.zero] at this
    have hlen : path.length = l.length := by rw [hpath, List.length_reverse]
    -- the path is not much longer than the popped distance
    have h1 : (1 - ε) ^ path.length * walkLength len path ≤ val e.dist := by
      rw [hlen, hpath]
      rcases hcase with hsd | ⟨d, hd1, hd2⟩
      · rw [hsd] at hf
        rcases follow_ok hf with ⟨-, hl⟩ | ⟨_, _, _, -, hne, -⟩
        · rw [hl]; simpa [walkLength] using hpos
        · exact absurd rfl hne
      · exact (hN.follow hM hW hH.inv k P.dst d hd1 l hf).trans (hN.mono _ _ hd2)
    -- the popped distance is bounded by the frontier
    obtain ⟨x, b, d', hsuf, hx, hcost⟩ := head_frontier hM hH rest hch hlast hfar
    obtain ⟨lx, hlx⟩ := hH.inv.entry ⟨x, d'⟩ hx
    have hd' : 0 ≤ val d' := by
      have := hN.mono _ _ (hlx.zero_le hM)
      rwa [hN.zero] at this
    have hprio := hN.mono _ _ (not_lt.1 (ht.2 ⟨x, d'⟩ hx))
    have p1 := hN.prioLo e.dist e.node hpos
    rw [hed, hdst, zero_mul, add_zero] at p1
    rw [hed] at hprio
    have p2 := hN.prioHi d' x hd'
    have hchx : (x :: b).IsChain fun a b => b ∈ P.nbrs a := hch.suffix hsuf
    have hlastx : b.getLastD x = P.dst := by
      have h1 : (x :: b).getLast? = (P.src :: rest).getLast? := by
        obtain ⟨t, ht⟩ := hsuf
        rw [← ht, List.getLast?_append]
        simp [List.getLast?_cons]
      rw [List.getLast?_cons, List.getLast?_cons, ← List.getLastD_eq_getLast?,
        ← List.getLastD_eq_getLast?] at h1
      rw [Option.some.inj h1, hlast]
    have hxv := hH.inv.nodes _ hx
    have hh := heuristic_le' hW hcons hdst b x hxv hchx hlastx
    have c1 := hN.cost_lower hW b d' x hxv hd' hchx
    have c2 := hN.cost_upper hW rest P.zero P.src hW.src (le_of_eq hN.zero.symm) hch
    have c3 := hN.mono _ _ hcost
    rw [hN.zero, zero_add, ← mul_assoc, ← pow_succ] at c2
    have hb : b.length ≤ rest.length := by
      have := hsuf.length_le
      simpa using this
    have hwx : 0 ≤ walkLength len (x :: b) := walkLength_nonneg hN.nonneg _
    have hwr : 0 ≤ walkLength len (P.src :: rest) := walkLength_nonneg hN.nonneg _
    -- the rest of the walk, rounded
    have c4 : (1 - ε) ^ (rest.length + 1) * (val d' + walkLength len (x :: b)) ≤
        (1 + ε) ^ (rest.length + 1) * walkLength len (P.src :: rest) := by
      refine le_trans ?_ (c1.trans (c3.trans c2))
      rw [pow_succ, mul_assoc]
      apply mul_le_mul (pow_le_pow_of_le_one h0 (by linarith) hb) _ _ (pow_nonneg h0 _)
      · rw [mul_add]
        nlinarith
      · exact mul_nonneg h0 (add_nonneg hd' hwx)
    have hm1 : (1 : ℝ) ≤ max 1 w := le_max_left _ _
    have hm2 : w ≤ max 1 w := le_max_right _ _
    have c5 : val d' + h x * w ≤ max 1 w * (val d' + walkLength len (x :: b)) := by
      have h2 := mul_le_mul_of_nonneg_right hm1 hd'
      have h3 := mul_le_mul_of_nonneg_left hm2 hwx
      have h4 := mul_le_mul_of_nonneg_right hh hw
      nlinarith
    have hq0 : 0 ≤ (1 - ε) ^ (rest.length + 1) := pow_nonneg h0 _
    have hq1 : 0 ≤ (1 + ε) ^ 3 := pow_nonneg h0' _
    calc (1 - ε) ^ (path.length + rest.length + 4) * walkLength len path
        = (1 - ε) ^ (rest.length + 1) *
            ((1 - ε) ^ 3 * ((1 - ε) ^ path.length * walkLength len path)) := by ring
      _ ≤ (1 - ε) ^ (rest.length + 1) * ((1 - ε) ^ 3 * val e.dist) := by gcongr
      _ ≤ (1 - ε) ^ (rest.length + 1) * ((1 + ε) ^ 3 * (val d' + h x * w)) :=
          mul_le_mul_of_nonneg_left (p1.trans (hprio.trans p2)) hq0
      _ ≤ (1 - ε) ^ (rest.length + 1) *
            ((1 + ε) ^ 3 * (max 1 w * (val d' + walkLength len (x :: b)))) := by gcongr
      _ = (1 + ε) ^ 3 * max 1 w *
            ((1 - ε) ^ (rest.length + 1) * (val d' + walkLength len (x :: b))) := by ring
      _ ≤ (1 + ε) ^ 3 * max 1 w *
            ((1 + ε) ^ (rest.length + 1) * walkLength len (P.src :: rest)) := by
          apply mul_le_mul_of_nonneg_left c4
          apply mul_nonneg hq1
          linarith
      _ = (1 + ε) ^ (rest.length + 4) * (max 1 w * walkLength len (P.src :: rest)) := by ring

end

end AStar

end Capi
