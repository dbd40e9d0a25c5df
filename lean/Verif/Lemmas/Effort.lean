import Verif.Lemmas.AStar

/-!
# Lemmas for C79: how often the search inserts into its queue
-/

namespace Capi

namespace AStar

variable {V : Type} [DecidableEq V]

/-- After `k` iterations: every insertion but the first belongs to a different edge in `T`, nothing
in the queue has a priority below `f`, and the insertions of `T` came from entries of priority at
most `f`. -/
structure Counted (P : Problem V ℝ) (h : V → ℝ) (w : ℝ) (verts : Finset V) (k : ℕ) (f : ℝ)
    (T : Finset (V × V)) (s : State V ℝ) : Prop where
  count : k + s.pq.length = 1 + T.card
  edges : ∀ p ∈ T, p.1 ∈ verts ∧ p.2 ∈ P.nbrs p.1
  floor : ∀ x ∈ s.pq, f ≤ P.prio x.dist x.node
  done : ∀ p ∈ T, ∃ d, d + h p.1 * w ≤ f ∧ ∃ dv, s.dist p.2 = some dv ∧ dv ≤ d + P.len p.1 p.2

theorem relaxOne_counted {P : Problem V ℝ} {h : V → ℝ} {w : ℝ} (hP : IsReal P h w) (h0 : 0 ≤ w)
    (h1 : w ≤ 1) {verts : Finset V}
    (hcons : ∀ u ∈ verts, ∀ v ∈ P.nbrs u, h u ≤ P.len u v + h v) {k : ℕ} {e : Entry V ℝ}
    (he : e.node ∈ verts) {T : Finset (V × V)} {s : State V ℝ}
    (hs : Counted P h w verts k (P.prio e.dist e.node) T s) {n : V} (hn : n ∈ P.nbrs e.node) :
    ∃ T', Counted P h w verts k (P.prio e.dist e.node) T' (relaxOne P e s n) := by
  unfold relaxOne
  simp only
  by_cases hk : (P.tooFar n || known s n (P.add e.dist (P.len e.node n))) = true
  · rw [if_pos hk]
    exact ⟨T, hs⟩
  · rw [if_neg hk]
    have hlen := hP.len e.node n
    have hc := hcons e.node he n hn
    have hnew : (e.node, n) ∉ T := by
      intro hT
      obtain ⟨d, hd, dv, hv, hle⟩ := hs.done _ hT
      apply hk
      rw [Bool.or_eq_true]
      right
      rw [known_iff]
      refine ⟨dv, hv, hle.trans ?_⟩
      rw [hP.prio] at hd
      rw [hP.add]
      linarith
    refine ⟨insert (e.node, n) T, ?_, ?_, ?_, ?_⟩
    · rw [Finset.card_insert_of_notMem hnew]
      have := hs.count
      simp only [List.length_cons]
      omega
    · intro p hp
      rcases Finset.mem_insert.1 hp with rfl | hp
      · exact ⟨he, hn⟩
      · exact hs.edges p hp
    · intro x hx
      rcases List.mem_cons.1 hx with rfl | hx
      · rw [hP.prio, hP.prio, hP.add]
        simp only
        nlinarith [mul_le_mul_of_nonneg_right hc h0, mul_le_mul_of_nonneg_left h1 hlen]
      · exact hs.floor x hx
    · intro p hp
      rcases Finset.mem_insert.1 hp with rfl | hp
      · refine ⟨e.dist, le_of_eq (hP.prio _ _).symm, _, if_pos rfl, le_of_eq (hP.add _ _)⟩
      · obtain ⟨d, hd, dv, hv, hle⟩ := hs.done p hp
        by_cases hpn : p.2 = n
        · refine ⟨d, hd, _, if_pos hpn, ?_⟩
          have hx : ¬ ∃ d', s.dist n = some d' ∧ d' ≤ P.add e.dist (P.len e.node n) := by
            rw [← known_iff]
            intro hkn
            exact hk (by rw [hkn, Bool.or_true])
          rw [hpn] at hv
          exact (le_of_lt (not_le.1 fun hge => hx ⟨dv, hv, hge⟩)).trans hle
        · exact ⟨d, hd, dv, (if_neg hpn).trans hv, hle⟩

theorem relaxList_counted {P : Problem V ℝ} {h : V → ℝ} {w : ℝ} (hP : IsReal P h w) (h0 : 0 ≤ w)
    (h1 : w ≤ 1) {verts : Finset V}
    (hcons : ∀ u ∈ verts, ∀ v ∈ P.nbrs u, h u ≤ P.len u v + h v) {k : ℕ} {e : Entry V ℝ}
    (he : e.node ∈ verts) (l : List V) (hl : ∀ n ∈ l, n ∈ P.nbrs e.node) {T : Finset (V × V)}
    {s : State V ℝ} (hs : Counted P h w verts k (P.prio e.dist e.node) T s) :
    ∃ T', Counted P h w verts k (P.prio e.dist e.node) T' (l.foldl (relaxOne P e) s) := by
  induction l generalizing T s with
  | nil => exact ⟨T, hs⟩
  | cons n r ih =>
    obtain ⟨T', h'⟩ := relaxOne_counted hP h0 h1 hcons he hs (hl n List.mem_cons_self)
    exact ih (fun m hm => hl m (List.mem_cons_of_mem _ hm)) h'

theorem exec_counted {P : Problem V ℝ} {h : V → ℝ} {w : ℝ} (hP : IsReal P h w) (h0 : 0 ≤ w)
    (h1 : w ≤ 1) {verts : Finset V} (hW : Within P verts)
    (hcons : ∀ u ∈ verts, ∀ v ∈ P.nbrs u, h u ≤ P.len u v + h v) {k : ℕ} {s : State V ℝ}
    (hs : Exec P k s) : ∃ f T, Counted P h w verts k f T s := by
  induction hs with
  | init =>
    refine ⟨P.prio P.zero P.src, ∅, rfl, fun p hp => ?_, fun x hx => ?_, fun p hp => ?_⟩
    · cases hp
    · rw [List.mem_singleton.1 hx]
    · cases hp
  | @step k s e hs ht hed ih =>
    obtain ⟨f, T, hc⟩ := ih
    have he := (exec_inv hP.monotone hW hs).inv.nodes e ht.1
    have hf := hc.floor e ht.1
    have hpop : Counted P h w verts (k + 1) (P.prio e.dist e.node) T (pop s e) := by
      refine ⟨?_, hc.edges, fun x hx => not_lt.1 (ht.2 x (List.mem_of_mem_erase hx)), ?_⟩
      · have hl := List.length_erase_of_mem ht.1
        have hpos := List.length_pos_of_mem ht.1
        have := hc.count
        simp only [pop]
        omega
      · intro p hp
        obtain ⟨d, hd, hv⟩ := hc.done p hp
        exact ⟨d, hd.trans hf, hv⟩
    obtain ⟨T', h'⟩ := relaxList_counted hP h0 h1 hcons he (P.nbrs e.node) (fun _ h => h) hpop
    exact ⟨_, T', h'⟩

/-! ### Rounded distances, without a heuristic -/

section Plain

variable {D : Type} [LinearOrder D]

/-- `Counted` for a search whose priority is the distance itself. -/
structure CountedPlain (P : Problem V D) (verts : Finset V) (k : ℕ) (f : D)
    (T : Finset (V × V)) (s : State V D) : Prop where
  count : k + s.pq.length = 1 + T.card
  edges : ∀ p ∈ T, p.1 ∈ verts ∧ p.2 ∈ P.nbrs p.1
  floor : ∀ x ∈ s.pq, f ≤ x.dist
  done : ∀ p ∈ T, ∃ d ≤ f, ∃ dv, s.dist p.2 = some dv ∧ dv ≤ P.add d (P.len p.1 p.2)

theorem relaxOne_countedPlain {P : Problem V D} (hM : Monotone P) {verts : Finset V} {k : ℕ}
    {e : Entry V D} (he : e.node ∈ verts) {T : Finset (V × V)} {s : State V D}
    (hs : CountedPlain P verts k e.dist T s) {n : V} (hn : n ∈ P.nbrs e.node) :
    ∃ T', CountedPlain P verts k e.dist T' (relaxOne P e s n) := by
  unfold relaxOne
  simp only
  by_cases hk : (P.tooFar n || known s n (P.add e.dist (P.len e.node n))) = true
  · rw [if_pos hk]
    exact ⟨T, hs⟩
  · rw [if_neg hk]
    have hnew : (e.node, n) ∉ T := by
      intro hT
      obtain ⟨d, hd, dv, hv, hle⟩ := hs.done _ hT
      apply hk
      rw [Bool.or_eq_true]
      right
      rw [known_iff]
      exact ⟨dv, hv, hle.trans (hM.mono _ _ _ _ hd)⟩
    refine ⟨insert (e.node, n) T, ?_, ?_, ?_, ?_⟩
    · rw [Finset.card_insert_of_notMem hnew]
      have := hs.count
      simp only [List.length_cons]
      omega
    · intro p hp
      rcases Finset.mem_insert.1 hp with rfl | hp
      · exact ⟨he, hn⟩
      · exact hs.edges p hp
    · intro x hx
      rcases List.mem_cons.1 hx with rfl | hx
      · exact hM.infl _ _ _
      · exact hs.floor x hx
    · intro p hp
      rcases Finset.mem_insert.1 hp with rfl | hp
      · exact ⟨e.dist, le_rfl, _, if_pos rfl, le_rfl⟩
      · obtain ⟨d, hd, dv, hv, hle⟩ := hs.done p hp
        by_cases hpn : p.2 = n
        · refine ⟨d, hd, _, if_pos hpn, ?_⟩
          have hx : ¬ ∃ d', s.dist n = some d' ∧ d' ≤ P.add e.dist (P.len e.node n) := by
            rw [← known_iff]
            intro hkn
            exact hk (by rw [hkn, Bool.or_true])
          rw [hpn] at hv
          exact (le_of_lt (not_le.1 fun hge => hx ⟨dv, hv, hge⟩)).trans hle
        · exact ⟨d, hd, dv, (if_neg hpn).trans hv, hle⟩

theorem relaxList_countedPlain {P : Problem V D} (hM : Monotone P) {verts : Finset V} {k : ℕ}
    {e : Entry V D} (he : e.node ∈ verts) (l : List V) (hl : ∀ n ∈ l, n ∈ P.nbrs e.node)
    {T : Finset (V × V)} {s : State V D} (hs : CountedPlain P verts k e.dist T s) :
    ∃ T', CountedPlain P verts k e.dist T' (l.foldl (relaxOne P e) s) := by
  induction l generalizing T s with
  | nil => exact ⟨T, hs⟩
  | cons n r ih =>
    obtain ⟨T', h'⟩ := relaxOne_countedPlain hM he hs (hl n List.mem_cons_self)
    exact ih (fun m hm => hl m (List.mem_cons_of_mem _ hm)) h'

theorem exec_countedPlain {P : Problem V D} (hM : Monotone P)
    (hprio : ∀ d d' u v, P.prio d u < P.prio d' v ↔ d < d') {verts : Finset V}
    (hW : Within P verts) {k : ℕ} {s : State V D} (hs : Exec P k s) :
    ∃ f T, CountedPlain P verts k f T s := by
  induction hs with
  | init =>
    refine ⟨P.zero, ∅, rfl, fun p hp => ?_, fun x hx => ?_, fun p hp => ?_⟩
    · cases hp
    · rw [List.mem_singleton.1 hx]
    · cases hp
  | @step k s e hs ht hed ih =>
    obtain ⟨f, T, hc⟩ := ih
    have he := (exec_inv hM hW hs).inv.nodes e ht.1
    have hf := hc.floor e ht.1
    have hpop : CountedPlain P verts (k + 1) e.dist T (pop s e) := by
      refine ⟨?_, hc.edges, fun x hx => not_lt.1 fun hlt =>
        ht.2 x (List.mem_of_mem_erase hx) ((hprio _ _ _ _).2 hlt), ?_⟩
      · have hl := List.length_erase_of_mem ht.1
        have hpos := List.length_pos_of_mem ht.1
        have := hc.count
        simp only [pop]
        omega
      · intro p hp
        obtain ⟨d, hd, hv⟩ := hc.done p hp
        exact ⟨d, hd.trans hf, hv⟩
    obtain ⟨T', h'⟩ := relaxList_countedPlain hM he (P.nbrs e.node) (fun _ h => h) hpop
    exact ⟨_, T', h'⟩

end Plain

/-! ### Carrying an execution over to other distances -/

variable {D D' : Type} [LinearOrder D] [LinearOrder D']

/-- `Q` is the same search as `P` on the nodes in `S`, with the distances mapped by `φ`. -/
structure Same (P : Problem V D) (Q : Problem V D') (φ : D → D') (S : V → Prop) : Prop where
  src : Q.src = P.src
  dst : Q.dst = P.dst
  start : S P.src
  nbrs : ∀ u, S u → Q.nbrs u = P.nbrs u ∧ ∀ n ∈ P.nbrs u, S n
  len : ∀ u, S u → ∀ n ∈ P.nbrs u, Q.len u n = φ (P.len u n)
  add : ∀ x y, Q.add (φ x) (φ y) = φ (P.add x y)
  zero : Q.zero = φ P.zero
  le : ∀ x y, φ x ≤ φ y ↔ x ≤ y
  prio : ∀ x u y v, S u → S v →
    (Q.prio (φ x) u < Q.prio (φ y) v ↔ P.prio x u < P.prio y v)
  tooFar : ∀ n, S n → Q.tooFar n = P.tooFar n

def Entry.map (φ : D → D') (e : Entry V D) : Entry V D' := ⟨e.node, φ e.dist⟩

def State.map (φ : D → D') (s : State V D) : State V D' :=
  ⟨s.pq.map (Entry.map φ), s.prev, fun v => (s.dist v).map φ⟩

variable {P : Problem V D} {Q : Problem V D'} {φ : D → D'} {S : V → Prop}

omit [DecidableEq V] in
theorem Same.inj (h : Same P Q φ S) : Function.Injective (Entry.map (V := V) φ) := by
  rintro ⟨a, x⟩ ⟨b, y⟩ hxy
  simp only [Entry.map, Entry.mk.injEq] at hxy ⊢
  exact ⟨hxy.1, le_antisymm ((h.le x y).1 hxy.2.le) ((h.le y x).1 hxy.2.ge)⟩

theorem Same.relaxOne (h : Same P Q φ S) (e : Entry V D) (he : S e.node) (s : State V D) (n : V)
    (hn : n ∈ P.nbrs e.node) :
    relaxOne Q (e.map φ) (s.map φ) n = (relaxOne P e s n).map φ := by
  have hnd : Q.add (φ e.dist) (Q.len e.node n) = φ (P.add e.dist (P.len e.node n)) := by
    rw [h.len _ he _ hn, h.add]
  have hkn : known (s.map φ) n (φ (P.add e.dist (P.len e.node n))) =
      known s n (P.add e.dist (P.len e.node n)) := by
    unfold known State.map
    cases hd : s.dist n with
    | none => simp [hd]
    | some d => simp [hd, h.le]
  have ht := h.tooFar n ((h.nbrs _ he).2 n hn)
  unfold AStar.relaxOne
  simp only [Entry.map, hnd, hkn, ht]
  split
  · rfl
  · simp only [State.map, List.map_cons, Entry.map, State.mk.injEq, true_and]
    funext x
    split <;> rfl

theorem Same.relaxList (h : Same P Q φ S) (e : Entry V D) (he : S e.node) (l : List V)
    (hl : ∀ n ∈ l, n ∈ P.nbrs e.node) (s : State V D) :
    l.foldl (AStar.relaxOne Q (e.map φ)) (s.map φ) = (l.foldl (AStar.relaxOne P e) s).map φ := by
  induction l generalizing s with
  | nil => rfl
  | cons n r ih =>
    rw [List.foldl_cons, List.foldl_cons, h.relaxOne e he s n (hl n List.mem_cons_self)]
    exact ih (fun m hm => hl m (List.mem_cons_of_mem _ hm)) _

theorem relaxOne_pq (e : Entry V D) (s : State V D) (n : V) (x : Entry V D)
    (hx : x ∈ (relaxOne P e s n).pq) : x ∈ s.pq ∨ x.node = n := by
  unfold relaxOne at hx
  simp only at hx
  split at hx
  · exact Or.inl hx
  · rcases List.mem_cons.1 hx with rfl | hx
    · exact Or.inr rfl
    · exact Or.inl hx

theorem relaxList_pq (e : Entry V D) (l : List V) (s : State V D) (x : Entry V D)
    (hx : x ∈ (l.foldl (relaxOne P e) s).pq) : x ∈ s.pq ∨ x.node ∈ l := by
  induction l generalizing s with
  | nil => exact Or.inl hx
  | cons n r ih =>
    rcases ih _ hx with h1 | h1
    · rcases relaxOne_pq e s n x h1 with h2 | h2
      · exact Or.inl h2
      · exact Or.inr (h2 ▸ List.mem_cons_self)
    · exact Or.inr (List.mem_cons_of_mem _ h1)

/-- Every execution of the one search is an execution of the other. -/
theorem Same.exec (h : Same P Q φ S) {k : ℕ} {s : State V D} (hs : Exec P k s) :
    (∀ x ∈ s.pq, S x.node) ∧ Exec Q k (s.map φ) := by
  induction hs with
  | init =>
    refine ⟨fun x hx => ?_, ?_⟩
    · rw [List.mem_singleton.1 hx]; exact h.start
    · have : (AStar.init P).map φ = AStar.init Q := by
        simp [State.map, AStar.init, Entry.map, h.src, h.zero]
      rw [this]
      exact .init
  | @step k s e hs ht hed ih =>
    have he := ih.1 e ht.1
    constructor
    · intro x hx
      rcases relaxList_pq e _ _ x hx with h1 | h1
      · exact ih.1 x (List.mem_of_mem_erase h1)
      · exact (h.nbrs _ he).2 _ h1
    · have htop : IsTop Q (s.map φ).pq (e.map φ) := by
        refine ⟨List.mem_map_of_mem ht.1, fun x hx => ?_⟩
        obtain ⟨y, hy, rfl⟩ := List.mem_map.1 hx
        exact fun hlt => ht.2 y hy ((h.prio _ _ _ _ (ih.1 y hy) he).1 hlt)
      have := Exec.step ih.2 htop (by rw [h.dst]; exact hed)
      have hrel : relax Q (e.map φ) (pop (s.map φ) (e.map φ)) = (relax P e (pop s e)).map φ := by
        have hpop : pop (s.map φ) (e.map φ) = (pop s e).map φ := by
          simp only [pop, State.map, State.mk.injEq, and_true]
          exact (List.map_erase h.inj s.pq).symm
        unfold relax
        rw [hpop]
        have hnb : Q.nbrs (e.map φ).node = P.nbrs e.node := (h.nbrs _ he).1
        rw [hnb]
        exact h.relaxList e he _ (fun _ h => h) _
      rw [hrel] at this
      exact this

omit [DecidableEq V] in
/-- `pick` chooses an element the queue may return. -/
theorem pick_top (P : Problem V D) (pq : List (Entry V D)) (e : Entry V D)
    (h : pick P pq = some e) : IsTop P pq e := by
  induction pq generalizing e with
  | nil => cases h
  | cons a r ih =>
    unfold pick at h
    cases hr : pick P r with
    | none =>
      rw [hr] at h
      cases h
      have : r = [] := by
        cases r with
        | nil => rfl
        | cons b t =>
          unfold pick at hr
          cases ht : pick P t <;> rw [ht] at hr
          · cases hr
          · simp only at hr
            split at hr <;> cases hr
      subst this
      exact ⟨List.mem_cons_self, fun x hx => by rw [List.mem_singleton.1 hx]; exact lt_irrefl _⟩
    | some x =>
      rw [hr] at h
      simp only at h
      obtain ⟨h1, h2⟩ := ih x hr
      split at h
      · rename_i hlt
        cases h
        refine ⟨List.mem_cons_of_mem _ h1, fun y hy => ?_⟩
        rcases List.mem_cons.1 hy with rfl | hy
        · exact not_lt.2 hlt.le
        · exact h2 y hy
      · rename_i hge
        cases h
        refine ⟨List.mem_cons_self, fun y hy => ?_⟩
        rcases List.mem_cons.1 hy with rfl | hy
        · exact lt_irrefl _
        · exact not_lt.2 ((not_lt.1 hge).trans (not_lt.1 (h2 y hy)))

end AStar

end Capi
