import Verif.Model.AStar
import Verif.Spec.Walk
import Mathlib.Algebra.BigOperators.Group.Finset.Basic
import Mathlib.Algebra.Order.BigOperators.Group.Finset
import Mathlib.Data.Set.Finite.List
import Mathlib.Tactic.Linarith
import Mathlib.Tactic.Ring

/-!
# Lemmas about the search
-/

namespace Capi

namespace AStar

variable {V D : Type} [DecidableEq V] [LinearOrder D]

/-- What the search needs of its arithmetic: adding an edge length never decreases a distance, and
addition is monotone. -/
structure Monotone (P : Problem V D) : Prop where
  infl : ∀ d u v, d ≤ P.add d (P.len u v)
  mono : ∀ d d' u v, d ≤ d' → P.add d (P.len u v) ≤ P.add d' (P.len u v)

/-- The search stays within finitely many nodes. -/
structure Within (P : Problem V D) (verts : Finset V) : Prop where
  src : P.src ∈ verts
  nbrs : ∀ u ∈ verts, ∀ n ∈ P.nbrs u, n ∈ verts

omit [DecidableEq V] in
theorem known_iff (s : State V D) (n : V) (nd : D) :
    known s n nd = true ↔ ∃ d, s.dist n = some d ∧ d ≤ nd := by
  unfold known
  cases h : s.dist n <;> simp

/-- The neighbours of `n` within the limit are known at no more than what `d` at `n` gives. -/
def Closed (P : Problem V D) (s : State V D) (n : V) (d : D) : Prop :=
  n ≠ P.dst ∧ ∀ m ∈ P.nbrs n, P.tooFar m = false → ∃ d', s.dist m = some d' ∧ d' ≤ P.add d (P.len n m)

/-- The cost of a walk from `u`, given the cost at `u`. -/
def costFrom (P : Problem V D) : D → V → List V → D
  | c, _, [] => c
  | c, u, v :: r => costFrom P (P.add c (P.len u v)) v r

omit [DecidableEq V] [LinearOrder D] in
theorem costFrom_append (P : Problem V D) (l m : List V) (c : D) (u : V) :
    costFrom P c u (l ++ m) = costFrom P (costFrom P c u l) (l.getLastD u) m := by
  induction l generalizing c u with
  | nil => rfl
  | cons v r ih =>
    rw [List.cons_append, costFrom, costFrom, ih, List.getLastD_cons]

omit [DecidableEq V] in
theorem le_costFrom {P : Problem V D} (h : Monotone P) (l : List V) (c : D) (u : V) :
    c ≤ costFrom P c u l := by
  induction l generalizing c u with
  | nil => exact le_rfl
  | cons v r ih => exact le_trans (h.infl c u v) (ih _ _)

/-- No node is repeated, except that the walk may end by returning to its start. -/
def Simple (src : V) (l : List V) : Prop :=
  l.Nodup ∧ src ∉ l ∨ ∃ l', l = l' ++ [src] ∧ l'.Nodup ∧ src ∉ l'

/-- A walk witnessing the distance of an entry, each of whose nodes is known at no more. -/
structure Cert (P : Problem V D) (verts : Finset V) (s : State V D) (e : Entry V D) (l : List V) :
    Prop where
  last : l.getLastD P.src = e.node
  cost : costFrom P P.zero P.src l = e.dist
  pre : ∀ i, 0 < i → i ≤ l.length → ∃ d, s.dist ((l.take i).getLastD P.src) = some d ∧
      d ≤ costFrom P P.zero P.src (l.take i)
  simple : Simple P.src l
  verts : ∀ v ∈ l, v ∈ verts

/-- What holds during the search; `ex` are the entries being processed. -/
structure Inv (P : Problem V D) (verts : Finset V) (ex : V → D → Prop) (s : State V D) : Prop where
  nodes : ∀ e ∈ s.pq, e.node ∈ verts
  entry : ∀ e ∈ s.pq, ∃ l, Cert P verts s e l
  keys : ∀ n d, s.dist n = some d → n ∈ verts
  pred : ∀ n d, s.dist n = some d → ∃ u du, s.prev n = some u ∧ n ∈ P.nbrs u ∧ u ≠ P.dst ∧
    P.tooFar n = false ∧ P.add du (P.len u n) = d ∧
    (u = P.src ∧ P.zero ≤ du ∨ ∃ d', s.dist u = some d' ∧ d' ≤ du)
  nopred : ∀ n, s.dist n = none → s.prev n = none
  chain : ∀ n d, s.dist n = some d → ∃ k l, follow P.src s.prev k n = some (.ok l) ∧
    ∀ x ∈ l, x = P.src ∨ ∃ dx, s.dist x = some dx ∧ dx ≤ d
  costs : ∀ n d, s.dist n = some d → ∃ l, (∀ v ∈ l, v ∈ verts) ∧
    d = costFrom P P.zero P.src l ∧ Simple P.src l
  front : ∀ n d, s.dist n = some d → ⟨n, d⟩ ∈ s.pq ∨ Closed P s n d ∨ ex n d

/-! ### Following predecessors -/

theorem follow_succ (src : V) (prev : V → Option V) (k : ℕ) (c : V) (r : Res (List V))
    (h : follow src prev k c = some r) : follow src prev (k + 1) c = some r := by
  induction k generalizing c r with
  | zero => cases h
  | succ k ih =>
    unfold follow at h ⊢
    by_cases hc : c = src
    · rw [if_pos hc] at h ⊢; exact h
    · rw [if_neg hc] at h ⊢
      cases hp : prev c with
      | none => rw [hp] at h; exact h
      | some d =>
        rw [hp] at h
        simp only [Option.map_eq_some_iff] at h ⊢
        obtain ⟨a, ha, hr⟩ := h
        exact ⟨a, ih d a ha, hr⟩

theorem follow_mono (src : V) (prev : V → Option V) {k k' : ℕ} (hk : k ≤ k') {c : V}
    {r : Res (List V)} (h : follow src prev k c = some r) : follow src prev k' c = some r := by
  induction hk with
  | refl => exact h
  | step _ ih => exact follow_succ src prev _ c r ih

theorem follow_det (src : V) (prev : V → Option V) {k k' : ℕ} {c : V} {r r' : Res (List V)}
    (h : follow src prev k c = some r) (h' : follow src prev k' c = some r') : r = r' := by
  have h1 := follow_mono src prev (Nat.le_max_left k k') h
  have h2 := follow_mono src prev (Nat.le_max_right k k') h'
  rw [h1] at h2
  exact Option.some.inj h2

/-- The shape of a followed list. -/
theorem follow_ok {src : V} {prev : V → Option V} {k : ℕ} {c : V} {l : List V}
    (h : follow src prev k c = some (.ok l)) :
    (c = src ∧ l = [src]) ∨
      ∃ k' d l', k = k' + 1 ∧ c ≠ src ∧ prev c = some d ∧ l = c :: l' ∧
        follow src prev k' d = some (.ok l') := by
  cases k with
  | zero => cases h
  | succ k =>
    unfold follow at h
    by_cases hc : c = src
    · rw [if_pos hc] at h
      left
      exact ⟨hc, (Except.ok.inj (Option.some.inj h)).symm⟩
    · rw [if_neg hc] at h
      right
      cases hp : prev c with
      | none => rw [hp] at h; cases h
      | some d =>
        rw [hp] at h
        simp only [Option.map_eq_some_iff] at h
        obtain ⟨a, ha, hr⟩ := h
        cases a with
        | error e => cases hr
        | ok m => exact ⟨k, d, m, rfl, hc, rfl, (Except.ok.inj hr).symm, ha⟩

theorem follow_mem {src : V} {prev : V → Option V} {k : ℕ} {c : V} {l : List V}
    (h : follow src prev k c = some (.ok l)) (x : V) (hx : x ∈ l) :
    ∃ k' l', follow src prev k' x = some (.ok l') ∧ l' <:+ l := by
  induction k generalizing c l with
  | zero => cases h
  | succ k ih =>
    rcases follow_ok h with ⟨hc, hl⟩ | ⟨k', d, l', hk, hc, hp, hl, hf⟩
    · subst hl
      rw [List.mem_singleton] at hx
      subst hx hc
      exact ⟨_, _, h, List.suffix_rfl⟩
    · cases hk
      subst hl
      rcases List.mem_cons.1 hx with rfl | hx
      · exact ⟨_, _, h, List.suffix_rfl⟩
      · obtain ⟨k2, l2, h2, hs⟩ := ih hf hx
        exact ⟨k2, l2, h2, hs.trans (List.suffix_cons _ _)⟩

theorem follow_nodup {src : V} {prev : V → Option V} {k : ℕ} {c : V} {l : List V}
    (h : follow src prev k c = some (.ok l)) : l.Nodup := by
  induction k generalizing c l with
  | zero => cases h
  | succ k ih =>
    rcases follow_ok h with ⟨hc, hl⟩ | ⟨k', d, l', hk, hc, hp, hl, hf⟩
    · subst hl; exact List.nodup_singleton _
    · cases hk
      subst hl
      rw [List.nodup_cons]
      refine ⟨fun hm => ?_, ih hf⟩
      obtain ⟨k2, l2, h2, hs⟩ := follow_mem hf c hm
      have := Except.ok.inj (follow_det src prev h h2)
      have hlen := hs.length_le
      rw [← this, List.length_cons] at hlen
      omega

theorem follow_head {src : V} {prev : V → Option V} {k : ℕ} {c : V} {l : List V}
    (h : follow src prev k c = some (.ok l)) : l.head? = some c := by
  rcases follow_ok h with ⟨hc, hl⟩ | ⟨k', d, l', hk, hc, hp, hl, hf⟩
  · rw [hl, hc]; rfl
  · rw [hl]; rfl

theorem follow_last {src : V} {prev : V → Option V} {k : ℕ} {c : V} {l : List V}
    (h : follow src prev k c = some (.ok l)) : l.getLast? = some src := by
  induction k generalizing c l with
  | zero => cases h
  | succ k ih =>
    rcases follow_ok h with ⟨hc, hl⟩ | ⟨k', d, l', hk, hc, hp, hl, hf⟩
    · rw [hl]; rfl
    · cases hk
      rw [hl, List.getLast?_cons, ih hf]; rfl

/-- Every two consecutive nodes of a followed list are a node and its predecessor. -/
theorem follow_chain {src : V} {prev : V → Option V} {k : ℕ} {c : V} {l : List V}
    (h : follow src prev k c = some (.ok l)) : l.IsChain fun a b => prev a = some b := by
  induction k generalizing c l with
  | zero => cases h
  | succ k ih =>
    rcases follow_ok h with ⟨hc, hl⟩ | ⟨k', d, l', hk, hc, hp, hl, hf⟩
    · rw [hl]; exact List.isChain_singleton _
    · cases hk
      rw [hl]
      have hh := follow_head hf
      cases l' with
      | nil => exact List.isChain_singleton _
      | cons y r =>
        have : y = d := by simpa using hh
        subst this
        exact List.isChain_cons_cons.2 ⟨hp, ih hf⟩

/-- Following is not affected by nodes that are not met. -/
theorem follow_congr {src : V} {prev prev' : V → Option V} {k : ℕ} {c : V} {l : List V}
    (h : follow src prev k c = some (.ok l)) (hp : ∀ x ∈ l, x ≠ src → prev' x = prev x) :
    follow src prev' k c = some (.ok l) := by
  induction k generalizing c l with
  | zero => cases h
  | succ k ih =>
    rcases follow_ok h with ⟨hc, hl⟩ | ⟨k', d, l', hk, hc, hpr, hl, hf⟩
    · unfold follow; rw [if_pos hc, hl]
    · cases hk
      subst hl
      have h1 := ih hf fun x hx hxs => hp x (List.mem_cons_of_mem _ hx) hxs
      unfold follow
      rw [if_neg hc, hp c List.mem_cons_self hc, hpr]
      simp only [h1, Option.map_some]
      rfl

/-- Redirecting one node that itself still leads to the source keeps every chain. -/
theorem follow_redirect {src : V} {prev prev' : V → Option V} {n : V} {kn : ℕ} {ln : List V}
    (hn : follow src prev' kn n = some (.ok ln)) (hp : ∀ x, x ≠ n → prev' x = prev x)
    {k : ℕ} {c : V} {l : List V} (h : follow src prev k c = some (.ok l)) :
    ∃ k' l', follow src prev' k' c = some (.ok l') ∧
      ∀ y ∈ l', y ∈ l ∨ (n ∈ l ∧ y ∈ ln) := by
  induction k generalizing c l with
  | zero => cases h
  | succ k ih =>
    by_cases hcn : c = n
    · subst hcn
      refine ⟨kn, ln, hn, fun y hy => Or.inr ⟨?_, hy⟩⟩
      exact List.mem_of_mem_head? (follow_head h)
    · rcases follow_ok h with ⟨hc, hl⟩ | ⟨k', d, l', hk, hc, hpr, hl, hf⟩
      · refine ⟨1, [src], ?_, fun y hy => Or.inl (by rw [hl]; exact hy)⟩
        unfold follow; rw [if_pos hc]
      · cases hk
        subst hl
        obtain ⟨k2, l2, h2, hm⟩ := ih hf
        refine ⟨k2 + 1, c :: l2, ?_, fun y hy => ?_⟩
        · unfold follow
          rw [if_neg hc, hp c hcn, hpr]
          simp only [h2, Option.map_some]
          rfl
        · rcases List.mem_cons.1 hy with rfl | hy
          · exact Or.inl List.mem_cons_self
          · rcases hm y hy with h' | ⟨h', h''⟩
            · exact Or.inl (List.mem_cons_of_mem _ h')
            · exact Or.inr ⟨List.mem_cons_of_mem _ h', h''⟩

/-! ### One neighbour -/

/-- Distances only go down. -/
def Lower (s s' : State V D) : Prop :=
  ∀ n d, s.dist n = some d → ∃ d', s'.dist n = some d' ∧ d' ≤ d

omit [DecidableEq V] in
theorem Lower.refl (s : State V D) : Lower s s := fun _ d h => ⟨d, h, le_rfl⟩

omit [DecidableEq V] in
theorem Lower.trans {s t u : State V D} (h : Lower s t) (h' : Lower t u) : Lower s u := by
  intro n d hd
  obtain ⟨d1, h1, l1⟩ := h n d hd
  obtain ⟨d2, h2, l2⟩ := h' n d1 h1
  exact ⟨d2, h2, l2.trans l1⟩

omit [DecidableEq V] in
theorem Closed.lower {P : Problem V D} {s s' : State V D} {n : V} {d : D} (h : Closed P s n d)
    (hl : Lower s s') : Closed P s' n d := by
  refine ⟨h.1, fun m hm ht => ?_⟩
  obtain ⟨d1, h1, l1⟩ := h.2 m hm ht
  obtain ⟨d2, h2, l2⟩ := hl m d1 h1
  exact ⟨d2, h2, l2.trans l1⟩

omit [DecidableEq V] in
theorem Cert.lower {P : Problem V D} {verts : Finset V} {s s' : State V D} {e : Entry V D}
    {l : List V} (h : Cert P verts s e l) (hl : Lower s s') : Cert P verts s' e l := by
  refine ⟨h.last, h.cost, fun i h0 hi => ?_, h.simple, h.verts⟩
  obtain ⟨d1, h1, l1⟩ := h.pre i h0 hi
  obtain ⟨d2, h2, l2⟩ := hl _ d1 h1
  exact ⟨d2, h2, l2.trans l1⟩

theorem relaxOne_lower (P : Problem V D) (e : Entry V D) (s : State V D) (n : V) :
    Lower s (relaxOne P e s n) := by
  unfold relaxOne
  intro m d hd
  by_cases hc : (P.tooFar n || known s n (P.add e.dist (P.len e.node n))) = true
  · rw [if_pos hc]; exact ⟨d, hd, le_rfl⟩
  · rw [if_neg hc]
    by_cases hm : m = n
    · subst hm
      refine ⟨P.add e.dist (P.len e.node m), by simp, ?_⟩
      by_contra hlt
      apply hc
      rw [Bool.or_eq_true]
      right
      rw [known_iff]
      exact ⟨d, hd, le_of_lt (not_le.1 hlt)⟩
    · exact ⟨d, by simp [hm, hd], le_rfl⟩

/-- After a neighbour within the limit is processed it is known at no more than offered. -/
theorem relaxOne_done (P : Problem V D) (e : Entry V D) (s : State V D) (n : V)
    (ht : P.tooFar n = false) :
    ∃ d, (relaxOne P e s n).dist n = some d ∧ d ≤ P.add e.dist (P.len e.node n) := by
  unfold relaxOne
  by_cases hc : (P.tooFar n || known s n (P.add e.dist (P.len e.node n))) = true
  · rw [if_pos hc]
    rw [ht, Bool.false_or, known_iff] at hc
    exact hc
  · rw [if_neg hc]
    exact ⟨_, by simp, le_rfl⟩

omit [DecidableEq V] in
theorem Cert.zero_le {P : Problem V D} (hM : Monotone P) {verts : Finset V} {s : State V D}
    {e : Entry V D} {l : List V} (h : Cert P verts s e l) : P.zero ≤ e.dist := by
  rw [← h.cost]; exact le_costFrom hM _ _ _

omit [DecidableEq V] in
theorem Cert.node {P : Problem V D} {verts : Finset V} {s : State V D}
    {e : Entry V D} {l : List V} (h : Cert P verts s e l) :
    (l = [] ∧ e.node = P.src ∧ e.dist = P.zero) ∨ ∃ d, s.dist e.node = some d ∧ d ≤ e.dist := by
  by_cases hl : l = []
  · left
    subst hl
    exact ⟨rfl, h.last.symm, h.cost.symm⟩
  · right
    obtain ⟨d, hd, hle⟩ := h.pre l.length (List.length_pos_of_ne_nil hl) le_rfl
    rw [List.take_length] at hd hle
    rw [h.last] at hd
    rw [h.cost] at hle
    exact ⟨d, hd, hle⟩

omit [DecidableEq V] in
/-- A node on the walk of an entry is known at no more than the entry. -/
theorem Cert.mem {P : Problem V D} (hM : Monotone P) {verts : Finset V} {s : State V D}
    {e : Entry V D} {l : List V} (h : Cert P verts s e l) (n : V) (hn : n ∈ l) :
    ∃ d, s.dist n = some d ∧ d ≤ e.dist := by
  obtain ⟨i, hi, hin⟩ := List.getElem_of_mem hn
  obtain ⟨d, hd, hle⟩ := h.pre (i + 1) (by omega) (by omega)
  have hlast : (l.take (i + 1)).getLastD P.src = n := by
    rw [List.take_succ_eq_append_getElem hi, List.getLastD_concat, hin]
  rw [hlast] at hd
  refine ⟨d, hd, hle.trans ?_⟩
  rw [← h.cost]
  conv_rhs => rw [← List.take_append_drop (i + 1) l, costFrom_append]
  exact le_costFrom hM _ _ _

/-- An accepted neighbour extends the walk of the popped entry to a walk without repetition. -/
theorem Cert.extend {P : Problem V D} (hM : Monotone P) {verts : Finset V} {s s' : State V D}
    {e : Entry V D} {l : List V} (h : Cert P verts s e l) (n : V) (hnv : n ∈ verts)
    (hs : l.Nodup ∧ P.src ∉ l ∨ Closed P s P.src P.zero) (hadj : n ∈ P.nbrs e.node)
    (ht : P.tooFar n = false) (hk : ¬ ∃ d, s.dist n = some d ∧ d ≤ P.add e.dist (P.len e.node n))
    (hl : Lower s s') (hd : s'.dist n = some (P.add e.dist (P.len e.node n))) :
    n ∉ l ∧ Cert P verts s' ⟨n, P.add e.dist (P.len e.node n)⟩ (l ++ [n]) := by
  have hnl : n ∉ l := by
    intro hn
    obtain ⟨d, hd, hle⟩ := h.mem hM n hn
    exact hk ⟨d, hd, hle.trans (hM.infl _ _ _)⟩
  have hsim : l.Nodup ∧ P.src ∉ l := by
    rcases h.simple with h1 | ⟨l', hl', -, -⟩
    · exact h1
    · rcases hs with h1 | hc
      · exact h1
      · exfalso
        have hnode : e.node = P.src := by
          rw [← h.last, hl', List.getLastD_concat]
        rw [hnode] at hadj hk
        obtain ⟨d, hd, hle⟩ := hc.2 n hadj ht
        exact hk ⟨d, hd, hle.trans (hM.mono _ _ _ _ (h.zero_le hM))⟩
  have hcost : costFrom P P.zero P.src (l ++ [n]) = P.add e.dist (P.len e.node n) := by
    rw [costFrom_append, h.cost, h.last]; rfl
  refine ⟨hnl, ⟨List.getLastD_concat .., hcost, fun i h0 hi => ?_, ?_, fun v hv => ?_⟩⟩
  · rw [List.length_append, List.length_singleton] at hi
    by_cases hil : i ≤ l.length
    · rw [List.take_append_of_le_length hil]
      exact (h.lower hl).pre i h0 hil
    · have : i = (l ++ [n]).length := by rw [List.length_append, List.length_singleton]; omega
      rw [this, List.take_length, List.getLastD_concat, hcost]
      exact ⟨_, hd, le_rfl⟩
  · by_cases hn : n = P.src
    · right
      exact ⟨l, by rw [hn], hsim.1, hsim.2⟩
    · left
      refine ⟨List.nodup_append.2 ⟨hsim.1, List.nodup_singleton _, ?_⟩, ?_⟩
      · intro a ha b hb hab
        rw [List.mem_singleton] at hb
        exact hnl (by rw [← hb, ← hab]; exact ha)
      · rw [List.mem_append, List.mem_singleton]
        rintro (h1 | h1)
        · exact hsim.2 h1
        · exact hn h1.symm
  · rcases List.mem_append.1 hv with hv | hv
    · exact h.verts v hv
    · rw [List.mem_singleton] at hv; rw [hv]; exact hnv

/-- The finite set of distances that can occur. -/
def Costs (P : Problem V D) (verts : Finset V) : Set D :=
  {c | ∃ l, (∀ v ∈ l, v ∈ verts) ∧ c = costFrom P P.zero P.src l ∧ Simple P.src l}

/-- How many possible distances lie below. -/
def rank (S : Finset D) : Option D → ℕ
  | none => S.card
  | some d => (S.filter (· < d)).card

/-- What decreases with every iteration. -/
def size (S : Finset D) (verts : Finset V) (s : State V D) : ℕ :=
  s.pq.length + 2 * ∑ v ∈ verts, rank S (s.dist v)

theorem rank_lt (S : Finset D) (o : Option D) (nd : D) (hS : nd ∈ S)
    (h : ∀ d, o = some d → nd < d) : rank S (some nd) < rank S o := by
  cases o with
  | none =>
    refine Finset.card_lt_card ⟨Finset.filter_subset _ _, fun hsub => ?_⟩
    have := hsub hS
    rw [Finset.mem_filter] at this
    exact lt_irrefl _ this.2
  | some d =>
    have hlt := h d rfl
    refine Finset.card_lt_card ⟨fun x hx => ?_, fun hsub => ?_⟩
    · rw [Finset.mem_filter] at hx ⊢
      exact ⟨hx.1, hx.2.trans hlt⟩
    · have := hsub (Finset.mem_filter.2 ⟨hS, hlt⟩)
      rw [Finset.mem_filter] at this
      exact lt_irrefl _ this.2

theorem size_push (S : Finset D) (verts : Finset V) (s : State V D) (n : V) (nd : D)
    (hn : n ∈ verts) (hS : nd ∈ S) (h : ∀ d, s.dist n = some d → nd < d) (prev : V → Option V) :
    size S verts ⟨⟨n, nd⟩ :: s.pq, prev, fun x => if x = n then some nd else s.dist x⟩
      < size S verts s := by
  have hsum : ∑ v ∈ verts, rank S (if v = n then some nd else s.dist v)
      < ∑ v ∈ verts, rank S (s.dist v) := by
    refine Finset.sum_lt_sum (fun v _ => ?_) ⟨n, hn, ?_⟩
    · by_cases hv : v = n
      · subst hv
        rw [if_pos rfl]
        exact (rank_lt S _ nd hS h).le
      · rw [if_neg hv]
    · rw [if_pos rfl]
      exact rank_lt S _ nd hS h
  unfold size
  simp only [List.length_cons]
  omega

/-- One neighbour keeps the invariant. -/
theorem relaxOne_inv {P : Problem V D} (hM : Monotone P) {verts : Finset V} (hW : Within P verts)
    {S : Finset D} (hS : ∀ c ∈ Costs P verts, c ∈ S)
    {ex : V → D → Prop} {s : State V D} (hI : Inv P verts ex s) {e : Entry V D} {l : List V}
    (hc : Cert P verts s e l) (hev : e.node ∈ verts) (hed : e.node ≠ P.dst)
    (hs : l.Nodup ∧ P.src ∉ l ∨ Closed P s P.src P.zero) (n : V) (hadj : n ∈ P.nbrs e.node) :
    Inv P verts ex (relaxOne P e s n) ∧ size S verts (relaxOne P e s n) ≤ size S verts s := by
  have hlow := relaxOne_lower P e s n
  by_cases hcond : (P.tooFar n || known s n (P.add e.dist (P.len e.node n))) = true
  · unfold relaxOne
    rw [if_pos hcond]
    exact ⟨hI, le_rfl⟩
  have hnv : n ∈ verts := hW.nbrs _ hev _ hadj
  have hs' : relaxOne P e s n =
    { pq := ⟨n, P.add e.dist (P.len e.node n)⟩ :: s.pq
      prev := fun x => if x = n then some e.node else s.prev x
      dist := fun x => if x = n then some (P.add e.dist (P.len e.node n)) else s.dist x } := by
    unfold relaxOne
    rw [if_neg hcond]
  have ht : P.tooFar n = false := by
    cases h : P.tooFar n
    · rfl
    · rw [h, Bool.true_or] at hcond; exact absurd rfl hcond
  have hk : ¬ ∃ d, s.dist n = some d ∧ d ≤ P.add e.dist (P.len e.node n) := by
    rw [← known_iff]
    intro h
    rw [h, Bool.or_true] at hcond
    exact hcond rfl
  set nd := P.add e.dist (P.len e.node n) with hnd
  set s' := relaxOne P e s n with hs'def
  have hdn : s'.dist n = some nd := by rw [hs']; simp
  have hdo : ∀ x, x ≠ n → s'.dist x = s.dist x := by intro x hx; rw [hs']; simp [hx]
  have hpn : s'.prev n = some e.node := by rw [hs']; simp
  have hpo : ∀ x, x ≠ n → s'.prev x = s.prev x := by intro x hx; rw [hs']; simp [hx]
  have hpq : s'.pq = ⟨n, nd⟩ :: s.pq := by rw [hs']
  obtain ⟨hnl, hcert⟩ := hc.extend hM n hnv hs hadj ht hk hlow hdn
  -- the chain of the neighbour
  have hchain : ∃ k ln, follow P.src s'.prev k n = some (.ok ln) ∧
      ∀ x ∈ ln, x = P.src ∨ ∃ dx, s'.dist x = some dx ∧ dx ≤ nd := by
    by_cases hns : n = P.src
    · refine ⟨1, [P.src], ?_, fun x hx => Or.inl (List.mem_singleton.1 hx)⟩
      unfold follow; rw [if_pos hns]
    · by_cases hes : e.node = P.src
      · refine ⟨2, [n, P.src], ?_, fun x hx => ?_⟩
        · simp only [follow, hns, if_false, hpn, hes, if_true, Option.map_some]
          rfl
        · simp only [List.mem_cons, List.not_mem_nil, or_false] at hx
          rcases hx with rfl | rfl
          · exact Or.inr ⟨nd, hdn, le_rfl⟩
          · exact Or.inl rfl
      · rcases hc.node with ⟨-, h1, -⟩ | ⟨d0, hd0, hle0⟩
        · exact absurd h1 hes
        · obtain ⟨k, l0, hf, hel⟩ := hI.chain _ _ hd0
          have hn0 : n ∉ l0 := by
            intro hn
            rcases hel n hn with h1 | ⟨dx, hdx, hlex⟩
            · exact hns h1
            · exact hk ⟨dx, hdx, (hlex.trans hle0).trans (hM.infl _ _ _)⟩
          have hf' := follow_congr (prev' := s'.prev) hf
            fun x hx _ => hpo x (fun h => hn0 (h ▸ hx))
          refine ⟨k + 1, n :: l0, ?_, fun x hx => ?_⟩
          · unfold follow
            rw [if_neg hns, hpn]
            simp only [hf', Option.map_some]
            rfl
          · rcases List.mem_cons.1 hx with rfl | hx
            · exact Or.inr ⟨nd, hdn, le_rfl⟩
            · rcases hel x hx with h1 | ⟨dx, hdx, hlex⟩
              · exact Or.inl h1
              · obtain ⟨d2, h2, l2⟩ := hlow x dx hdx
                exact Or.inr ⟨d2, h2, (l2.trans hlex).trans (hle0.trans (hM.infl _ _ _))⟩
  obtain ⟨kn, ln, hfn, heln⟩ := hchain
  have hcosts : ∃ l, (∀ v ∈ l, v ∈ verts) ∧ nd = costFrom P P.zero P.src l ∧ Simple P.src l :=
    ⟨_, hcert.verts, hcert.cost.symm, hcert.simple⟩
  refine ⟨⟨?_, ?_, ?_, ?_, ?_, ?_, ?_, ?_⟩, ?_⟩
  · intro x hx
    rw [hpq] at hx
    rcases List.mem_cons.1 hx with rfl | hx
    · exact hnv
    · exact hI.nodes x hx
  · intro x hx
    rw [hpq] at hx
    rcases List.mem_cons.1 hx with rfl | hx
    · exact ⟨_, hcert⟩
    · obtain ⟨lx, hlx⟩ := hI.entry x hx
      exact ⟨lx, hlx.lower hlow⟩
  · intro m d hd
    by_cases hm : m = n
    · rw [hm]; exact hnv
    · rw [hdo m hm] at hd; exact hI.keys m d hd
  · intro m d hd
    by_cases hm : m = n
    · subst hm
      rw [hdn] at hd
      refine ⟨e.node, e.dist, hpn, hadj, hed, ht, Option.some.inj hd, ?_⟩
      rcases hc.node with ⟨-, h1, h2⟩ | ⟨d0, hd0, hle0⟩
      · exact Or.inl ⟨h1, h2.ge⟩
      · obtain ⟨d2, h2, l2⟩ := hlow _ _ hd0
        exact Or.inr ⟨d2, h2, l2.trans hle0⟩
    · rw [hdo m hm] at hd
      obtain ⟨u, du, h1, h2, h3, h4, h5, h6⟩ := hI.pred m d hd
      refine ⟨u, du, by rw [hpo m hm, h1], h2, h3, h4, h5, ?_⟩
      rcases h6 with h6 | ⟨d', hd', hle'⟩
      · exact Or.inl h6
      · obtain ⟨d2, h2, l2⟩ := hlow _ _ hd'
        exact Or.inr ⟨d2, h2, l2.trans hle'⟩
  · intro m hm
    have hmn : m ≠ n := by
      rintro rfl
      rw [hdn] at hm
      cases hm
    rw [hdo m hmn] at hm
    rw [hpo m hmn]
    exact hI.nopred m hm
  · intro m d hd
    by_cases hm : m = n
    · subst hm
      rw [hdn] at hd
      rw [← Option.some.inj hd]
      exact ⟨kn, ln, hfn, heln⟩
    · rw [hdo m hm] at hd
      obtain ⟨k, lm, hf, hel⟩ := hI.chain m d hd
      obtain ⟨k', l', hf', hel'⟩ := follow_redirect hfn hpo hf
      refine ⟨k', l', hf', fun y hy => ?_⟩
      rcases hel' y hy with h1 | ⟨h1, h2⟩
      · rcases hel y h1 with h3 | ⟨dx, hdx, hlex⟩
        · exact Or.inl h3
        · obtain ⟨d2, h2, l2⟩ := hlow _ _ hdx
          exact Or.inr ⟨d2, h2, l2.trans hlex⟩
      · rcases heln y h2 with h3 | ⟨dx, hdx, hlex⟩
        · exact Or.inl h3
        · rcases hel n h1 with h4 | ⟨dn, hdn', hlen⟩
          · -- the neighbour is the source, so its chain is just the source
            left
            rw [h4] at hfn
            rcases follow_ok hfn with ⟨-, h5⟩ | ⟨_, _, _, -, h5, -⟩
            · rw [h5] at h2; exact List.mem_singleton.1 h2
            · exact absurd rfl h5
          · refine Or.inr ⟨dx, hdx, hlex.trans (le_trans ?_ hlen)⟩
            by_contra hlt
            exact hk ⟨dn, hdn', (not_le.1 hlt).le⟩
  · intro m d hd
    by_cases hm : m = n
    · subst hm
      rw [hdn] at hd
      rw [← Option.some.inj hd]
      exact hcosts
    · rw [hdo m hm] at hd; exact hI.costs m d hd
  · intro m d hd
    by_cases hm : m = n
    · subst hm
      rw [hdn] at hd
      rw [← Option.some.inj hd]
      left
      rw [hpq]
      exact List.mem_cons_self
    · rw [hdo m hm] at hd
      rcases hI.front m d hd with h1 | h1 | h1
      · left; rw [hpq]; exact List.mem_cons_of_mem _ h1
      · exact Or.inr (Or.inl (h1.lower hlow))
      · exact Or.inr (Or.inr h1)
  · rw [hs']
    refine (size_push S verts s n nd hnv (hS _ hcosts) (fun d hd => ?_) _).le
    by_contra hlt
    exact hk ⟨d, hd, not_lt.1 hlt⟩

/-! ### One iteration -/

theorem relaxList {P : Problem V D} (hM : Monotone P) {verts : Finset V} (hW : Within P verts)
    {S : Finset D} (hS : ∀ c ∈ Costs P verts, c ∈ S)
    {ex : V → D → Prop} {e : Entry V D} {l : List V} (hev : e.node ∈ verts) (hed : e.node ≠ P.dst)
    (ns : List V) (hns : ∀ n ∈ ns, n ∈ P.nbrs e.node) (s : State V D) (hI : Inv P verts ex s)
    (hc : Cert P verts s e l) (hs : l.Nodup ∧ P.src ∉ l ∨ Closed P s P.src P.zero) :
    Inv P verts ex (ns.foldl (relaxOne P e) s) ∧
      size S verts (ns.foldl (relaxOne P e) s) ≤ size S verts s ∧
      Lower s (ns.foldl (relaxOne P e) s) ∧
      ∀ n ∈ ns, P.tooFar n = false → ∃ d, (ns.foldl (relaxOne P e) s).dist n = some d ∧
        d ≤ P.add e.dist (P.len e.node n) := by
  induction ns generalizing s with
  | nil => exact ⟨hI, le_rfl, Lower.refl s, fun n hn => absurd hn List.not_mem_nil⟩
  | cons n r ih =>
    rw [List.foldl_cons]
    have hlow := relaxOne_lower P e s n
    obtain ⟨h1, h2⟩ := relaxOne_inv hM hW hS hI hc hev hed hs n (hns n List.mem_cons_self)
    obtain ⟨h3, h4, h5, h6⟩ := ih (fun x hx => hns x (List.mem_cons_of_mem _ hx))
      (relaxOne P e s n) h1 (hc.lower hlow) (hs.imp_right fun h => h.lower hlow)
    refine ⟨h3, h4.trans h2, hlow.trans h5, fun x hx ht => ?_⟩
    rcases List.mem_cons.1 hx with rfl | hx
    · obtain ⟨d, hd, hle⟩ := relaxOne_done P e s x ht
      obtain ⟨d2, hd2, hle2⟩ := h5 x d hd
      exact ⟨d2, hd2, hle2.trans hle⟩
    · exact h6 x hx ht

/-- The state at the loop head: nothing done yet, or the source processed. -/
structure Head (P : Problem V D) (verts : Finset V) (s : State V D) : Prop where
  inv : Inv P verts (fun _ _ => False) s
  src : s = init P ∨ Closed P s P.src P.zero

omit [DecidableEq V] in
theorem init_cert (P : Problem V D) (verts : Finset V) :
    Cert P verts (init P) ⟨P.src, P.zero⟩ [] :=
  ⟨rfl, rfl, fun i h0 hi => absurd hi (by simp only [List.length_nil]; omega),
    Or.inl ⟨List.nodup_nil, List.not_mem_nil⟩, fun v hv => absurd hv List.not_mem_nil⟩

theorem init_head {P : Problem V D} {verts : Finset V} (hW : Within P verts) :
    Head P verts (init P) := by
  refine ⟨⟨?_, ?_, ?_, ?_, ?_, ?_, ?_, ?_⟩, Or.inl rfl⟩
  · intro e he
    rw [List.mem_singleton.1 he]; exact hW.src
  · intro e he
    rw [List.mem_singleton.1 he]; exact ⟨[], init_cert P verts⟩
  · intro n d h; cases h
  · intro n d h; cases h
  · intro n h; rfl
  · intro n d h; cases h
  · intro n d h; cases h
  · intro n d h; cases h

theorem step_head {P : Problem V D} (hM : Monotone P) {verts : Finset V} (hW : Within P verts)
    {S : Finset D} (hS : ∀ c ∈ Costs P verts, c ∈ S) {s : State V D} (hH : Head P verts s)
    {e : Entry V D} (he : e ∈ s.pq) (hed : e.node ≠ P.dst) :
    Head P verts (relax P e (pop s e)) ∧
      size S verts (relax P e (pop s e)) + 1 ≤ size S verts s := by
  obtain ⟨l, hl⟩ := hH.inv.entry e he
  have hev := hH.inv.nodes e he
  have hI0 : Inv P verts (fun n d => n = e.node ∧ d = e.dist) (pop s e) := by
    refine ⟨fun x hx => hH.inv.nodes x (List.mem_of_mem_erase hx), fun x hx => ?_, hH.inv.keys,
      hH.inv.pred, hH.inv.nopred, hH.inv.chain, hH.inv.costs, fun n d hd => ?_⟩
    · obtain ⟨lx, hlx⟩ := hH.inv.entry x (List.mem_of_mem_erase hx)
      exact ⟨lx, hlx.last, hlx.cost, hlx.pre, hlx.simple, hlx.verts⟩
    · rcases hH.inv.front n d hd with h1 | h1 | h1
      · by_cases hne : (⟨n, d⟩ : Entry V D) = e
        · right; right
          rw [← hne]
          exact ⟨rfl, rfl⟩
        · left
          exact (List.mem_erase_of_ne hne).2 h1
      · exact Or.inr (Or.inl ⟨h1.1, h1.2⟩)
      · exact h1.elim
  have hl0 : Cert P verts (pop s e) e l := ⟨hl.last, hl.cost, hl.pre, hl.simple, hl.verts⟩
  have hinit : s = init P → e = ⟨P.src, P.zero⟩ := by
    intro h
    rw [h] at he
    exact List.mem_singleton.1 he
  have hs0 : l.Nodup ∧ P.src ∉ l ∨ Closed P (pop s e) P.src P.zero := by
    rcases hH.src with h1 | h1
    · left
      have hnode := hl.last
      rcases hl.node with ⟨h2, -, -⟩ | ⟨d, hd, -⟩
      · rw [h2]; exact ⟨List.nodup_nil, List.not_mem_nil⟩
      · rw [h1] at hd; cases hd
    · exact Or.inr ⟨h1.1, h1.2⟩
  obtain ⟨h1, h2, h3, h4⟩ := relaxList hM hW hS hev hed (P.nbrs e.node) (fun _ h => h) (pop s e) hI0
    hl0 hs0
  have hcl : Closed P (relax P e (pop s e)) e.node e.dist := ⟨hed, h4⟩
  refine ⟨⟨⟨h1.nodes, h1.entry, h1.keys, h1.pred, h1.nopred, h1.chain, h1.costs, ?_⟩, Or.inr ?_⟩, ?_⟩
  · intro n d hd
    rcases h1.front n d hd with h5 | h5 | ⟨h5, h6⟩
    · exact Or.inl h5
    · exact Or.inr (Or.inl h5)
    · rw [h5, h6]
      exact Or.inr (Or.inl hcl)
  · rcases hH.src with h5 | h5
    · have := hinit h5
      rw [this] at hcl ⊢
      exact hcl
    · exact Closed.lower (s := pop s e) ⟨h5.1, h5.2⟩ h3
  · refine le_trans (Nat.add_le_add_right h2 1) ?_
    unfold size pop
    have := List.length_erase_of_mem he
    have hpos := List.length_pos_of_mem he
    simp only
    omega

/-! ### Whole executions -/

omit [DecidableEq V] [LinearOrder D] in
theorem costs_finite (P : Problem V D) (verts : Finset V) : (Costs P verts).Finite := by
  have hfin : {l : List V | (∀ v ∈ l, v ∈ verts) ∧ l.length ≤ verts.card + 1}.Finite := by
    have h1 : {l : List verts | l.length ≤ verts.card + 1}.Finite :=
      List.finite_length_le verts (verts.card + 1)
    refine (h1.image (List.map Subtype.val)).subset ?_
    rintro l ⟨hl, hlen⟩
    refine ⟨l.attach.map fun x => ⟨x.1, hl x.1 x.2⟩, ?_, ?_⟩
    · simpa using hlen
    · simp
  refine (hfin.image (costFrom P P.zero P.src)).subset ?_
  rintro c ⟨l, hl, rfl, hs⟩
  refine ⟨l, ⟨hl, ?_⟩, rfl⟩
  classical
  have hnd : ∀ m : List V, m.Nodup → (∀ v ∈ m, v ∈ verts) → m.length ≤ verts.card := by
    intro m hm hv
    rw [← List.toFinset_card_of_nodup hm]
    exact Finset.card_le_card fun x hx => hv x (List.mem_toFinset.1 hx)
  rcases hs with ⟨h1, -⟩ | ⟨l', h1, h2, -⟩
  · exact (hnd l h1 hl).trans (Nat.le_succ _)
  · subst h1
    rw [List.length_append, List.length_singleton]
    exact Nat.succ_le_succ (hnd l' h2 fun v hv => hl v (List.mem_append_left _ hv))

theorem exec_head {P : Problem V D} (hM : Monotone P) {verts : Finset V} (hW : Within P verts)
    {S : Finset D} (hS : ∀ c ∈ Costs P verts, c ∈ S) {k : ℕ} {s : State V D} (h : Exec P k s) :
    Head P verts s ∧ size S verts s + k ≤ size S verts (init P) := by
  induction h with
  | init => exact ⟨init_head hW, le_rfl⟩
  | step _ ht hed ih =>
    obtain ⟨h1, h2⟩ := step_head hM hW hS ih.1 ht.1 hed
    exact ⟨h1, by omega⟩

theorem exec_inv {P : Problem V D} (hM : Monotone P) {verts : Finset V} (hW : Within P verts)
    {k : ℕ} {s : State V D} (h : Exec P k s) : Head P verts s :=
  (exec_head hM hW (S := (costs_finite P verts).toFinset)
    (fun _ hc => (Set.Finite.mem_toFinset _).2 hc) h).1

/-! ### The frontier -/

omit [DecidableEq V] in
theorem costFrom_mono {P : Problem V D} (hM : Monotone P) (l : List V) (c c' : D) (u : V)
    (h : c ≤ c') : costFrom P c u l ≤ costFrom P c' u l := by
  induction l generalizing c c' u with
  | nil => exact h
  | cons v r ih => exact ih _ _ _ (hM.mono _ _ _ _ h)

/-- Any walk to the destination within the limit has a node waiting in the queue, from which the
rest of the walk costs no more than the walk does. -/
theorem frontier {P : Problem V D} (hM : Monotone P) {verts : Finset V} {s : State V D}
    (hI : Inv P verts (fun _ _ => False) s) (rest : List V) (u : V) (d c : D)
    (hu : ⟨u, d⟩ ∈ s.pq ∨ Closed P s u d) (hdc : d ≤ c)
    (hch : (u :: rest).IsChain fun a b => b ∈ P.nbrs a) (hlast : rest.getLastD u = P.dst)
    (hfar : ∀ v ∈ rest, P.tooFar v = false) :
    ∃ x b d', (x :: b) <:+ (u :: rest) ∧ ⟨x, d'⟩ ∈ s.pq ∧
      costFrom P d' x b ≤ costFrom P c u rest := by
  induction rest generalizing u d c with
  | nil =>
    rcases hu with h | h
    · exact ⟨u, [], d, List.suffix_rfl, h, hdc⟩
    · exact absurd hlast h.1
  | cons v r ih =>
    rcases hu with h | h
    · exact ⟨u, v :: r, d, List.suffix_rfl, h, costFrom_mono hM _ _ _ _ hdc⟩
    · rw [List.isChain_cons_cons] at hch
      obtain ⟨d', hd', hle⟩ := h.2 v hch.1 (hfar v List.mem_cons_self)
      have hv : ⟨v, d'⟩ ∈ s.pq ∨ Closed P s v d' := by
        rcases hI.front v d' hd' with h1 | h1 | h1
        · exact Or.inl h1
        · exact Or.inr h1
        · exact h1.elim
      rw [List.getLastD_cons] at hlast
      obtain ⟨x, b, dx, h1, h2, h3⟩ := ih v d' (P.add c (P.len u v)) hv
        (hle.trans (hM.mono _ _ _ _ hdc)) hch.2 hlast
        fun y hy => hfar y (List.mem_cons_of_mem _ hy)
      exact ⟨x, b, dx, h1.trans (List.suffix_cons _ _), h2, h3⟩

/-- The frontier at the loop head, for walks from the source. -/
theorem head_frontier {P : Problem V D} (hM : Monotone P) {verts : Finset V} {s : State V D}
    (hH : Head P verts s) (rest : List V)
    (hch : (P.src :: rest).IsChain fun a b => b ∈ P.nbrs a)
    (hlast : rest.getLastD P.src = P.dst) (hfar : ∀ v ∈ rest, P.tooFar v = false) :
    ∃ x b d', (x :: b) <:+ (P.src :: rest) ∧ ⟨x, d'⟩ ∈ s.pq ∧
      costFrom P d' x b ≤ costFrom P P.zero P.src rest := by
  refine frontier hM hH.inv rest P.src P.zero P.zero ?_ le_rfl hch hlast hfar
  rcases hH.src with h | h
  · left; rw [h]; exact List.mem_cons_self
  · exact Or.inr h

/-! ### What the loop ends with -/

/-- The state the loop ends in satisfies everything but the frontier, and tells which of the two
ways of ending was taken. -/
theorem ends_cases {P : Problem V D} (hM : Monotone P) {verts : Finset V} (hW : Within P verts)
    {s : State V D} (h : Ends P s) :
    ∃ s0, Head P verts s0 ∧ s.prev = s0.prev ∧ s.dist = s0.dist ∧
      (s0.pq = [] ∨ ∃ e, IsTop P s0.pq e ∧ e.node = P.dst) := by
  cases h with
  | empty he hq => exact ⟨s, exec_inv hM hW he, rfl, rfl, Or.inl hq⟩
  | @found k s0 e he ht hd => exact ⟨s0, exec_inv hM hW he, rfl, rfl, Or.inr ⟨e, ht, hd⟩⟩

/-- With an empty queue the destination was never reached. -/
theorem empty_none {P : Problem V D} {verts : Finset V} {s : State V D}
    (hH : Head P verts s) (hq : s.pq = []) : P.dst ≠ P.src ∧ s.dist P.dst = none := by
  constructor
  · rcases hH.src with h | h
    · rw [h] at hq; cases hq
    · exact h.1.symm
  · cases hd : s.dist P.dst with
    | none => rfl
    | some d =>
      rcases hH.inv.front _ _ hd with h | h | h
      · rw [hq] at h; cases h
      · exact absurd rfl h.1
      · exact h.elim

/-- With the destination popped, following its predecessors gives a list. -/
theorem found_follow {P : Problem V D} {verts : Finset V} {s : State V D}
    (hH : Head P verts s) {e : Entry V D} (ht : e ∈ s.pq) (hd : e.node = P.dst) :
    ∃ k l, follow P.src s.prev k P.dst = some (.ok l) ∧
      (P.dst = P.src ∨ ∃ d, s.dist P.dst = some d ∧ d ≤ e.dist) := by
  obtain ⟨l, hl⟩ := hH.inv.entry e ht
  rcases hl.node with ⟨-, h1, -⟩ | ⟨d, h1, h2⟩
  · have : P.dst = P.src := hd ▸ h1
    refine ⟨1, [P.src], ?_, Or.inl this⟩
    unfold follow; rw [if_pos this]
  · rw [hd] at h1
    obtain ⟨k, l, hf, -⟩ := hH.inv.chain _ _ h1
    exact ⟨k, l, hf, Or.inr ⟨d, h1, h2⟩⟩

/-- Each leg of a followed list is an edge, and its end is within the limit. -/
theorem follow_edges {P : Problem V D} {verts : Finset V} {ex : V → D → Prop} {s : State V D}
    (hI : Inv P verts ex s) {l : List V} (h : l.IsChain fun a b => s.prev a = some b) :
    l.IsChain fun a b => a ∈ P.nbrs b ∧ P.tooFar a = false := by
  refine h.imp fun a b hab => ?_
  cases hd : s.dist a with
  | none => rw [hI.nopred a hd] at hab; cases hab
  | some d =>
    obtain ⟨u, du, h1, h2, -, h4, -⟩ := hI.pred a d hd
    rw [hab] at h1
    cases h1
    exact ⟨h2, h4⟩

omit [DecidableEq V] in
/-- There is always an entry to pop. -/
theorem exists_top (P : Problem V D) (pq : List (Entry V D)) (h : pq ≠ []) :
    ∃ e, IsTop P pq e := by
  induction pq with
  | nil => exact absurd rfl h
  | cons a r ih =>
    by_cases hr : r = []
    · subst hr
      exact ⟨a, List.mem_cons_self, fun x hx => by rw [List.mem_singleton.1 hx]; exact lt_irrefl _⟩
    · obtain ⟨e, he, hmin⟩ := ih hr
      by_cases hlt : P.prio e.dist e.node < P.prio a.dist a.node
      · refine ⟨e, List.mem_cons_of_mem _ he, fun x hx => ?_⟩
        rcases List.mem_cons.1 hx with rfl | hx
        · exact hlt.asymm
        · exact hmin x hx
      · refine ⟨a, List.mem_cons_self, fun x hx => ?_⟩
        rcases List.mem_cons.1 hx with rfl | hx
        · exact lt_irrefl _
        · intro hxa
          exact hmin x hx (lt_of_lt_of_le hxa (not_lt.1 hlt))

/-! ### Outcomes -/

/-- An error is the exception, and means that no walk within the limit exists. -/
theorem outcome_error {P : Problem V D} (hM : Monotone P) {verts : Finset V} (hW : Within P verts)
    {f : Fault} (h : Outcome P (.error f)) : f = .exn ∧
      ¬ ∃ rest : List V, (P.src :: rest).IsChain (fun a b => b ∈ P.nbrs a) ∧
        rest.getLastD P.src = P.dst ∧ ∀ v ∈ rest, P.tooFar v = false := by
  obtain ⟨s, k, r', he, hf, hr⟩ := h
  obtain ⟨s0, hH, hp, hd, hq | ⟨e, ht, hed⟩⟩ := ends_cases hM hW he
  · obtain ⟨h1, h2⟩ := empty_none hH hq
    have hnone := hH.inv.nopred _ h2
    constructor
    · rw [hp] at hf
      cases k with
      | zero => cases hf
      | succ k =>
        unfold follow at hf
        rw [if_neg h1, hnone] at hf
        rw [← Option.some.inj hf] at hr
        exact Except.error.inj hr
    · rintro ⟨rest, hch, hlast, hfar⟩
      obtain ⟨x, b, d', -, hx, -⟩ := head_frontier hM hH rest hch hlast hfar
      rw [hq] at hx
      cases hx
  · obtain ⟨k', l, hl, -⟩ := found_follow hH ht.1 hed
    rw [hp] at hf
    rw [follow_det _ _ hf hl] at hr
    cases hr

/-- A path is a walk without repetition, within the limit. -/
theorem outcome_ok {P : Problem V D} (hM : Monotone P) {verts : Finset V} (hW : Within P verts)
    {path : List V} (h : Outcome P (.ok path)) :
    path.Nodup ∧ path.head? = some P.src ∧ path.getLast? = some P.dst ∧
      path.IsChain fun a b => b ∈ P.nbrs a ∧ P.tooFar b = false := by
  obtain ⟨s, k, r', he, hf, hr⟩ := h
  cases r' with
  | error f => cases hr
  | ok l =>
    have hpath : path = l.reverse := Except.ok.inj hr
    obtain ⟨s0, hH, hp, -, -⟩ := ends_cases hM hW he
    rw [hp] at hf
    rw [hpath]
    refine ⟨List.nodup_reverse.2 (follow_nodup hf), ?_, ?_, ?_⟩
    · rw [List.head?_reverse]; exact follow_last hf
    · rw [List.getLast?_reverse]; exact follow_head hf
    · rw [List.isChain_reverse]
      exact follow_edges hH.inv (follow_chain hf)

/-- The bound on the number of iterations. -/
theorem exec_bound {P : Problem V D} (hM : Monotone P) {verts : Finset V} (hW : Within P verts) :
    ∃ bound, ∀ k s, Exec P k s → k ≤ bound := by
  refine ⟨size (costs_finite P verts).toFinset verts (init P), fun k s h => ?_⟩
  have := (exec_head hM hW (S := (costs_finite P verts).toFinset)
    (fun _ hc => (Set.Finite.mem_toFinset _).2 hc) h).2
  omega

/-- Every state at the loop head can go on or is left. -/
theorem progress (P : Problem V D) {k : ℕ} {s : State V D} (h : Exec P k s) :
    (∃ s', Ends P s') ∨ ∃ s', Exec P (k + 1) s' := by
  by_cases hq : s.pq = []
  · exact Or.inl ⟨s, .empty h hq⟩
  · obtain ⟨e, he⟩ := exists_top P s.pq hq
    by_cases hd : e.node = P.dst
    · exact Or.inl ⟨_, .found h he hd⟩
    · exact Or.inr ⟨_, .step h he hd⟩

/-- The loop ends. -/
theorem ends_exists {P : Problem V D} (hM : Monotone P) {verts : Finset V} (hW : Within P verts) :
    ∃ s, Ends P s := by
  obtain ⟨bound, hb⟩ := exec_bound hM hW
  by_contra hno
  have : ∀ k, ∃ s, Exec P k s := by
    intro k
    induction k with
    | zero => exact ⟨_, .init⟩
    | succ k ih =>
      obtain ⟨s, hs⟩ := ih
      rcases progress P hs with h | h
      · exact absurd h hno
      · exact h
  obtain ⟨s, hs⟩ := this (bound + 1)
  have := hb _ _ hs
  omega

/-- Following the predecessors ends. -/
theorem follow_ends {P : Problem V D} (hM : Monotone P) {verts : Finset V} (hW : Within P verts)
    {s : State V D} (h : Ends P s) : ∃ k r, follow P.src s.prev k P.dst = some r := by
  obtain ⟨s0, hH, hp, -, hq | ⟨e, ht, hed⟩⟩ := ends_cases hM hW h
  · obtain ⟨h1, h2⟩ := empty_none hH hq
    refine ⟨1, .error .exn, ?_⟩
    rw [hp]
    unfold follow
    rw [if_neg h1, hH.inv.nopred _ h2]
  · obtain ⟨k', l, hl, -⟩ := found_follow hH ht.1 hed
    rw [hp]
    exact ⟨k', _, hl⟩

theorem outcome_exists {P : Problem V D} (hM : Monotone P) {verts : Finset V}
    (hW : Within P verts) : ∃ r, Outcome P r := by
  obtain ⟨s, hs⟩ := ends_exists hM hW
  obtain ⟨k, r, hr⟩ := follow_ends hM hW hs
  exact ⟨_, s, k, r, hs, hr, rfl⟩

/-! ### Real distances -/

section Real

theorem walkLength_concat {V : Type} (len : V → V → ℝ) (l : List V) (u n : V)
    (h : l.getLast? = some u) : walkLength len (l ++ [n]) = walkLength len l + len u n := by
  induction l with
  | nil => cases h
  | cons a r ih =>
    cases r with
    | nil =>
      cases h
      simp [walkLength]
    | cons b t =>
      rw [List.getLast?_cons_cons] at h
      have := ih h
      simp only [List.cons_append, walkLength] at this ⊢
      rw [this]
      ring

/-- The search with real distances and weighting `w`. -/
structure IsReal (P : Problem V ℝ) (h : V → ℝ) (w : ℝ) : Prop where
  add : ∀ x y, P.add x y = x + y
  zero : P.zero = 0
  prio : ∀ d v, P.prio d v = d + h v * w
  len : ∀ u v, 0 ≤ P.len u v

omit [DecidableEq V] in
theorem IsReal.monotone {P : Problem V ℝ} {h : V → ℝ} {w : ℝ} (hP : IsReal P h w) :
    Monotone P := by
  refine ⟨fun d u v => ?_, fun d d' u v hd => ?_⟩
  · rw [hP.add]; linarith [hP.len u v]
  · rw [hP.add, hP.add]; linarith

omit [DecidableEq V] in
theorem IsReal.cost {P : Problem V ℝ} {h : V → ℝ} {w : ℝ} (hP : IsReal P h w) (l : List V)
    (c : ℝ) (u : V) : costFrom P c u l = c + walkLength P.len (u :: l) := by
  induction l generalizing c u with
  | nil => simp [costFrom, walkLength]
  | cons v r ih =>
    rw [costFrom, ih, hP.add, walkLength]
    ring

/-- The list followed from a known node is no longer than the node's distance. -/
theorem follow_cost {P : Problem V ℝ} {h : V → ℝ} {w : ℝ} (hP : IsReal P h w)
    {verts : Finset V} {ex : V → ℝ → Prop} {s : State V ℝ} (hI : Inv P verts ex s) (k : ℕ) (n : V)
    (d : ℝ) (hd : s.dist n = some d) (l : List V)
    (hf : follow P.src s.prev k n = some (.ok l)) : walkLength P.len l.reverse ≤ d := by
  induction k generalizing n d l with
  | zero => cases hf
  | succ k ih =>
    rcases follow_ok hf with ⟨hc, hl⟩ | ⟨k', u, l', hk, hc, hpr, hl, hf'⟩
    · subst hl
      obtain ⟨lc, -, hcost, -⟩ := hI.costs n d hd
      have : P.zero ≤ d := by rw [hcost]; exact le_costFrom hP.monotone _ _ _
      rw [hP.zero] at this
      simpa [walkLength] using this
    · cases hk
      subst hl
      obtain ⟨u', du, h1, -, -, -, h5, h6⟩ := hI.pred n d hd
      rw [hpr] at h1
      cases h1
      have hhead := follow_head hf'
      rw [List.reverse_cons, walkLength_concat P.len l'.reverse u n
        (by rw [List.getLast?_reverse]; exact hhead)]
      rw [hP.add] at h5
      rcases h6 with ⟨hus, hz⟩ | ⟨d', hd', hle⟩
      · subst hus
        rcases follow_ok hf' with ⟨-, hl'⟩ | ⟨_, _, _, -, hne, -⟩
        · rw [hl']
          rw [hP.zero] at hz
          simp only [List.reverse_singleton, walkLength]
          linarith
        · exact absurd rfl hne
      · have := ih u d' hd' l' hf'
        linarith

omit [DecidableEq V] in
/-- A consistent heuristic that vanishes at the destination is at most the length of any walk to
the destination. -/
theorem heuristic_le {P : Problem V ℝ} {h : V → ℝ} {verts : Finset V} (hW : Within P verts)
    (hcons : ∀ u ∈ verts, ∀ v ∈ P.nbrs u, h u ≤ P.len u v + h v) (hdst : h P.dst = 0) (l : List V)
    (u : V) (hu : u ∈ verts) (hch : (u :: l).IsChain fun a b => b ∈ P.nbrs a) (hlast : l.getLastD u = P.dst) :
    h u ≤ walkLength P.len (u :: l) := by
  induction l generalizing u with
  | nil =>
    have : u = P.dst := hlast
    rw [this, hdst]
    simp [walkLength]
  | cons v r ih =>
    rw [List.isChain_cons_cons] at hch
    rw [List.getLastD_cons] at hlast
    have h1 := hcons u hu v hch.1
    have h2 := ih v (hW.nbrs u hu v hch.1) hch.2 hlast
    simp only [walkLength]
    linarith

/-- With a consistent heuristic, the path is at most `max 1 w` times as long as any walk within the
limit. -/
theorem outcome_length {P : Problem V ℝ} {h : V → ℝ} {w : ℝ} (hP : IsReal P h w) (hw : 0 ≤ w)
    {verts : Finset V} (hW : Within P verts)
    (hcons : ∀ u ∈ verts, ∀ v ∈ P.nbrs u, h u ≤ P.len u v + h v) (hdst : h P.dst = 0) {path : List V} (ho : Outcome P (.ok path))
    (rest : List V) (hch : (P.src :: rest).IsChain fun a b => b ∈ P.nbrs a)
    (hlast : rest.getLastD P.src = P.dst) (hfar : ∀ v ∈ rest, P.tooFar v = false) :
    walkLength P.len path ≤ max 1 w * walkLength P.len (P.src :: rest) := by
  have hM := hP.monotone
  obtain ⟨s, k, r', he, hf, hr⟩ := ho
  cases r' with
  | error f => cases hr
  | ok l =>
  have hpath : path = l.reverse := Except.ok.inj hr
  obtain ⟨s0, hH, hp, hd, hq | ⟨e, ht, hed⟩⟩ := ends_cases hM hW he
  · obtain ⟨x, b, d', -, hx, -⟩ := head_frontier hM hH rest hch hlast hfar
    rw [hq] at hx
    cases hx
  · rw [hp] at hf
    obtain ⟨k', l', hl', hcase⟩ := found_follow hH ht.1 hed
    obtain ⟨le, hle⟩ := hH.inv.entry e ht.1
    have hpos : 0 ≤ e.dist := by
      have := hle.zero_le hM
      rwa [hP.zero] at this
    -- the path is no longer than the popped distance
    have h1 : walkLength P.len path ≤ e.dist := by
      rw [hpath]
      rcases hcase with hsd | ⟨d, hd1, hd2⟩
      · rw [hsd] at hf
        rcases follow_ok hf with ⟨-, hl⟩ | ⟨_, _, _, -, hne, -⟩
        · rw [hl]; simpa [walkLength] using hpos
        · exact absurd rfl hne
      · exact (follow_cost hP hH.inv k P.dst d hd1 l hf).trans hd2
    -- the popped distance is bounded by the frontier
    obtain ⟨x, b, d', hsuf, hx, hcost⟩ := head_frontier hM hH rest hch hlast hfar
    have hprio := not_lt.1 (ht.2 ⟨x, d'⟩ hx)
    rw [hP.prio, hP.prio, hed, hdst, zero_mul, add_zero] at hprio
    rw [hP.cost, hP.cost, hP.zero, zero_add] at hcost
    have hchx : (x :: b).IsChain fun a b => b ∈ P.nbrs a := hch.suffix hsuf
    have hlastx : b.getLastD x = P.dst := by
      have h1 : (x :: b).getLast? = (P.src :: rest).getLast? := by
        obtain ⟨t, ht⟩ := hsuf
        rw [← ht, List.getLast?_append]
        simp [List.getLast?_cons]
      rw [List.getLast?_cons, List.getLast?_cons, ← List.getLastD_eq_getLast?,
        ← List.getLastD_eq_getLast?] at h1
      rw [Option.some.inj h1, hlast]
    have hh := heuristic_le hW hcons hdst b x (hH.inv.nodes _ hx) hchx hlastx
    obtain ⟨lx, hlx⟩ := hH.inv.entry ⟨x, d'⟩ hx
    have hd' : 0 ≤ d' := by
      have := hlx.zero_le hM
      rwa [hP.zero] at this
    have hm1 : (1 : ℝ) ≤ max 1 w := le_max_left _ _
    have hm2 : w ≤ max 1 w := le_max_right _ _
    have hwl : 0 ≤ walkLength P.len (x :: b) := by
      have := le_costFrom hM b 0 x
      rw [hP.cost] at this
      linarith
    calc walkLength P.len path ≤ e.dist := h1
      _ ≤ d' + h x * w := hprio
      _ ≤ d' + walkLength P.len (x :: b) * w := by
          have := mul_le_mul_of_nonneg_right hh hw
          linarith
      _ ≤ max 1 w * (d' + walkLength P.len (x :: b)) := by
          have h2 := mul_le_mul_of_nonneg_right hm1 hd'
          have h3 := mul_le_mul_of_nonneg_left hm2 hwl
          nlinarith
      _ ≤ max 1 w * walkLength P.len (P.src :: rest) := by
          apply mul_le_mul_of_nonneg_left hcost
          linarith

end Real

end AStar

end Capi
