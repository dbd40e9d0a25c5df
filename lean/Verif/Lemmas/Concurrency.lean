import Verif.Spec.Sequential
import Verif.Lemmas.Graph
import Mathlib.Data.Finset.Max
import Mathlib.Data.Fintype.Basic
import Mathlib.Algebra.BigOperators.Fin
import Mathlib.Algebra.Order.BigOperators.Group.Finset

/-!
# Helper lemmas about concurrent executions
-/

namespace Capi

namespace Conc

variable {N : ℕ}

theorem Call.locks_sorted {n : ℕ} {c : Call} (h : c.Valid n) : c.locks.Pairwise (· < ·) := by
  cases c <;> simp only [Call.locks, Call.Valid] at *
  case row => simp
  all_goals
    split_ifs <;> simp <;> omega

theorem Call.locks_pos (c : Call) : 0 < c.locks.length := by
  cases c <;> simp only [Call.locks] <;> first | (split_ifs <;> simp) | simp

/-- A stored cell is protected by a lock of every call reading or storing it. -/
theorem Call.guard {n : ℕ} {c d : Call} (hc : c.Valid n) (hd : d.Valid n) {acc : List (BitVec 8)}
    {x : ℕ} {v : BitVec 8} (hs : c.store n acc = some (x, v))
    (hx : x ∈ d.cells n ∨ ∃ acc' w, d.store n acc' = some (x, w)) :
    c.exclusive = true ∧ ∃ l, l ∈ c.locks ∧ l ∈ d.locks := by
  have key : ∃ i j, i < n ∧ c.exclusive = true ∧ x = i + n * j ∧ j ∈ c.locks := by
    cases c with
    | add i j m =>
      simp only [Call.store, Option.some.injEq, Prod.mk.injEq] at hs
      refine ⟨i, j, hc.1, rfl, hs.1.symm, ?_⟩
      simp only [Call.locks]; split_ifs <;> simp
    | remove i j =>
      simp only [Call.store, Option.some.injEq, Prod.mk.injEq] at hs
      refine ⟨i, j, hc.1, rfl, hs.1.symm, ?_⟩
      simp only [Call.locks]; split_ifs <;> simp
    | query i j => simp [Call.store] at hs
    | row w => simp [Call.store] at hs
  obtain ⟨i, j, hi, he, rfl, hj⟩ := key
  refine ⟨he, j, hj, ?_⟩
  have key2 : ∃ p q, p < n ∧ i + n * j = p + n * q ∧ q ∈ d.locks := by
    cases d with
    | add p q m =>
      refine ⟨p, q, hd.1, ?_, by simp only [Call.locks]; split_ifs <;> simp⟩
      rcases hx with hx | ⟨_, _, hx⟩
      · simpa [Call.cells] using hx
      · simp only [Call.store, Option.some.injEq, Prod.mk.injEq] at hx
        exact hx.1.symm
    | remove p q =>
      refine ⟨p, q, hd.1, ?_, by simp only [Call.locks]; split_ifs <;> simp⟩
      rcases hx with hx | ⟨_, _, hx⟩
      · simp [Call.cells] at hx
      · simp only [Call.store, Option.some.injEq, Prod.mk.injEq] at hx
        exact hx.1.symm
    | query p q =>
      refine ⟨p, q, hd.1, ?_, by simp only [Call.locks]; split_ifs <;> simp⟩
      rcases hx with hx | ⟨_, _, hx⟩
      · simpa [Call.cells] using hx
      · simp [Call.store] at hx
    | row q =>
      rcases hx with hx | ⟨_, _, hx⟩
      · simp only [Call.cells, List.mem_map, List.mem_range] at hx
        obtain ⟨p, hp, he⟩ := hx
        exact ⟨p, q, hp, by rw [← he, Nat.mul_comm], by simp [Call.locks]⟩
      · simp [Call.store] at hx
  obtain ⟨p, q, hp, heq, hq⟩ := key2
  rwa [(Graph.pos_inj hi hp heq).2]

/-- The call a thread is in the middle of. -/
def Phase.current : Phase → List Call
  | .idle => []
  | .acquiring c _ => [c]
  | .reading c _ => [c]
  | .releasing _ _ => []

/-- What holds of one thread in every reachable state. -/
structure ThOk (n : ℕ) (mem : ℕ → BitVec 8) (x : Th) : Prop where
  calls : ∀ c ∈ x.calls, c.Valid n
  phase : match x.phase with
    | .idle => True
    | .acquiring c k => c.Valid n ∧ k < c.locks.length
    | .reading c acc => c.Valid n ∧ acc.length ≤ (c.cells n).length ∧
        acc = ((c.cells n).take acc.length).map mem
    | .releasing c k => c.Valid n ∧ 0 < k ∧ k ≤ c.locks.length

/-- What holds in every reachable state. -/
structure Inv (n : ℕ) (mem : ℕ → BitVec 8) (prog : Fin N → List Call) (σ : State N) : Prop where
  ok : ∀ t, ThOk n σ.mem (σ.th t)
  excl : ∀ s t, s ≠ t → ∀ l m m', (l, m) ∈ (σ.th s).phase.holds →
    (l, m') ∈ (σ.th t).phase.holds → m = false ∧ m' = false
  replay : Replays n mem σ.log
  mem : σ.mem = runAll n mem (σ.log.map fun e => e.2.1)
  prog : ∀ t, callsOf σ.log t ++ (σ.th t).phase.current ++ (σ.th t).calls = prog t

theorem setTh_same (σ : State N) (t : Fin N) (x : Th) : (σ.setTh t x).th t = x := by
  simp [State.setTh]

theorem setTh_other (σ : State N) {t s : Fin N} (x : Th) (h : s ≠ t) :
    (σ.setTh t x).th s = σ.th s := by
  simp [State.setTh, h]

theorem Inv.of_start {n : ℕ} {mem : ℕ → BitVec 8} {prog : Fin N → List Call}
    (hv : ∀ t, ∀ c ∈ prog t, c.Valid n) : Inv n mem prog (start mem prog) := by
  refine ⟨fun t => ⟨hv t, trivial⟩, ?_, trivial, rfl, fun t => rfl⟩
  intro s t _ l m m' h
  simp [start, Phase.holds] at h

/-- Exclusion is kept if a thread only loses locks. -/
theorem excl_of_subset {σ : State N} (he : ∀ s t, s ≠ t → ∀ l m m',
      (l, m) ∈ (σ.th s).phase.holds → (l, m') ∈ (σ.th t).phase.holds → m = false ∧ m' = false)
    (t : Fin N) (x : Th) (hx : ∀ y ∈ x.phase.holds, y ∈ (σ.th t).phase.holds) :
    ∀ p q, p ≠ q → ∀ l m m', (l, m) ∈ ((σ.setTh t x).th p).phase.holds →
      (l, m') ∈ ((σ.setTh t x).th q).phase.holds → m = false ∧ m' = false := by
  intro p q hpq l m m' h1 h2
  apply he p q hpq l m m'
  · by_cases h : p = t
    · subst h; rw [setTh_same] at h1; exact hx _ h1
    · rwa [setTh_other _ _ h] at h1
  · by_cases h : q = t
    · subst h; rw [setTh_same] at h2; exact hx _ h2
    · rwa [setTh_other _ _ h] at h2

theorem Replays_append {n : ℕ} {mem : ℕ → BitVec 8}
    {l : List (Fin N × Call × List (BitVec 8))} {t : Fin N} {c : Call} {acc : List (BitVec 8)}
    (h : Replays n mem l) (ha : acc = alone n (runAll n mem (l.map fun e => e.2.1)) c) :
    Replays n mem (l ++ [(t, c, acc)]) := by
  induction l generalizing mem with
  | nil => exact ⟨ha, trivial⟩
  | cons e r ih => exact ⟨h.1, ih h.2 ha⟩

theorem take_succ_mem {α : Type} {l : List α} {k : ℕ} {x y : α} (h : l[k]? = some x)
    (hy : y ∈ l.take (k + 1)) : y ∈ l.take k ∨ y = x := by
  rw [List.take_add_one, h] at hy
  simpa using hy

theorem Inv.step {n : ℕ} {mem : ℕ → BitVec 8} {prog : Fin N → List Call}
    {refuse : State N → Fin N → Prop} {σ σ' : State N} {t : Fin N}
    (h : Inv n mem prog σ) (hs : Step n refuse σ t σ') : Inv n mem prog σ' := by
  cases hs with
  | start c r hth =>
    have hok := h.ok t
    rw [hth] at hok
    refine ⟨fun s => ?_, ?_, h.replay, h.mem, fun s => ?_⟩
    · by_cases hst : s = t
      · subst hst; rw [setTh_same]
        exact ⟨fun d hd => hok.calls d (by simp [hd]), hok.calls c (by simp), c.locks_pos⟩
      · rw [setTh_other _ _ hst]; exact h.ok s
    · exact excl_of_subset h.excl t _ (by simp [Phase.holds])
    · by_cases hst : s = t
      · subst hst
        rw [setTh_same, ← h.prog s, hth]
        simp [Phase.current, State.setTh]
      · rw [setTh_other _ _ hst]; exact h.prog s
  | acquire c r k l hth hl hf hr =>
    have hok := h.ok t
    rw [hth] at hok
    obtain ⟨hv, hk⟩ := hok.phase
    have hholds : ∀ y ∈ (if k + 1 = c.locks.length then Phase.reading c []
        else Phase.acquiring c (k + 1)).holds, y ∈ (Phase.acquiring c k).holds ∨
          y = (l, c.exclusive) := by
      intro y hy
      have hy' : y ∈ (c.locks.take (k + 1)).map fun l => (l, c.exclusive) := by
        split_ifs at hy with hlen
        · rw [hlen, List.take_length]; exact hy
        · exact hy
      obtain ⟨z, hz, rfl⟩ := List.mem_map.1 hy'
      rcases take_succ_mem hl hz with h1 | h1
      · exact Or.inl (List.mem_map_of_mem h1)
      · exact Or.inr (by rw [h1])
    refine ⟨fun s => ?_, ?_, h.replay, h.mem, fun s => ?_⟩
    · by_cases hst : s = t
      · subst hst; rw [setTh_same]
        refine ⟨hok.calls, ?_⟩
        dsimp only
        split_ifs with hlen
        · exact ⟨hv, by simp, by simp⟩
        · exact ⟨hv, by omega⟩
      · rw [setTh_other _ _ hst]; exact h.ok s
    · intro p q hpq l' m m' h1 h2
      by_cases hp : p = t
      · subst hp
        have hq : q ≠ p := fun e => hpq e.symm
        rw [setTh_same] at h1
        rw [setTh_other _ _ hq] at h2
        rcases hholds _ h1 with h3 | h3
        · exact h.excl p q hpq l' m m' (by rw [hth]; exact h3) h2
        · rw [Prod.mk.injEq] at h3
          rw [h3.1] at h2
          have := hf q hq m' h2
          exact ⟨h3.2.trans this.2, this.1⟩
      · rw [setTh_other _ _ hp] at h1
        by_cases hq : q = t
        · subst hq
          rw [setTh_same] at h2
          rcases hholds _ h2 with h3 | h3
          · exact h.excl p q hpq l' m m' h1 (by rw [hth]; exact h3)
          · rw [Prod.mk.injEq] at h3
            rw [h3.1] at h1
            have := hf p hp m h1
            exact ⟨this.1, h3.2.trans this.2⟩
        · rw [setTh_other _ _ hq] at h2
          exact h.excl p q hpq l' m m' h1 h2
    · by_cases hst : s = t
      · subst hst
        rw [setTh_same, ← h.prog s, hth]
        dsimp only
        split_ifs <;> simp [Phase.current, State.setTh]
      · rw [setTh_other _ _ hst]; exact h.prog s
  | read c r acc x hth hx =>
    have hok := h.ok t
    rw [hth] at hok
    obtain ⟨hv, hle, hacc⟩ := hok.phase
    refine ⟨fun s => ?_, ?_, h.replay, h.mem, fun s => ?_⟩
    · by_cases hst : s = t
      · subst hst; rw [setTh_same]
        refine ⟨hok.calls, hv, ?_, ?_⟩
        · rw [List.length_append]
          have := (List.getElem?_eq_some_iff.1 hx).1
          simp only [List.length_singleton]; omega
        · rw [List.length_append, List.length_singleton, List.take_add_one, hx]
          simp only [Option.toList_some, List.map_append, List.map_cons, List.map_nil]
          change acc ++ [σ.mem x] = List.map σ.mem (List.take acc.length (c.cells n)) ++ [σ.mem x]
          rw [← hacc]
      · rw [setTh_other _ _ hst]; exact h.ok s
    · exact excl_of_subset h.excl t _ (by rw [hth]; exact fun y hy => hy)
    · by_cases hst : s = t
      · subst hst
        rw [setTh_same, ← h.prog s, hth]
        simp [Phase.current, State.setTh]
      · rw [setTh_other _ _ hst]; exact h.prog s
  | commit c r acc hth hx =>
    have hok := h.ok t
    rw [hth] at hok
    obtain ⟨hv, hle, hacc⟩ := hok.phase
    have hall : acc = alone n σ.mem c := by
      rw [hx, List.take_length] at hacc; exact hacc
    refine ⟨fun s => ?_, ?_, ?_, ?_, fun s => ?_⟩
    · by_cases hst : s = t
      · subst hst
        change ThOk n _ ((σ.setTh s _).th s)
        rw [setTh_same]
        exact ⟨hok.calls, hv, c.locks_pos, le_refl _⟩
      · change ThOk n _ ((σ.setTh t _).th s)
        rw [setTh_other _ _ hst]
        have hs := h.ok s
        refine ⟨hs.calls, ?_⟩
        have hph := hs.phase
        cases hp : (σ.th s).phase with
        | idle => trivial
        | acquiring d k => rw [hp] at hph; exact hph
        | releasing d k => rw [hp] at hph; exact hph
        | reading d acc' =>
          rw [hp] at hph
          obtain ⟨hdv, hdl, hda⟩ := hph
          refine ⟨hdv, hdl, ?_⟩
          cases hst' : c.store n acc with
          | none => exact hda
          | some p =>
            obtain ⟨x, v⟩ := p
            rw [hda]
            simp only [List.length_map, List.length_take, min_eq_left hdl]
            apply List.map_congr_left
            intro y hy
            have hyx : y ≠ x := by
              rintro rfl
              obtain ⟨hce, l, hl1, hl2⟩ := Call.guard hv hdv hst' (Or.inl (List.mem_of_mem_take hy))
              have := h.excl t s (fun e => hst e.symm) l true d.exclusive
                (by rw [hth]; exact List.mem_map.2 ⟨l, hl1, by rw [hce]⟩)
                (by rw [hp]; exact List.mem_map.2 ⟨l, hl2, rfl⟩)
              simp at this
            simp [update, hyx]
    · have := excl_of_subset h.excl t ⟨r, .releasing c c.locks.length⟩ (by
        rw [hth]; intro y hy
        simpa [Phase.holds] using hy)
      exact this
    · apply Replays_append h.replay
      rw [hall]
      conv_lhs => rw [h.mem]
    · change update σ.mem (c.store n acc) = _
      rw [List.map_append, runAll, List.foldl_append]
      change _ = after n (runAll n mem _) c
      rw [← h.mem, after, hall]
    · by_cases hst : s = t
      · subst hst
        change callsOf (σ.log ++ [(s, c, acc)]) s ++ ((σ.setTh s _).th s).phase.current ++ _ = _
        rw [← h.prog s]
        change _ ++ ((σ.setTh s _).th s).calls = _
        rw [setTh_same, hth]
        simp [Phase.current, callsOf]
      · change callsOf (σ.log ++ [(t, c, acc)]) s ++ ((σ.setTh t _).th s).phase.current ++
          ((σ.setTh t _).th s).calls = _
        rw [setTh_other _ _ hst, ← h.prog s]
        have hts : ¬ t = s := fun e => hst e.symm
        simp [callsOf, hts]
  | release c r k hth =>
    have hok := h.ok t
    rw [hth] at hok
    obtain ⟨hv, _, hk⟩ := hok.phase
    refine ⟨fun s => ?_, ?_, h.replay, h.mem, fun s => ?_⟩
    · by_cases hst : s = t
      · subst hst; rw [setTh_same]
        refine ⟨hok.calls, ?_⟩
        dsimp only
        split_ifs with hk0
        · trivial
        · exact ⟨hv, by omega, by omega⟩
      · rw [setTh_other _ _ hst]; exact h.ok s
    · apply excl_of_subset h.excl
      rw [hth]
      intro y hy
      dsimp only at hy
      split_ifs at hy with hk0
      · simp [Phase.holds] at hy
      · simp only [Phase.holds, List.mem_map] at hy ⊢
        obtain ⟨z, hz, rfl⟩ := hy
        exact ⟨z, List.take_subset_take_left _ (Nat.le_succ k) hz, rfl⟩
    · by_cases hst : s = t
      · subst hst
        rw [setTh_same, ← h.prog s, hth]
        dsimp only
        split_ifs <;> simp [Phase.current, State.setTh]
      · rw [setTh_other _ _ hst]; exact h.prog s

theorem Inv.exec {n : ℕ} {mem : ℕ → BitVec 8} {prog : Fin N → List Call}
    {refuse : State N → Fin N → Prop} {ts : List (Fin N)} {σ : State N}
    (hv : ∀ t, ∀ c ∈ prog t, c.Valid n) (h : Exec n refuse (start mem prog) ts σ) :
    Inv n mem prog σ := by
  induction h with
  | nil => exact Inv.of_start hv
  | snoc _ hs ih => exact ih.step hs

/-- A thread that cannot move and is not finished waits for a lock. -/
theorem blocked_wants {n : ℕ} {mem : ℕ → BitVec 8} {prog : Fin N → List Call}
    {refuse : State N → Fin N → Prop} {σ : State N} (h : Inv n mem prog σ) {t : Fin N}
    (hb : ∀ σ', ¬ Step n refuse σ t σ') (hn : σ.th t ≠ ⟨[], .idle⟩) :
    ∃ c k l, (σ.th t).phase = .acquiring c k ∧ c.locks[k]? = some l ∧ c.Valid n ∧
      (σ.th t).phase.wants = some (l, c.exclusive) ∧
      (¬ σ.free t l c.exclusive ∨ refuse σ t) := by
  rcases hth : σ.th t with ⟨cs, ph⟩
  have hok := h.ok t
  rw [hth] at hok
  cases ph with
  | idle =>
    cases cs with
    | nil => exact absurd hth hn
    | cons c r => exact absurd (Step.start σ t c r hth) (hb _)
  | acquiring c k =>
    obtain ⟨hv, hk⟩ := hok.phase
    have hl : c.locks[k]? = some (c.locks[k]) := List.getElem?_eq_getElem hk
    refine ⟨c, k, c.locks[k], rfl, hl, hv, by simp [Phase.wants, hl], ?_⟩
    by_contra hcon
    push Not at hcon
    exact hb _ (Step.acquire σ t c cs k _ hth hl hcon.1 hcon.2)
  | reading c acc =>
    obtain ⟨hv, hle, _⟩ := hok.phase
    rcases Nat.lt_or_ge acc.length (c.cells n).length with hlt | hge
    · exact absurd (Step.read σ t c cs acc _ hth (List.getElem?_eq_getElem hlt)) (hb _)
    · exact absurd (Step.commit σ t c cs acc hth (by omega)) (hb _)
  | releasing c k =>
    obtain ⟨hv, hk, _⟩ := hok.phase
    obtain ⟨k', rfl⟩ : ∃ k', k = k' + 1 := ⟨k - 1, by omega⟩
    exact absurd (Step.release σ t c cs k' hth) (hb _)

/-- Whoever holds a lock and waits, waits for a higher one. -/
theorem holds_lt_wants {n : ℕ} {c : Call} (hv : c.Valid n) {k l l' : ℕ} {m : Bool}
    (hl : c.locks[k]? = some l) (hh : (l', m) ∈ (Phase.acquiring c k).holds) : l' < l := by
  simp only [Phase.holds, List.mem_map] at hh
  obtain ⟨z, hz, he⟩ := hh
  rw [Prod.mk.injEq] at he
  obtain ⟨rfl, _⟩ := he
  have hs := Call.locks_sorted hv
  obtain ⟨i, hi, rfl⟩ := List.getElem_of_mem hz
  rw [List.length_take] at hi
  obtain ⟨hk, rfl⟩ := List.getElem?_eq_some_iff.1 hl
  rw [List.getElem_take]
  exact List.pairwise_iff_getElem.1 hs i k (by omega) hk (by omega)

/-- No reachable state is stuck before everybody is finished. -/
theorem progress {n : ℕ} {mem : ℕ → BitVec 8} {prog : Fin N → List Call}
    {refuse : State N → Fin N → Prop} (hp : Policy refuse) {σ : State N} (h : Inv n mem prog σ)
    (hn : ¬ σ.finished) : ∃ t σ', Step n refuse σ t σ' := by
  classical
  by_contra hcon
  push Not at hcon
  unfold State.finished at hn
  push Not at hn
  obtain ⟨t0, ht0⟩ := hn
  have hwait := fun t (ht : σ.th t ≠ ⟨[], .idle⟩) => blocked_wants h (hcon t) ht
  -- the waiting thread with the highest wanted lock
  let want : Fin N → ℕ := fun t => match (σ.th t).phase.wants with
    | some (l, _) => l
    | none => 0
  obtain ⟨t, ht, hmax⟩ := Finset.exists_max_image
    (Finset.univ.filter fun t => σ.th t ≠ ⟨[], .idle⟩) want ⟨t0, by simp [ht0]⟩
  rw [Finset.mem_filter] at ht
  have hmax' : ∀ s, σ.th s ≠ ⟨[], .idle⟩ → want s ≤ want t := fun s hs => hmax s (by simp [hs])
  obtain ⟨c, k, l, hph, hl, hv, hw, hblock⟩ := hwait t ht.2
  have hwt : want t = l := by simp only [want, hw]
  -- nobody else can hold a lock equal to the highest wanted one
  have hnohold : ∀ s m, (l, m) ∉ (σ.th s).phase.holds := by
    intro s m hm
    have hs : σ.th s ≠ ⟨[], .idle⟩ := by
      intro e; rw [e] at hm; simp [Phase.holds] at hm
    obtain ⟨c', k', l', hph', hl', hv', hw', _⟩ := hwait s hs
    rw [hph'] at hm
    have h1 := holds_lt_wants hv' hl' hm
    have h2 := hmax' s hs
    have h3 : want s = l' := by simp only [want, hw']
    omega
  have hfree : ∀ s e, σ.free s l e := fun s e q _ m hm => absurd hm (hnohold q m)
  rcases hblock with hb | hb
  · exact hb (hfree t _)
  · obtain ⟨l2, s, hst, hw1, hw2⟩ := hp σ t hb
    rw [hw] at hw1
    have hl2 : l2 = l := (Prod.mk.injEq _ _ _ _ ▸ (Option.some.inj hw1)).1.symm
    subst hl2
    have hs : σ.th s ≠ ⟨[], .idle⟩ := by
      intro e; rw [e] at hw2; simp [Phase.wants] at hw2
    obtain ⟨c', k', l', hph', hl', hv', hw', hblock'⟩ := hwait s hs
    rw [hw2] at hw'
    have he := Option.some.inj hw'
    rw [Prod.mk.injEq] at he
    rcases hblock' with hb' | hb'
    · rw [← he.1] at hb'; exact hb' (hfree s _)
    · obtain ⟨l3, s3, _, hw3, _⟩ := hp σ s hb'
      rw [hw2] at hw3
      simp at hw3

/-! ### Termination -/

/-- Steps a call can still take. -/
def Call.cost (n : ℕ) (c : Call) : ℕ := 2 + 2 * c.locks.length + (c.cells n).length

/-- Steps a thread can still take. -/
def Th.cost (n : ℕ) (x : Th) : ℕ :=
  (x.calls.map (Call.cost n)).sum + match x.phase with
    | .idle => 0
    | .acquiring c k => 1 + c.locks.length - k + (c.cells n).length + c.locks.length
    | .reading c acc => 1 + (c.cells n).length - acc.length + c.locks.length
    | .releasing _ k => k

/-- Steps all threads together can still take. -/
def State.cost (n : ℕ) (σ : State N) : ℕ := ∑ t, (σ.th t).cost n

theorem cost_setTh {n : ℕ} {σ : State N} {t : Fin N} {x : Th} (h : x.cost n < (σ.th t).cost n) :
    (σ.setTh t x).cost n < σ.cost n := by
  unfold State.cost
  apply Finset.sum_lt_sum
  · intro s _
    by_cases hs : s = t
    · subst hs; rw [setTh_same]; exact h.le
    · rw [setTh_other _ _ hs]
  · exact ⟨t, Finset.mem_univ t, by rw [setTh_same]; exact h⟩

theorem step_cost {n : ℕ} {mem : ℕ → BitVec 8} {prog : Fin N → List Call}
    {refuse : State N → Fin N → Prop} {σ σ' : State N} {t : Fin N}
    (h : Inv n mem prog σ) (hs : Step n refuse σ t σ') : σ'.cost n < σ.cost n := by
  have hok := h.ok t
  cases hs with
  | start c r hth =>
    apply cost_setTh
    rw [hth]
    simp only [Th.cost, Call.cost, List.map_cons, List.sum_cons]
    omega
  | acquire c r k l hth hl hf hr =>
    apply cost_setTh
    rw [hth] at hok ⊢
    obtain ⟨_, hk⟩ := hok.phase
    simp only [Th.cost]
    split_ifs <;> simp only [List.length_nil] <;> omega
  | read c r acc x hth hx =>
    apply cost_setTh
    rw [hth]
    have := (List.getElem?_eq_some_iff.1 hx).1
    simp only [Th.cost, List.length_append, List.length_singleton]
    omega
  | commit c r acc hth hx =>
    have : (σ.setTh t ⟨r, .releasing c c.locks.length⟩).cost n < σ.cost n := by
      apply cost_setTh
      rw [hth]
      simp only [Th.cost]
      omega
    exact this
  | release c r k hth =>
    apply cost_setTh
    rw [hth]
    simp only [Th.cost]
    split_ifs <;> simp only <;> omega

/-! ### Additions only -/

/-- The bits an addition sets. -/
def orMem (mem : ℕ → BitVec 8) (x : ℕ) (b : BitVec 8) : ℕ → BitVec 8 :=
  fun y => if y = x then mem y ||| b else mem y

theorem after_add (n : ℕ) (mem : ℕ → BitVec 8) (i j : ℕ) (m : Bool) :
    after n mem (.add i j m) = orMem mem (i + n * j) (Graph.bit m) := by
  funext y
  simp only [after, update, Call.store, alone, Call.cells, List.map_cons, List.map_nil,
    List.headD_cons, orMem]
  split_ifs with h
  · rw [h]
  · rfl

theorem orMem_comm (mem : ℕ → BitVec 8) (x y : ℕ) (b c : BitVec 8) :
    orMem (orMem mem x b) y c = orMem (orMem mem y c) x b := by
  funext z
  simp only [orMem]
  split_ifs with h1 h2 h2
  · rw [BitVec.or_assoc, BitVec.or_assoc, BitVec.or_comm b c]
  all_goals rfl

/-- Additions commute. -/
theorem runAll_perm {n : ℕ} {l l' : List Call} (hp : l.Perm l')
    (ha : ∀ c ∈ l, ∃ i j m, c = .add i j m) (mem : ℕ → BitVec 8) :
    runAll n mem l = runAll n mem l' := by
  induction hp generalizing mem with
  | nil => rfl
  | cons x _ ih => exact ih (fun c hc => ha c (by simp [hc])) _
  | swap x y l =>
    obtain ⟨i, j, m, rfl⟩ := ha x (by simp)
    obtain ⟨i', j', m', rfl⟩ := ha y (by simp)
    simp only [runAll, List.foldl_cons]
    rw [after_add, after_add, after_add, after_add, orMem_comm]
  | trans h1 _ ih1 ih2 =>
    rw [ih1 ha, ih2 fun c hc => ha c (h1.mem_iff.2 hc)]

/-- A log consisting of complete programs is a permutation of all calls. -/
theorem log_perm {log : List (Fin N × Call × List (BitVec 8))} {prog : Fin N → List Call}
    (h : ∀ t, callsOf log t = prog t) :
    (log.map fun e => e.2.1).Perm ((List.ofFn prog).flatten) := by
  have key : ∀ (l : List (Fin N × Call × List (BitVec 8))) (ids : List (Fin N)), ids.Nodup →
      (∀ e ∈ l, e.1 ∈ ids) →
      (l.map fun e => e.2.1).Perm (ids.flatMap (callsOf l)) := by
    intro l ids
    induction ids generalizing l with
    | nil =>
      intro _ hl
      cases l with
      | nil => simp
      | cons e r => exact absurd (hl e (by simp)) (by simp)
    | cons t r ih =>
      intro hn hl
      rw [List.nodup_cons] at hn
      have hsplit : (l.map fun e => e.2.1).Perm
          (callsOf l t ++ (l.filter fun e => !decide (e.1 = t)).map fun e => e.2.1) := by
        unfold callsOf
        rw [← List.map_append]
        exact (List.filter_append_perm (fun e => decide (e.1 = t)) l).symm.map _
      refine hsplit.trans ?_
      rw [List.flatMap_cons]
      apply List.Perm.append_left
      refine (ih _ hn.2 ?_).trans ?_
      · intro e he
        obtain ⟨h1, h2⟩ := List.mem_filter.1 he
        rcases List.mem_cons.1 (hl e h1) with h3 | h3
        · simp [h3] at h2
        · exact h3
      · apply List.Perm.of_eq
        apply List.flatMap_congr
        intro s hs
        unfold callsOf
        congr 1
        rw [List.filter_filter]
        apply List.filter_congr
        intro e _
        by_cases he : e.1 = s
        · have : ¬ s = t := by rintro rfl; exact hn.1 hs
          simp [he, this]
        · simp [he]
  refine (key log (List.finRange N) (List.nodup_finRange N) (fun e _ => List.mem_finRange _)).trans ?_
  apply List.Perm.of_eq
  rw [List.ofFn_eq_map, List.flatMap_def]
  congr 1
  apply List.map_congr_left
  intro t _
  exact h t

/-! ### The executable version -/

theorem next_step {n : ℕ} {σ τ : State N} {t : Fin N} (h : σ.next n t = some τ) :
    Step n (fun _ _ => False) σ t τ := by
  unfold State.next at h
  split at h
  · simp at h
  · rename_i c r hth
    obtain rfl := Option.some.inj h
    exact .start σ t c r hth
  · rename_i r c k hth
    split at h
    · simp at h
    · rename_i l hl
      split at h
      case isFalse => simp at h
      rename_i hall
      obtain rfl := Option.some.inj h
      refine Step.acquire σ t c r k l hth hl ?_ not_false
      intro s hst m hm
      have h1 := List.all_eq_true.1 hall s (List.mem_finRange s)
      rw [Bool.or_eq_true, decide_eq_true_eq] at h1
      have h2 := List.all_eq_true.1 (h1.resolve_left hst) _ hm
      simpa using h2
  · rename_i r c acc hth
    split at h
    · rename_i x hx
      obtain rfl := Option.some.inj h
      exact .read σ t c r acc x hth hx
    · split_ifs at h with hlen
      obtain rfl := Option.some.inj h
      exact .commit σ t c r acc hth hlen
  · simp at h
  · rename_i r c k hth
    obtain rfl := Option.some.inj h
    exact .release σ t c r k hth

theorem Exec.cons {n : ℕ} {refuse : State N → Fin N → Prop} {σ τ υ : State N} {t : Fin N}
    {ts : List (Fin N)} (h : Step n refuse σ t τ) (he : Exec n refuse τ ts υ) :
    Exec n refuse σ (t :: ts) υ := by
  induction he with
  | nil => exact .snoc (.nil σ) h
  | snoc _ hs ih => exact .snoc ih hs

theorem runSchedule_exec {n : ℕ} {σ τ : State N} {ts : List (Fin N)}
    (h : σ.runSchedule n ts = some τ) : Exec n (fun _ _ => False) σ ts τ := by
  induction ts generalizing σ with
  | nil => obtain rfl := Option.some.inj h; exact .nil _
  | cons t r ih =>
    rw [State.runSchedule, Option.bind_eq_some_iff] at h
    obtain ⟨υ, h1, h2⟩ := h
    exact Exec.cons (next_step h1) (ih h2)

/-! ### Calls on a graph -/

theorem withMem_memOf {g : Graph} (h : g.Shape) : withMem g (memOf g) = g := by
  have : (List.range (g.num * g.num)).map (memOf g) = g.cells := by
    rw [← h.cells]
    apply List.ext_getElem (by simp)
    intro k h1 h2
    rw [List.getElem_map, List.getElem_range, memOf, List.getD_eq_getElem?_getD,
      List.getElem?_eq_getElem h2, Option.getD_some]
  unfold withMem
  rw [this]

theorem withMem_frame {g g' : Graph} (h : Graph.SameFrame g g') (mem : ℕ → BitVec 8) :
    withMem g' mem = withMem g mem := by
  obtain ⟨p, v, n, i, c, l⟩ := g
  obtain ⟨p', v', n', i', c', l'⟩ := g'
  obtain ⟨h1, h2, h3, h4, h5, _⟩ := h
  simp only at h1 h2 h3 h4 h5
  subst h1 h2 h3 h4 h5
  rfl

theorem memOf_set {g : Graph} {k : ℕ} (hk : k < g.cells.length) (v : BitVec 8) :
    memOf { g with cells := g.cells.set k v } = update (memOf g) (some (k, v)) := by
  funext y
  simp only [memOf, update, List.getD_eq_getElem?_getD, List.getElem?_set]
  by_cases h : k = y
  · subst h; simp [hk]
  · have : ¬ y = k := fun e => h e.symm
    simp [h, this]

theorem directed_frame {g g' : Graph} (h : Graph.SameFrame g g') (a b : Coord)
    (mk : ℕ → ℕ → Call) : directed g' a b mk = directed g a b mk := by
  unfold directed; rw [h.idx]

theorem opCalls_frame {g g' : Graph} (h : Graph.SameFrame g g') (o : Graph.Op) :
    opCalls g' o = opCalls g o := by
  cases o <;> simp only [opCalls, directed_frame h]

theorem addDirected_mem {g : Graph} (h : g.Shape) {a b : Coord} (ha : a ∈ g.verts)
    (hb : b ∈ g.verts) (m : Bool) :
    ∃ g', g.addDirected a b m = .ok g' ∧ Graph.SameFrame g g' ∧
      memOf g' = runAll g.num (memOf g) (directed g a b (.add · · m)) := by
  by_cases hab : a = b
  · subst hab
    exact ⟨g, Graph.addDirected_self, .refl g, by simp [directed, runAll]⟩
  · obtain ⟨i, j, hi, hj, hin, hjn, hij, hp, hc⟩ := Graph.pairIndex_ok h ha hb hab
    refine ⟨{ g with cells := g.cells.set (i + g.num * j) (g.bits a b ||| Graph.bit m) },
      ?_, ⟨rfl, rfl, rfl, rfl, rfl, by simp⟩, ?_⟩
    · simp only [Graph.addDirected, if_neg hab, hp, bind, Except.bind, hc, pure, Except.pure]
    · have hlt : i + g.num * j < g.cells.length := by rw [h.cells]; exact Graph.pos_lt hin hjn
      rw [memOf_set hlt]
      simp only [directed, if_neg hab, hi, hj, runAll, List.foldl_cons, List.foldl_nil, after,
        Call.store, alone, Call.cells, List.map_cons, List.map_nil, List.headD_cons]
      simp only [Graph.bits, hi, hj, memOf]

theorem removeDirected_mem {g : Graph} (h : g.Shape) {a b : Coord} (ha : a ∈ g.verts)
    (hb : b ∈ g.verts) :
    ∃ g', g.removeDirected a b = .ok g' ∧ Graph.SameFrame g g' ∧
      memOf g' = runAll g.num (memOf g) (directed g a b .remove) := by
  by_cases hab : a = b
  · subst hab
    exact ⟨g, Graph.removeDirected_self, .refl g, by simp [directed, runAll]⟩
  · obtain ⟨i, j, hi, hj, hin, hjn, hij, hp, hc⟩ := Graph.pairIndex_ok h ha hb hab
    refine ⟨{ g with cells := g.cells.set (i + g.num * j) 0 },
      ?_, ⟨rfl, rfl, rfl, rfl, rfl, by simp⟩, ?_⟩
    · simp only [Graph.removeDirected, if_neg hab, hp, bind, Except.bind, hc, pure, Except.pure]
    · have hlt : i + g.num * j < g.cells.length := by rw [h.cells]; exact Graph.pos_lt hin hjn
      rw [memOf_set hlt]
      simp only [directed, if_neg hab, hi, hj, runAll, List.foldl_cons, List.foldl_nil, after,
        Call.store]

theorem runAll_append (n : ℕ) (mem : ℕ → BitVec 8) (l l' : List Call) :
    runAll n mem (l ++ l') = runAll n (runAll n mem l) l' := by
  simp [runAll, List.foldl_append]

theorem step_mem {g : Graph} (h : g.Shape) (o : Graph.Op) (ho : ∀ c ∈ opCoords o, c ∈ g.verts) :
    ∃ g', g.step o = .ok g' ∧ Graph.SameFrame g g' ∧
      memOf g' = runAll g.num (memOf g) (opCalls g o) := by
  cases o with
  | addDir a b m => exact addDirected_mem h (ho a (by simp [opCoords])) (ho b (by simp [opCoords])) m
  | removeDir a b => exact removeDirected_mem h (ho a (by simp [opCoords])) (ho b (by simp [opCoords]))
  | add a b m =>
    have ha := ho a (by simp [opCoords])
    have hb := ho b (by simp [opCoords])
    obtain ⟨g1, e1, f1, m1⟩ := addDirected_mem h ha hb m
    obtain ⟨g2, e2, f2, m2⟩ := addDirected_mem (f1.shape h) (f1.verts ▸ hb) (f1.verts ▸ ha) m
    refine ⟨g2, ?_, f1.trans f2, ?_⟩
    · simp only [Graph.step, Graph.addEdge, e1, bind, Except.bind, e2]
    · rw [m2, m1, f1.num, directed_frame f1, ← runAll_append]; rfl
  | remove a b =>
    have ha := ho a (by simp [opCoords])
    have hb := ho b (by simp [opCoords])
    obtain ⟨g1, e1, f1, m1⟩ := removeDirected_mem h ha hb
    obtain ⟨g2, e2, f2, m2⟩ := removeDirected_mem (f1.shape h) (f1.verts ▸ hb) (f1.verts ▸ ha)
    refine ⟨g2, ?_, f1.trans f2, ?_⟩
    · simp only [Graph.step, Graph.removeEdge, e1, bind, Except.bind, e2]
    · rw [m2, m1, f1.num, directed_frame f1, ← runAll_append]; rfl

/-- Running updates one after the other on the graph is running their calls on its cells. -/
theorem run_mem {g : Graph} (h : g.Shape) (ops : List Graph.Op) (ho : OpsOn g.verts ops) :
    g.run ops = .ok (withMem g (runAll g.num (memOf g) (opsCalls g ops))) := by
  suffices ∃ g', g.run ops = .ok g' ∧ Graph.SameFrame g g' ∧
      memOf g' = runAll g.num (memOf g) (opsCalls g ops) by
    obtain ⟨g', e, f, m⟩ := this
    rw [e, ← m, ← withMem_frame f, withMem_memOf (f.shape h)]
  induction ops generalizing g with
  | nil => exact ⟨g, rfl, .refl g, rfl⟩
  | cons o r ih =>
    obtain ⟨g1, e1, f1, m1⟩ := step_mem h o (ho o (by simp))
    obtain ⟨g2, e2, f2, m2⟩ := ih (f1.shape h) (fun p hp => f1.verts ▸ ho p (by simp [hp]))
    refine ⟨g2, ?_, f1.trans f2, ?_⟩
    · simp only [Graph.run, e1, bind, Except.bind, e2]
    · have hr : opsCalls g1 r = opsCalls g r := by
        unfold opsCalls
        exact List.flatMap_congr fun p _ => opCalls_frame f1 p
      rw [m2, m1, f1.num, hr, ← runAll_append]; rfl

theorem directed_valid {g : Graph} (h : g.Shape) {a b : Coord} {mk : ℕ → ℕ → Call}
    (hmk : ∀ i j, i < g.num → j < g.num → i ≠ j → (mk i j).Valid g.num) :
    ∀ c ∈ directed g a b mk, c.Valid g.num := by
  intro c hc
  unfold directed at hc
  split_ifs at hc with hab
  · simp at hc
  · split at hc
    · rename_i i j hi hj
      rw [List.mem_singleton] at hc
      subst hc
      apply hmk i j (h.idx_lt hi) (h.idx_lt hj)
      rintro rfl
      exact hab (h.idx_inj hi hj)
    · simp at hc

theorem opsCalls_valid {g : Graph} (h : g.Shape) (ops : List Graph.Op) :
    ∀ c ∈ opsCalls g ops, c.Valid g.num := by
  intro c hc
  obtain ⟨o, _, ho⟩ := List.mem_flatMap.1 hc
  have ha : ∀ a b m, ∀ c ∈ directed g a b (.add · · m), c.Valid g.num := fun a b m =>
    directed_valid h fun i j h1 h2 h3 => ⟨h1, h2, h3⟩
  have hr : ∀ a b, ∀ c ∈ directed g a b .remove, c.Valid g.num := fun a b =>
    directed_valid h fun i j h1 h2 h3 => ⟨h1, h2, h3⟩
  cases o with
  | add a b m => rcases List.mem_append.1 ho with h1 | h1 <;> exact ha _ _ _ _ h1
  | addDir a b m => exact ha _ _ _ _ ho
  | remove a b => rcases List.mem_append.1 ho with h1 | h1 <;> exact hr _ _ _ h1
  | removeDir a b => exact hr _ _ _ ho

theorem directed_add {g : Graph} {a b : Coord} {m : Bool} {c : Call}
    (h : c ∈ directed g a b (.add · · m)) : ∃ i j m, c = .add i j m := by
  unfold directed at h
  split_ifs at h
  · simp at h
  · split at h
    · exact ⟨_, _, _, List.mem_singleton.1 h⟩
    · simp at h

end Conc

end Capi
