import Verif.Spec.Overlay
import Verif.Lemmas.ModifiedGraph
import Mathlib.Data.List.Induction

/-!
# Helper lemmas about overlays over any base
-/

namespace Capi

namespace Layer

open Graph (Op)

theorem entry_ensure (O : Layer) (a c d : Coord) : (O.ensure a).entry c d = O.entry c d := by
  unfold ensure
  split
  · rfl
  · rename_i h
    unfold entry
    simp only [Assoc.get_set]
    split_ifs with hac
    · subst hac; simp [h, Assoc.get]
    · rfl

theorem entry_setEntry (O : Layer) (a b : Coord) (i : Info) (c d : Coord) :
    (O.setEntry a b i).entry c d = if c = a ∧ d = b then some i else O.entry c d := by
  unfold setEntry entry
  simp only [Assoc.get_set]
  by_cases hac : a = c
  · subst hac
    simp only [if_true, Option.bind_some, Assoc.get_set, true_and]
    by_cases hbd : b = d
    · simp [hbd]
    · have : d ≠ b := fun h => hbd h.symm
      simp only [hbd, this, if_false]
      cases Assoc.get O a <;> simp [Assoc.get]
  · have : c ≠ a := fun h => hac h.symm
    simp [hac, this]

/-- What a change of a pair does to its entry. -/
def upd (B : Face) (c d : Coord) (x : Option Info) : Event → Option Info
  | .removed _ _ => some ⟨false, false⟩
  | .added _ _ m =>
    match x with
    | some i => some ⟨m && i.crossing, true⟩
    | none =>
      match firstFlag B c d m with
      | .ok f => some ⟨f, true⟩
      | .error _ => none

theorem entry_addDirected (B : Face) (O : Layer) (a b : Coord) (m : Bool) (c d : Coord)
    (hcd : c ≠ d) : (O.addDirected B a b m).1.entry c d =
      if c = a ∧ d = b then upd B c d (O.entry c d) (.added a b m) else O.entry c d := by
  unfold addDirected
  by_cases hab : a = b
  · rw [if_pos hab, if_neg]
    rintro ⟨h1, h2⟩; exact hcd (h1.trans (hab.trans h2.symm))
  · rw [if_neg hab]
    simp only [entry_ensure]
    by_cases hh : c = a ∧ d = b
    · obtain ⟨rfl, rfl⟩ := hh
      cases he : O.entry c d with
      | none =>
        simp only [upd]
        cases firstFlag B c d m with
        | ok f => simp [entry_setEntry]
        | error e => simp [entry_ensure, he]
      | some i => simp [upd, entry_setEntry]
    · rw [if_neg hh]
      cases he : O.entry a b with
      | none =>
        simp only
        cases firstFlag B a b m with
        | ok f => simp only [entry_setEntry, if_neg hh, entry_ensure]
        | error e => simp only [entry_ensure]
      | some i => simp only [entry_setEntry, if_neg hh, entry_ensure]

theorem entry_removeDirected (O : Layer) (a b c d : Coord) :
    (O.removeDirected a b).entry c d =
      if c = a ∧ d = b then some ⟨false, false⟩ else O.entry c d := by
  unfold removeDirected
  rw [entry_setEntry, entry_ensure]

theorem firstFlag_ok {B : Face} {c d : Coord} (h : Answers B c d) (m : Bool) :
    ∃ f, firstFlag B c d m = .ok f ∧ (f = true ↔ m = true ∧ Permits B c d) := by
  unfold firstFlag
  cases m with
  | false => exact ⟨false, rfl, by simp⟩
  | true =>
    rcases h with h | ⟨h, x, hx⟩
    · exact ⟨true, by simp [h], by simp [Permits, h]⟩
    · exact ⟨x, by simp [h, hx], by simp [Permits, h, hx]⟩

theorem firstFlag_error {B : Face} {c d : Coord} (h : ¬ Answers B c d) :
    ∃ e, firstFlag B c d true = .error e := by
  unfold firstFlag
  cases h1 : B.hasEdge c d with
  | error e => exact ⟨e, by simp⟩
  | ok x =>
    cases x with
    | false => exact absurd (Or.inl h1) h
    | true =>
      cases h2 : B.isCrossing c d with
      | error e => exact ⟨e, by simp⟩
      | ok y => exact absurd (Or.inr ⟨h1, y, h2⟩) h

theorem addDirected_quiet {B : Face} {O : Layer} {a b : Coord} (m : Bool)
    (h : Answers B a b ∨ m = false) : (O.addDirected B a b m).2 = none := by
  unfold addDirected
  split_ifs with hab
  · rfl
  · simp only [entry_ensure]
    cases O.entry a b with
    | some i => rfl
    | none =>
      rcases h with h | rfl
      · obtain ⟨f, hf, _⟩ := firstFlag_ok h m
        simp [hf]
      · simp [firstFlag]

/-- The entry of a pair after the changes made to it. -/
def fold (B : Face) (c d : Coord) (x : Option Info) (l : List Event) : Option Info :=
  l.foldl (upd B c d) x

theorem fold_none {B : Face} {c d : Coord} (h : Answers B c d) (l : List Event) (hl : l ≠ []) :
    ∃ i, fold B c d none l = some i ∧
      (i.present = true ↔ (l.getLast hl).isAdd = true) ∧
      (i.crossing = true ↔ (∀ e ∈ l, e.isCrossingAdd = true) ∧ Permits B c d) := by
  induction l using List.reverseRecOn with
  | nil => exact absurd rfl hl
  | append_singleton l e ih =>
    have hf : fold B c d none (l ++ [e]) = upd B c d (fold B c d none l) e := by
      simp [fold, List.foldl_append]
    rw [hf]
    rw [List.getLast_append_singleton]
    cases e with
    | removed a b =>
      exact ⟨⟨false, false⟩, rfl, by simp [Event.isAdd], by
        simp only [Bool.false_eq_true, false_iff, not_and]
        intro hx
        exact absurd (hx (.removed a b) (by simp)) (by simp [Event.isCrossingAdd])⟩
    | added a b m =>
      by_cases hl0 : l = []
      · subst hl0
        obtain ⟨f, h1, h2⟩ := firstFlag_ok h m
        refine ⟨⟨f, true⟩, by simp [upd, fold, h1], by simp [Event.isAdd], ?_⟩
        simp [h2, Event.isCrossingAdd]
      · obtain ⟨i, h1, _, h3⟩ := ih hl0
        rw [h1]
        refine ⟨⟨m && i.crossing, true⟩, rfl, by simp [Event.isAdd], ?_⟩
        simp only [Bool.and_eq_true, h3, List.mem_append, List.mem_singleton]
        constructor
        · rintro ⟨hm, ha, hp⟩
          refine ⟨?_, hp⟩
          rintro e (he | rfl)
          · exact ha e he
          · exact hm
        · rintro ⟨ha, hp⟩
          exact ⟨ha _ (Or.inr rfl), fun e he => ha e (Or.inl he), hp⟩

theorem fold_drop {B : Face} {c d : Coord} (h : ¬ Answers B c d) (l : List Event) :
    fold B c d none l = fold B c d none (l.dropWhile Event.isCrossingAdd) := by
  induction l with
  | nil => rfl
  | cons e r ih =>
    rw [List.dropWhile_cons]
    split_ifs with he
    · rw [← ih]
      cases e with
      | removed a b => simp [Event.isCrossingAdd] at he
      | added a b m =>
        simp only [Event.isCrossingAdd] at he
        subst he
        obtain ⟨x, hx⟩ := firstFlag_error h
        simp [fold, upd, hx]
    · rfl

/-- Without an answer of the base: the first change heard is no crossing addition, so that
nothing ever becomes crossing. -/
theorem fold_mute {B : Face} {c d : Coord} (l : List Event) (hl : l ≠ [])
    (h0 : (l.head hl).isCrossingAdd = false) :
    ∃ i, fold B c d none l = some i ∧
      (i.present = true ↔ (l.getLast hl).isAdd = true) ∧ i.crossing = false := by
  induction l using List.reverseRecOn with
  | nil => exact absurd rfl hl
  | append_singleton l e ih =>
    have hf : fold B c d none (l ++ [e]) = upd B c d (fold B c d none l) e := by
      simp [fold, List.foldl_append]
    rw [hf]
    rw [List.getLast_append_singleton]
    cases e with
    | removed a b => exact ⟨⟨false, false⟩, rfl, by simp [Event.isAdd], rfl⟩
    | added a b m =>
      by_cases hl0 : l = []
      · subst hl0
        simp only [List.nil_append, List.head_cons, Event.isCrossingAdd] at h0
        subst h0
        exact ⟨⟨false, true⟩, by simp [upd, fold, firstFlag], by simp [Event.isAdd], rfl⟩
      · have hh : (l.head hl0).isCrossingAdd = false := by
          rw [List.head_append_of_ne_nil hl0] at h0; exact h0
        obtain ⟨i, h1, _, h3⟩ := ih hl0 hh
        rw [h1]
        exact ⟨⟨m && i.crossing, true⟩, rfl, by simp [Event.isAdd], by simp [h3]⟩

theorem entry_step_single (B : Face) (O : Layer) (o : Op) (ho : Single o) {c d : Coord}
    (hcd : c ≠ d) :
    (O.step B o).1.entry c d = fold B c d (O.entry c d) (about c d (eventsOf o)) := by
  cases o with
  | add a b m => exact absurd ho id
  | addDir a b m =>
    simp only [step, entry_addDirected _ _ _ _ _ _ _ hcd, about, eventsOf]
    by_cases h : c = a ∧ d = b
    · obtain ⟨rfl, rfl⟩ := h
      simp [Event.on, fold]
    · have : ¬ (a = c ∧ b = d) := fun x => h ⟨x.1.symm, x.2.symm⟩
      simp [Event.on, fold, h, this]
  | remove a b =>
    simp only [step, removeEdge, entry_removeDirected, about, eventsOf, List.filter_cons,
      Event.on, List.filter_nil]
    by_cases h1 : c = a ∧ d = b
    · obtain ⟨rfl, rfl⟩ := h1
      simp [hcd, Ne.symm hcd, fold, upd]
    · have h1' : ¬ (a = c ∧ b = d) := fun x => h1 ⟨x.1.symm, x.2.symm⟩
      by_cases h2 : c = b ∧ d = a
      · obtain ⟨rfl, rfl⟩ := h2
        simp [hcd, Ne.symm hcd, fold, upd]
      · have h2' : ¬ (b = c ∧ a = d) := fun x => h2 ⟨x.1.symm, x.2.symm⟩
        simp [h1, h1', h2, h2', fold]
  | removeDir a b =>
    simp only [step, entry_removeDirected, about, eventsOf]
    by_cases h : c = a ∧ d = b
    · obtain ⟨rfl, rfl⟩ := h
      simp [Event.on, fold, upd]
    · have : ¬ (a = c ∧ b = d) := fun x => h ⟨x.1.symm, x.2.symm⟩
      simp [Event.on, fold, h, this]

theorem addEdge_fst (B : Face) (O : Layer) (a b : Coord) (m : Bool) :
    (O.addEdge B a b m).1 = match (O.addDirected B a b m).2 with
      | none => ((O.addDirected B a b m).1.addDirected B b a m).1
      | some _ => (O.addDirected B a b m).1 := by
  unfold addEdge
  rcases O.addDirected B a b m with ⟨O1, _ | e⟩ <;> rfl

theorem entry_step_answers {B : Face} (O : Layer) (o : Op) {c d : Coord} (hcd : c ≠ d)
    (h1 : Answers B c d) (h2 : Answers B d c) :
    (O.step B o).1.entry c d = fold B c d (O.entry c d) (about c d (eventsOf o)) := by
  cases o with
  | add a b m =>
    simp only [step, addEdge_fst, about, eventsOf, List.filter_cons, Event.on, List.filter_nil]
    by_cases e1 : c = a ∧ d = b
    · obtain ⟨rfl, rfl⟩ := e1
      rw [addDirected_quiet m (Or.inl h1)]
      simp only [entry_addDirected _ _ _ _ _ _ _ hcd]
      simp [hcd, Ne.symm hcd, fold]
    · have e1' : ¬ (a = c ∧ b = d) := fun x => e1 ⟨x.1.symm, x.2.symm⟩
      by_cases e2 : c = b ∧ d = a
      · obtain ⟨rfl, rfl⟩ := e2
        rw [addDirected_quiet m (Or.inl h2)]
        simp only [entry_addDirected _ _ _ _ _ _ _ hcd]
        simp [hcd, Ne.symm hcd, fold, upd]
      · have e2' : ¬ (b = c ∧ a = d) := fun x => e2 ⟨x.1.symm, x.2.symm⟩
        cases (O.addDirected B a b m).2 <;>
          simp [entry_addDirected _ _ _ _ _ _ _ hcd, e1, e1', e2, e2', fold]
  | addDir a b m => exact entry_step_single B O (.addDir a b m) trivial hcd
  | remove a b => exact entry_step_single B O (.remove a b) trivial hcd
  | removeDir a b => exact entry_step_single B O (.removeDir a b) trivial hcd

theorem about_append (c d : Coord) (l r : List Event) :
    about c d (l ++ r) = about c d l ++ about c d r := by simp [about]

theorem entry_caught {B : Face} (O : Layer) (ops : List Op) {c d : Coord} (hcd : c ≠ d)
    (h : (Answers B c d ∧ Answers B d c) ∨ ∀ o ∈ ops, Single o) :
    (O.caught B ops).entry c d = fold B c d (O.entry c d) (about c d (history ops)) := by
  induction ops generalizing O with
  | nil => rfl
  | cons o r ih =>
    have hs : (O.step B o).1.entry c d = fold B c d (O.entry c d) (about c d (eventsOf o)) := by
      rcases h with ⟨h1, h2⟩ | h
      · exact entry_step_answers O o hcd h1 h2
      · exact entry_step_single B O o (h o (by simp)) hcd
    have h' : (Answers B c d ∧ Answers B d c) ∨ ∀ o ∈ r, Single o :=
      h.imp_right fun h o ho => h o (by simp [ho])
    unfold caught
    rw [ih _ h', hs]
    simp [history, about_append, fold, List.foldl_append]

/-- Pairs not named keep their entry. -/
theorem entry_addDirected_frame (B : Face) (O : Layer) (a b : Coord) (m : Bool) (c d : Coord)
    (h : ¬ (c = a ∧ d = b)) : (O.addDirected B a b m).1.entry c d = O.entry c d := by
  unfold addDirected
  split_ifs
  · rfl
  · simp only
    split
    · split
      · simp only [entry_setEntry, if_neg h, entry_ensure]
      · simp only [entry_ensure]
    · simp only [entry_setEntry, if_neg h, entry_ensure]

theorem entry_caught_frame (B : Face) (O : Layer) (ops : List Op) (c d : Coord)
    (h : about c d (history ops) = []) : (O.caught B ops).entry c d = O.entry c d := by
  induction ops generalizing O with
  | nil => rfl
  | cons o r ih =>
    have hsplit : about c d (eventsOf o) = [] ∧ about c d (history r) = [] := by
      have : history (o :: r) = eventsOf o ++ history r := rfl
      rw [this, about_append] at h
      exact List.append_eq_nil_iff.1 h
    unfold caught
    rw [ih _ hsplit.2]
    have hs := hsplit.1
    simp only [about, List.filter_eq_nil_iff] at hs
    cases o with
    | add a b m =>
      have h1 : ¬ (c = a ∧ d = b) := fun x => hs (.added a b m) (by simp [eventsOf])
        (by simp [Event.on, x])
      have h2 : ¬ (c = b ∧ d = a) := fun x => hs (.added b a m) (by simp [eventsOf])
        (by simp [Event.on, x])
      simp only [step, addEdge_fst]
      split
      · rw [entry_addDirected_frame _ _ _ _ _ _ _ h2, entry_addDirected_frame _ _ _ _ _ _ _ h1]
      · rw [entry_addDirected_frame _ _ _ _ _ _ _ h1]
    | addDir a b m =>
      have h1 : ¬ (c = a ∧ d = b) := fun x => hs (.added a b m) (by simp [eventsOf])
        (by simp [Event.on, x])
      exact entry_addDirected_frame _ _ _ _ _ _ _ h1
    | remove a b =>
      have h1 : ¬ (c = a ∧ d = b) := fun x => hs (.removed a b) (by simp [eventsOf])
        (by simp [Event.on, x])
      have h2 : ¬ (c = b ∧ d = a) := fun x => hs (.removed b a) (by simp [eventsOf])
        (by simp [Event.on, x])
      simp only [step, removeEdge, entry_removeDirected, if_neg h1, if_neg h2]
    | removeDir a b =>
      have h1 : ¬ (c = a ∧ d = b) := fun x => hs (.removed a b) (by simp [eventsOf])
        (by simp [Event.on, x])
      simp only [step, entry_removeDirected, if_neg h1]

/-- The entry of a pair after any operations, from the changes heard. -/
theorem entry_heard {B : Face} (ops : List Op) {c d : Coord} (hcd : c ≠ d)
    (h : (Answers B c d ∧ Answers B d c) ∨ ∀ o ∈ ops, Single o) :
    (heard B c d (history ops) = [] ∧ (caught B [] ops).entry c d = none) ∨
    ∃ hl : heard B c d (history ops) ≠ [], ∃ i, (caught B [] ops).entry c d = some i ∧
      (i.present = true ↔ ((heard B c d (history ops)).getLast hl).isAdd = true) ∧
      (i.crossing = true ↔
        (∀ e ∈ heard B c d (history ops), e.isCrossingAdd = true) ∧ Permits B c d) := by
  rw [entry_caught [] ops hcd h]
  have h0 : entry [] c d = none := rfl
  rw [h0]
  by_cases hA : Answers B c d
  · have hh : heard B c d (history ops) = about c d (history ops) := by simp [heard, hA]
    rw [hh]
    by_cases hl : about c d (history ops) = []
    · exact Or.inl ⟨hl, by rw [hl]; rfl⟩
    · exact Or.inr ⟨hl, fold_none hA _ hl⟩
  · have hh : heard B c d (history ops) =
        (about c d (history ops)).dropWhile Event.isCrossingAdd := by simp [heard, hA]
    rw [hh, fold_drop hA]
    by_cases hl : (about c d (history ops)).dropWhile Event.isCrossingAdd = []
    · exact Or.inl ⟨hl, by rw [hl]; rfl⟩
    · refine Or.inr ⟨hl, ?_⟩
      have hhead : (((about c d (history ops)).dropWhile Event.isCrossingAdd).head hl).isCrossingAdd
          = false := by
        have := List.head_dropWhile_not Event.isCrossingAdd hl
        simpa using this
      obtain ⟨i, h1, h2, h3⟩ := fold_mute (B := B) (c := c) (d := d) _ hl hhead
      refine ⟨i, h1, h2, ?_⟩
      rw [h3]
      simp only [Bool.false_eq_true, false_iff, not_and]
      intro hx
      have := hx _ (List.head_mem hl)
      rw [hhead] at this
      simp at this

/-! ### Vertices -/

/-- Inner and outer maps have different keys. -/
def Keys (O : Layer) : Prop :=
  (O.map Prod.fst).Nodup ∧ ∀ a l, Assoc.get O a = some l → (l.map Prod.fst).Nodup

theorem ensure_keys {O : Layer} (h : O.Keys) (a : Coord) : (O.ensure a).Keys := by
  unfold ensure
  split
  · exact h
  · refine ⟨Assoc.keys_set _ _ _ h.1, fun c l hl => ?_⟩
    simp only [Assoc.get_set] at hl
    split_ifs at hl
    · obtain rfl := Option.some.inj hl; simp
    · exact h.2 c l hl

theorem setEntry_keys {O : Layer} (h : O.Keys) (a b : Coord) (i : Info) :
    (O.setEntry a b i).Keys := by
  refine ⟨Assoc.keys_set _ _ _ h.1, fun c l hl => ?_⟩
  simp only [setEntry, Assoc.get_set] at hl
  split_ifs at hl
  · obtain rfl := Option.some.inj hl
    apply Assoc.keys_set
    cases hg : Assoc.get O a with
    | none => simp
    | some l => exact h.2 a l hg
  · exact h.2 c l hl

theorem addDirected_keys {O : Layer} (h : O.Keys) (B : Face) (a b : Coord) (m : Bool) :
    (O.addDirected B a b m).1.Keys := by
  unfold addDirected
  split_ifs
  · exact h
  · simp only
    split
    · split
      · exact setEntry_keys (ensure_keys h a) _ _ _
      · exact ensure_keys h a
    · exact setEntry_keys (ensure_keys h a) _ _ _

theorem step_keys {O : Layer} (h : O.Keys) (B : Face) (o : Op) : (O.step B o).1.Keys := by
  cases o with
  | add a b m =>
    simp only [step, addEdge_fst]
    cases (O.addDirected B a b m).2 with
    | none => exact addDirected_keys (addDirected_keys h B a b m) B b a m
    | some e => exact addDirected_keys h B a b m
  | addDir a b m => exact addDirected_keys h B a b m
  | remove a b =>
    exact setEntry_keys (ensure_keys (setEntry_keys (ensure_keys h _) _ _ _) _) _ _ _
  | removeDir a b => exact setEntry_keys (ensure_keys h _) _ _ _

theorem caught_keys {O : Layer} (h : O.Keys) (B : Face) (ops : List Op) :
    (O.caught B ops).Keys := by
  induction ops generalizing O with
  | nil => exact h
  | cons o r ih => exact ih (step_keys h B o)

theorem keys_nil : Keys [] := ⟨by simp, fun a l h => by simp [Assoc.get] at h⟩

theorem ensure_known (O : Layer) (a v : Coord) :
    (Assoc.get (O.ensure a) v).isSome = (decide (v = a) || (Assoc.get O v).isSome) := by
  unfold ensure
  split
  · rename_i x hx
    by_cases h : v = a
    · subst h; simp [hx]
    · simp [h]
  · rw [Assoc.get_set]
    by_cases h : v = a
    · subst h; simp
    · simp [h, Ne.symm h]

theorem setEntry_known (O : Layer) (a b : Coord) (i : Info) (v : Coord) :
    (Assoc.get (O.setEntry a b i) v).isSome = (decide (v = a) || (Assoc.get O v).isSome) := by
  unfold setEntry
  rw [Assoc.get_set]
  by_cases h : v = a
  · subst h; simp
  · simp [h, Ne.symm h]

theorem addDirected_known (B : Face) (O : Layer) (a b : Coord) (m : Bool) (v : Coord) :
    (Assoc.get (O.addDirected B a b m).1 v).isSome =
      (decide (v = a ∧ a ≠ b) || (Assoc.get O v).isSome) := by
  unfold addDirected
  split_ifs with hab
  · simp [hab]
  · have hx : (decide (v = a ∧ a ≠ b) || (Assoc.get O v).isSome) =
        (decide (v = a) || (Assoc.get O v).isSome) := by simp [hab]
    rw [hx]
    simp only
    split
    · split
      · simp only [setEntry_known, ensure_known]; cases decide (v = a) <;> simp
      · simp only [ensure_known]
    · simp only [setEntry_known, ensure_known]; cases decide (v = a) <;> simp

/-- Seen through the interface an overlay is coherent if its base is. -/
theorem coherent {B : Face} (hB : Coherent B) (ord : List (Coord × Info) → List (Coord × Info))
    (hord : ∀ l, (ord l).Perm l) {O : Layer} (hk : O.Keys) : Coherent (face B ord O) := by
  refine ⟨fun v _ => ?_, fun v w h => ?_, fun v => ?_⟩
  · have hbase : ∃ ns, (if B.hasVertex v then B.neighbors v else (.ok [] : Res _)) = .ok ns ∧
        ∀ w, w ∈ ns ↔ B.hasEdge v w = .ok true := by
      by_cases hv : B.hasVertex v = true
      · rw [if_pos hv]; exact hB.neighbors v hv
      · rw [if_neg hv]
        refine ⟨[], rfl, fun w => ?_⟩
        simp only [List.not_mem_nil, false_iff]
        exact fun h => hv (hB.edges v w h)
    obtain ⟨ns, h1, h2⟩ := hbase
    simp only [face, neighbors, hasEdge, h1, Res.bind_ok]
    cases hg : Assoc.get O v with
    | none =>
      refine ⟨ns, rfl, fun w => ?_⟩
      have : O.entry v w = none := by unfold entry; rw [hg]; rfl
      rw [this]; exact h2 w
    | some l =>
      refine ⟨Modified.overlayLoop ns (ord l), rfl, fun w => ?_⟩
      have hkl := hk.2 v l hg
      have hko : ((ord l).map Prod.fst).Nodup := ((hord l).map _).nodup_iff.2 hkl
      rw [Modified.overlayLoop_mem _ _ hko, Modified.get_perm (hord l) hkl]
      have he : O.entry v w = Assoc.get l w := by unfold entry; rw [hg]; rfl
      rw [he]
      cases Assoc.get l w with
      | none => exact h2 w
      | some i => simp
  · simp only [face, hasEdge, hasVertex] at h ⊢
    cases hg : Assoc.get O v with
    | some l => simp
    | none =>
      have : O.entry v w = none := by unfold entry; rw [hg]; rfl
      rw [this] at h
      simp [hB.edges v w h]
  · simp only [face, vertices, hasVertex, List.mem_append, hB.vertices, Bool.or_eq_true]
    have : v ∈ O.map Prod.fst ↔ (Assoc.get O v).isSome = true := by
      have := Assoc.get_eq_none O v
      cases hg : Assoc.get O v with
      | none => simp [this.1 hg]
      | some l =>
        simp only [Option.isSome_some, iff_true]
        by_contra hn
        rw [this.2 hn] at hg; simp at hg
    rw [this]

/-- A graph of a user is coherent. -/
theorem graph_coherent {g : Graph} (rg : g.Regular) : Coherent g.face := by
  have hs := rg.built.shape
  refine ⟨fun v hv => ?_, fun v w h => ?_, fun v => ?_⟩
  · have hv' : v ∈ g.verts := (hs.dom v).1 hv
    obtain ⟨j, ns, _, _, hn, _⟩ := Graph.neighbors_ok hs hv'
    refine ⟨ns, hn, fun w => ?_⟩
    simp only [Graph.face]
    rw [(Graph.neighbors_mem hs rg.clean hv' hn).2 w, Graph.hasEdge_eq hs, rg.sym w v]
    by_cases hvw : v = w
    · subst hvw; simp
    · have : w ≠ v := fun h => hvw h.symm
      by_cases hw : w ∈ g.verts
      · simp [hvw, this, hw, hv']
      · simp [hvw, hw]
  · simp only [Graph.face] at h ⊢
    rw [Graph.hasEdge_eq hs] at h
    split_ifs at h with h1 h2
    all_goals first | exact (hs.dom v).2 h2.1 | simp at h
  · exact (hs.dom v).symm

/-- What an overlay lists, with multiplicity. -/
theorem overlayLoop_count (w : Coord) (ns : List Coord) (l : List (Coord × Info))
    (hk : (l.map Prod.fst).Nodup) : (Modified.overlayLoop ns l).count w =
      match Assoc.get l w with
      | none => ns.count w
      | some i => if i.present then ns.count w + 1 else 0 := by
  induction l generalizing ns with
  | nil => simp [Modified.overlayLoop, Assoc.get]
  | cons p r ih =>
    rw [List.map_cons, List.nodup_cons] at hk
    unfold Modified.overlayLoop
    by_cases hp : p.1 = w
    · have hnone : Assoc.get r w = none := (Assoc.get_eq_none r w).2 (hp ▸ hk.1)
      split_ifs with hpr
      · rw [ih _ hk.2, hnone]; simp [Assoc.get, hp, hpr]
      · rw [ih _ hk.2, hnone]
        simp only [Assoc.get, hp, if_true, hpr]
        rw [if_neg Bool.false_ne_true, List.count_eq_zero]
        simp
    · have hp' : w ≠ p.1 := fun h => hp h.symm
      split_ifs with hpr
      · rw [ih _ hk.2]; simp only [Assoc.get, hp, if_false]
        have : (ns ++ [p.1]).count w = ns.count w := by
          rw [List.count_append, List.count_eq_zero (l := [p.1]).2 (by simpa using hp'), add_zero]
        rw [this]
      · rw [ih _ hk.2]; simp only [Assoc.get, hp, if_false]
        have : (ns.filter fun c => decide (c ≠ p.1)).count w = ns.count w := by
          rw [List.count_filter]; simpa using hp'
        rw [this]

end Layer

end Capi
