import Verif.Model.ModifiedGraph
import Verif.Lemmas.Graph

/-!
# Helper lemmas about overlay graphs
-/

namespace Capi

namespace Modified

open Graph (Op)

theorem entry_ensure (M : Modified) (a c d : Coord) : (M.ensure a).entry c d = M.entry c d := by
  unfold ensure
  split
  · rfl
  · rename_i h
    unfold entry
    simp only [Assoc.get_set]
    split_ifs with hac
    · subst hac; simp [h, Assoc.get]
    · rfl

theorem ensure_base (M : Modified) (a : Coord) : (M.ensure a).base = M.base := by
  unfold ensure; split <;> rfl

theorem entry_setEntry (M : Modified) (a b : Coord) (i : Info) (c d : Coord) :
    (M.setEntry a b i).entry c d = if c = a ∧ d = b then some i else M.entry c d := by
  unfold setEntry entry
  simp only [Assoc.get_set]
  by_cases hac : a = c
  · subst hac
    simp only [if_true, Option.bind_some, Assoc.get_set, true_and]
    by_cases hbd : b = d
    · simp [hbd]
    · have : d ≠ b := fun h => hbd h.symm
      simp only [hbd, this, if_false]
      cases Assoc.get M.nbrs a <;> simp [Assoc.get]
  · have : c ≠ a := fun h => hac h.symm
    simp [hac, this]

/-- The inner and outer maps have different keys. -/
def Keys (M : Modified) : Prop :=
  ∀ a l, Assoc.get M.nbrs a = some l → (l.map Prod.fst).Nodup

theorem ensure_keys {M : Modified} (h : M.Keys) (a : Coord) : (M.ensure a).Keys := by
  unfold ensure
  split
  · exact h
  · intro c l hl
    simp only [Assoc.get_set] at hl
    split_ifs at hl
    · obtain rfl := Option.some.inj hl; simp
    · exact h c l hl

theorem setEntry_keys {M : Modified} (h : M.Keys) (a b : Coord) (i : Info) :
    (M.setEntry a b i).Keys := by
  intro c l hl
  simp only [setEntry, Assoc.get_set] at hl
  split_ifs at hl
  · obtain rfl := Option.some.inj hl
    apply Assoc.keys_set
    cases hg : Assoc.get M.nbrs a with
    | none => simp
    | some l => exact h a l hg
  · exact h c l hl

/-- What an addition does to the entries. -/
theorem addDirected_inv {M M' : Modified} {a b : Coord} {m : Bool}
    (h : M.addDirected a b m = .ok M') :
    M'.base = M.base ∧ (M.Keys → M'.Keys) ∧
    ((a = b ∧ M' = M) ∨ (a ≠ b ∧ ∃ f, (match M.entry a b with
        | none => M.firstFlag a b m = .ok f
        | some i => f = (m && i.crossing)) ∧
      ∀ c d, M'.entry c d = if c = a ∧ d = b then some ⟨f, true⟩ else M.entry c d)) := by
  unfold addDirected at h
  split_ifs at h with hab
  · obtain rfl := Except.ok.inj h
    exact ⟨rfl, id, Or.inl ⟨hab, rfl⟩⟩
  · simp only [entry_ensure] at h
    cases he : M.entry a b with
    | none =>
      rw [he] at h
      simp only at h
      have hff : (M.ensure a).firstFlag a b m = M.firstFlag a b m := by
        unfold firstFlag; rw [ensure_base]
      rw [hff] at h
      cases hf : M.firstFlag a b m with
      | error e => rw [hf] at h; simp at h
      | ok f =>
        rw [hf] at h
        simp only [Res.bind_ok, Res.pure_eq, Except.ok.injEq] at h
        subst h
        refine ⟨ensure_base M a, fun hk => setEntry_keys (ensure_keys hk a) _ _ _,
          Or.inr ⟨hab, f, rfl, fun c d => ?_⟩⟩
        rw [entry_setEntry, entry_ensure]
    | some i =>
      rw [he] at h
      simp only [Except.ok.injEq] at h
      subst h
      refine ⟨ensure_base M a, fun hk => setEntry_keys (ensure_keys hk a) _ _ _,
        Or.inr ⟨hab, _, rfl, fun c d => ?_⟩⟩
      rw [entry_setEntry, entry_ensure]

theorem removeDirected_inv (M : Modified) (a b : Coord) :
    (M.removeDirected a b).base = M.base ∧ (M.Keys → (M.removeDirected a b).Keys) ∧
    ∀ c d, (M.removeDirected a b).entry c d =
      if c = a ∧ d = b then some ⟨false, false⟩ else M.entry c d := by
  refine ⟨ensure_base M a, fun hk => setEntry_keys (ensure_keys hk a) _ _ _, fun c d => ?_⟩
  unfold removeDirected
  rw [entry_setEntry, entry_ensure]

/-- A single change of the overlay. -/
def event (M : Modified) : Event → Res Modified
  | .added a b m => M.addDirected a b m
  | .removed a b => .ok (M.removeDirected a b)

/-- Changes in sequence. -/
def events (M : Modified) : List Event → Res Modified
  | [] => .ok M
  | e :: r => do
    let M1 ← M.event e
    M1.events r

theorem events_append (M : Modified) (l r : List Event) :
    M.events (l ++ r) = (M.events l >>= fun M1 => M1.events r) := by
  induction l generalizing M with
  | nil => rfl
  | cons e l ih =>
    simp only [List.cons_append, events]
    cases M.event e with
    | error e => rfl
    | ok M1 => exact ih M1

theorem step_events (M : Modified) (o : Op) : M.step o = M.events (eventsOf o) := by
  cases o with
  | add a b m =>
    simp only [step, addEdge, eventsOf, events, event]
    cases M.addDirected a b m with
    | error e => rfl
    | ok M1 =>
      simp only [Res.bind_ok]
      cases M1.addDirected b a m <;> rfl
  | addDir a b m =>
    simp only [step, eventsOf, events, event]
    cases M.addDirected a b m <;> rfl
  | remove a b => rfl
  | removeDir a b => rfl

theorem run_events (M : Modified) (ops : List Op) : M.run ops = M.events (history ops) := by
  induction ops generalizing M with
  | nil => rfl
  | cons o r ih =>
    simp only [run, history, List.flatMap_cons]
    rw [step_events, events_append]
    cases M.events (eventsOf o) with
    | error e => rfl
    | ok M1 => exact ih M1

/-- The same for ordinary graphs. -/
def _root_.Capi.Graph.event (g : Graph) : Event → Res Graph
  | .added a b m => g.addDirected a b m
  | .removed a b => g.removeDirected a b

/-- The same for ordinary graphs. -/
def _root_.Capi.Graph.events (g : Graph) : List Event → Res Graph
  | [] => .ok g
  | e :: r => do
    let g1 ← g.event e
    g1.events r

theorem _root_.Capi.Graph.events_append (g : Graph) (l r : List Event) :
    g.events (l ++ r) = (g.events l >>= fun g1 => g1.events r) := by
  induction l generalizing g with
  | nil => rfl
  | cons e l ih =>
    simp only [List.cons_append, Graph.events]
    cases g.event e with
    | error e => rfl
    | ok g1 => exact ih g1

theorem _root_.Capi.Graph.step_events (g : Graph) (o : Op) : g.step o = g.events (eventsOf o) := by
  cases o with
  | add a b m =>
    simp only [Graph.step, Graph.addEdge, eventsOf, Graph.events, Graph.event]
    cases g.addDirected a b m with
    | error e => rfl
    | ok g1 =>
      simp only [Res.bind_ok]
      cases g1.addDirected b a m <;> rfl
  | addDir a b m =>
    simp only [Graph.step, eventsOf, Graph.events, Graph.event]
    cases g.addDirected a b m <;> rfl
  | remove a b =>
    simp only [Graph.step, Graph.removeEdge, eventsOf, Graph.events, Graph.event]
    cases g.removeDirected a b with
    | error e => rfl
    | ok g1 =>
      simp only [Res.bind_ok]
      cases g1.removeDirected b a <;> rfl
  | removeDir a b =>
    simp only [Graph.step, eventsOf, Graph.events, Graph.event]
    cases g.removeDirected a b <;> rfl

theorem _root_.Capi.Graph.run_events (g : Graph) (ops : List Op) :
    g.run ops = g.events (history ops) := by
  induction ops generalizing g with
  | nil => rfl
  | cons o r ih =>
    simp only [Graph.run, history, List.flatMap_cons]
    rw [Graph.step_events, Graph.events_append]
    cases g.events (eventsOf o) with
    | error e => rfl
    | ok g1 => exact ih g1

/-- The pair an event concerns. -/
def _root_.Capi.Event.pair : Event → Coord × Coord
  | .added a b _ | .removed a b => (a, b)

theorem event_frame {M M' : Modified} {e : Event} (h : M.event e = .ok M') (c d : Coord)
    (hne : e.pair ≠ (c, d)) : M'.base = M.base ∧ M'.entry c d = M.entry c d := by
  cases e with
  | added a b m =>
    obtain ⟨hb, _, h1 | ⟨_, f, _, h2⟩⟩ := addDirected_inv h
    · exact ⟨hb, by rw [h1.2]⟩
    · refine ⟨hb, ?_⟩
      rw [h2, if_neg]
      rintro ⟨rfl, rfl⟩; exact hne rfl
  | removed a b =>
    simp only [event, Except.ok.injEq] at h
    subst h
    obtain ⟨hb, _, h2⟩ := removeDirected_inv M a b
    refine ⟨hb, ?_⟩
    rw [h2, if_neg]
    rintro ⟨rfl, rfl⟩; exact hne rfl

theorem events_frame {M M' : Modified} {l : List Event} (h : M.events l = .ok M') (c d : Coord)
    (hne : ∀ e ∈ l, e.pair ≠ (c, d)) : M'.base = M.base ∧ M'.entry c d = M.entry c d := by
  induction l generalizing M with
  | nil => simp only [events, Except.ok.injEq] at h; subst h; exact ⟨rfl, rfl⟩
  | cons e r ih =>
    simp only [events] at h
    cases h1 : M.event e with
    | error x => rw [h1] at h; simp at h
    | ok M1 =>
      rw [h1, Res.bind_ok] at h
      obtain ⟨a1, a2⟩ := event_frame h1 c d (hne e (by simp))
      obtain ⟨b1, b2⟩ := ih h fun x hx => hne x (by simp [hx])
      exact ⟨b1.trans a1, b2.trans a2⟩

theorem event_base {M M' : Modified} {e : Event} (h : M.event e = .ok M') :
    M'.base = M.base ∧ (M.Keys → M'.Keys) := by
  cases e with
  | added a b m =>
    obtain ⟨hb, hk, _⟩ := addDirected_inv h
    exact ⟨hb, hk⟩
  | removed a b =>
    simp only [event, Except.ok.injEq] at h
    subst h
    obtain ⟨hb, hk, _⟩ := removeDirected_inv M a b
    exact ⟨hb, hk⟩

theorem events_base {M M' : Modified} {l : List Event} (h : M.events l = .ok M') :
    M'.base = M.base ∧ (M.Keys → M'.Keys) := by
  induction l generalizing M with
  | nil => simp only [events, Except.ok.injEq] at h; subst h; exact ⟨rfl, id⟩
  | cons e r ih =>
    simp only [events] at h
    cases h1 : M.event e with
    | error x => rw [h1] at h; simp at h
    | ok M1 =>
      rw [h1, Res.bind_ok] at h
      obtain ⟨a1, a2⟩ := event_base h1
      obtain ⟨b1, b2⟩ := ih h
      exact ⟨b1.trans a1, b2 ∘ a2⟩

/-! ### Refinement -/

/-- The bytes used. -/
def Small (x : BitVec 8) : Prop := x = 0 ∨ x = 1 ∨ x = 2 ∨ x = 3

theorem small_or {x : BitVec 8} (h : Small x) (m : Bool) :
    Small (x ||| Graph.bit m) ∧ x ||| Graph.bit m ≠ 0 ∧
      (x ||| Graph.bit m = 2 ↔ m = true ∧ (x = 0 ∨ x = 2)) := by
  rcases h with rfl | rfl | rfl | rfl <;> cases m <;> unfold Small <;> decide

/-- The overlay `M` over `g` and the updated graph `G`, after the history `h`. -/
structure Refines (g G : Graph) (M : Modified) (h : List Event) : Prop where
  base : M.base = g
  keys : M.Keys
  shape : G.Shape
  verts : G.verts = g.verts
  small : ∀ a b, Small (G.bits a b)
  pair : ∀ a ∈ g.verts, ∀ b ∈ g.verts, match M.entry a b with
    | none => G.bits a b = g.bits a b
    | some i => (a ≠ b → (i.present = true ↔ G.bits a b ≠ 0)) ∧
        (a = b → i.present = false ∧ i.crossing = false) ∧
        (i.crossing = true → G.bits a b = 2) ∧
        (Event.removed a b ∉ h → a ≠ b ∧ i.present = true ∧ (i.crossing = true ↔ G.bits a b = 2))

theorem refines_start {g : Graph} (hg : g.Shape) (hs : ∀ a b, Small (g.bits a b)) :
    Refines g g (ofGraph g) [] :=
  ⟨rfl, fun a l h => by simp [ofGraph, Assoc.get] at h, hg, rfl, hs,
    fun a _ b _ => by simp [ofGraph, entry, Assoc.get]⟩

theorem refines_event {g G : Graph} {M : Modified} {h : List Event} (hg : g.Shape)
    (hr : Refines g G M h) (e : Event) (h1 : e.pair.1 ∈ g.verts) (h2 : e.pair.2 ∈ g.verts) :
    ∃ M' G', M.event e = .ok M' ∧ G.event e = .ok G' ∧ Refines g G' M' (h ++ [e]) := by
  cases e with
  | added a b m =>
    simp only [Event.pair] at h1 h2
    have h1' := hr.verts.symm ▸ h1
    have h2' := hr.verts.symm ▸ h2
    obtain ⟨G', e1, f1, b1⟩ := Graph.addDirected_ok hr.shape h1' h2' m
    by_cases hab : a = b
    · subst hab
      have hM : M.addDirected a a m = .ok M := by simp [addDirected]
      rw [Graph.addDirected_self] at e1
      obtain rfl := Except.ok.inj e1
      refine ⟨M, G, hM, Graph.addDirected_self, hr.base, hr.keys, hr.shape, hr.verts, hr.small,
        fun c hc d hd => ?_⟩
      have := hr.pair c hc d hd
      cases he : M.entry c d with
      | none => rw [he] at this; exact this
      | some i =>
        rw [he] at this
        refine ⟨this.1, this.2.1, this.2.2.1, fun hn => this.2.2.2 fun hx => hn ?_⟩
        simp [hx]
    · -- the overlay accepts the addition
      have hfirst : ∀ m, M.firstFlag a b m = .ok (m && (g.bits a b == 0 || g.bits a b == 2)) := by
        intro m
        unfold firstFlag
        rw [hr.base, Graph.hasEdge_ok hg h1 h2, Graph.isCrossing_ok hg h1 h2]
        have hab' : (a != b) = true := by simpa using hab
        cases m
        · rfl
        · simp only [if_true, Res.bind_ok, hab', Bool.true_and]
          by_cases hz : g.bits a b = 0
          · rw [hz]; rfl
          · rw [show (g.bits a b != 0) = true from bne_iff_ne.2 hz,
              show (g.bits a b == 0) = false from beq_eq_false_iff_ne.2 hz]
            rfl
      have hok : ∃ M', M.addDirected a b m = .ok M' := by
        unfold addDirected
        rw [if_neg hab]
        simp only [entry_ensure]
        cases M.entry a b with
        | none =>
          have : (M.ensure a).firstFlag a b m = M.firstFlag a b m := by
            unfold firstFlag; rw [ensure_base]
          simp only [this, hfirst]
          exact ⟨_, rfl⟩
        | some i => exact ⟨_, rfl⟩
      obtain ⟨M', hM'⟩ := hok
      obtain ⟨c1, c2, ⟨hc, _⟩ | ⟨_, f, c3, c4⟩⟩ := addDirected_inv hM'
      · exact absurd hc hab
      refine ⟨M', G', hM', e1, c1.trans hr.base, c2 hr.keys, f1.shape hr.shape,
        f1.verts.trans hr.verts, ?_, ?_⟩
      · intro c d
        rw [b1]
        split_ifs
        · exact (small_or (hr.small a b) m).1
        · exact hr.small c d
      · intro c hc d hd
        rw [c4, b1]
        by_cases hcd : c = a ∧ d = b
        · obtain ⟨rfl, rfl⟩ := hcd
          rw [if_pos ⟨rfl, rfl⟩, if_pos ⟨rfl, rfl, hab⟩]
          obtain ⟨s1, s2, s3⟩ := small_or (hr.small c d) m
          have hp := hr.pair c hc d hd
          refine ⟨fun _ => ⟨fun _ => s2, fun _ => rfl⟩, fun h => absurd h hab, ?_, fun hn => ⟨hab, rfl, ?_⟩⟩
          · intro hf
            rw [s3]
            simp only at hf
            cases he : M.entry c d with
            | none =>
              rw [he] at hp c3
              simp only [hfirst, Except.ok.injEq] at c3
              rw [← c3] at hf
              simpa [hp] using hf
            | some i =>
              rw [he] at hp c3
              simp only at c3
              rw [c3, Bool.and_eq_true] at hf
              exact ⟨hf.1, Or.inr (hp.2.2.1 hf.2)⟩
          · simp only
            rw [s3]
            have hn' : Event.removed c d ∉ h := fun hx => hn (by simp [hx])
            cases he : M.entry c d with
            | none =>
              rw [he] at hp c3
              simp only [hfirst, Except.ok.injEq] at c3
              rw [← c3]
              simp [hp]
            | some i =>
              rw [he] at hp c3
              simp only at c3
              obtain ⟨_, h4, h5⟩ := hp.2.2.2 hn'
              have h6 := (hp.1 hab).1 h4
              rw [c3, Bool.and_eq_true, h5]
              exact and_congr_right fun _ => ⟨Or.inr, fun h => h.resolve_left h6⟩
        · rw [if_neg hcd, if_neg fun h => hcd ⟨h.1, h.2.1⟩]
          have := hr.pair c hc d hd
          cases he : M.entry c d with
          | none => rw [he] at this; exact this
          | some i =>
            rw [he] at this
            refine ⟨this.1, this.2.1, this.2.2.1, fun hn => this.2.2.2 fun hx => hn ?_⟩
            simp [hx]
  | removed a b =>
    simp only [Event.pair] at h1 h2
    have h1' := hr.verts.symm ▸ h1
    have h2' := hr.verts.symm ▸ h2
    obtain ⟨G', e1, f1, b1⟩ := Graph.removeDirected_ok hr.shape h1' h2'
    obtain ⟨c1, c2, c4⟩ := removeDirected_inv M a b
    refine ⟨_, G', rfl, e1, c1.trans hr.base, c2 hr.keys, f1.shape hr.shape,
      f1.verts.trans hr.verts, ?_, ?_⟩
    · intro c d
      rw [b1]
      split_ifs
      · exact Or.inl rfl
      · exact hr.small c d
    · intro c hc d hd
      rw [c4, b1]
      by_cases hcd : c = a ∧ d = b
      · obtain ⟨rfl, rfl⟩ := hcd
        rw [if_pos ⟨rfl, rfl⟩]
        by_cases hab : c = d
        · exact ⟨fun h => absurd hab h, fun _ => ⟨rfl, rfl⟩, by simp, fun hn => by simp at hn⟩
        · rw [if_pos ⟨rfl, rfl, hab⟩]
          exact ⟨fun _ => by simp, fun h => absurd h hab, by simp, fun hn => by simp at hn⟩
      · rw [if_neg hcd, if_neg fun h => hcd ⟨h.1, h.2.1⟩]
        have := hr.pair c hc d hd
        cases he : M.entry c d with
        | none => rw [he] at this; exact this
        | some i =>
          rw [he] at this
          refine ⟨this.1, this.2.1, this.2.2.1, fun hn => this.2.2.2 fun hx => hn ?_⟩
          simp [hx]

theorem refines_events {g G : Graph} {M : Modified} {h : List Event} (hg : g.Shape)
    (hr : Refines g G M h) (l : List Event)
    (hl : ∀ e ∈ l, e.pair.1 ∈ g.verts ∧ e.pair.2 ∈ g.verts) :
    ∃ M' G', M.events l = .ok M' ∧ G.events l = .ok G' ∧ Refines g G' M' (h ++ l) := by
  induction l generalizing M G h with
  | nil => exact ⟨M, G, rfl, rfl, by simpa using hr⟩
  | cons e r ih =>
    obtain ⟨h1, h2⟩ := hl e (by simp)
    obtain ⟨M1, G1, e1, e2, r1⟩ := refines_event hg hr e h1 h2
    obtain ⟨M2, G2, e3, e4, r2⟩ := ih r1 fun x hx => hl x (by simp [hx])
    refine ⟨M2, G2, by simp [events, e1, e3], by simp [Graph.events, e2, e4], ?_⟩
    simpa using r2

theorem history_known {vs : List Coord} {ops : List Op} (h : OpsOn vs ops) :
    ∀ e ∈ history ops, e.pair.1 ∈ vs ∧ e.pair.2 ∈ vs := by
  intro e he
  obtain ⟨o, ho, heo⟩ := List.mem_flatMap.1 he
  have hc := h o ho
  cases o with
  | add a b m =>
    simp only [eventsOf, List.mem_cons, List.not_mem_nil, or_false] at heo
    rcases heo with rfl | rfl <;> simp only [Event.pair] <;>
      constructor <;> apply hc <;> simp [opCoords]
  | addDir a b m =>
    simp only [eventsOf, List.mem_cons, List.not_mem_nil, or_false] at heo
    subst heo; simp only [Event.pair]; constructor <;> apply hc <;> simp [opCoords]
  | remove a b =>
    simp only [eventsOf, List.mem_cons, List.not_mem_nil, or_false] at heo
    rcases heo with rfl | rfl <;> simp only [Event.pair] <;>
      constructor <;> apply hc <;> simp [opCoords]
  | removeDir a b =>
    simp only [eventsOf, List.mem_cons, List.not_mem_nil, or_false] at heo
    subst heo; simp only [Event.pair]; constructor <;> apply hc <;> simp [opCoords]

/-! ### Neighbours -/

theorem overlayLoop_mem (l : List (Coord × Info)) (ns : List Coord)
    (hk : (l.map Prod.fst).Nodup) (w : Coord) :
    w ∈ overlayLoop ns l ↔ match Assoc.get l w with
      | none => w ∈ ns
      | some i => i.present = true := by
  induction l generalizing ns with
  | nil => simp [overlayLoop, Assoc.get]
  | cons p r ih =>
    rw [List.map_cons, List.nodup_cons] at hk
    unfold overlayLoop
    by_cases hp : p.1 = w
    · have hnone : Assoc.get r w = none := (Assoc.get_eq_none r w).2 (hp ▸ hk.1)
      split_ifs with hpr
      · rw [ih _ hk.2, hnone]; simp [Assoc.get, hp, hpr]
      · rw [ih _ hk.2, hnone]; simp [Assoc.get, hp, hpr]
    · have hp' : w ≠ p.1 := fun h => hp h.symm
      split_ifs with hpr
      · rw [ih _ hk.2]; simp only [Assoc.get, hp, if_false]
        cases Assoc.get r w <;> simp [hp']
      · rw [ih _ hk.2]; simp only [Assoc.get, hp, if_false]
        cases Assoc.get r w <;> simp [hp']

theorem get_perm {K V : Type} [DecidableEq K] {l m : List (K × V)} (hp : l.Perm m)
    (hk : (m.map Prod.fst).Nodup) (k : K) : Assoc.get l k = Assoc.get m k := by
  have hl : (l.map Prod.fst).Nodup := (hp.map _).nodup_iff.2 hk
  cases h : Assoc.get l k with
  | none =>
    rw [Assoc.get_eq_none] at h
    symm
    rw [Assoc.get_eq_none]
    exact fun hm => h ((hp.map _).mem_iff.2 hm)
  | some v =>
    rw [Assoc.get_eq_some _ _ _ hl] at h
    symm
    rw [Assoc.get_eq_some _ _ _ hk]
    exact hp.mem_iff.1 h

/-- The neighbours listed by an overlay are the vertices it has an edge to. -/
theorem neighbors_hasEdge {g : Graph} (rg : g.Regular) {M : Modified} (hb : M.base = g)
    (hk : M.Keys) (ord : List (Coord × Info) → List (Coord × Info))
    (hord : ∀ l, (ord l).Perm l) (v : Coord) :
    ∃ ns, M.neighbors ord v = .ok ns ∧ ∀ w, w ∈ ns ↔ M.hasEdge v w = .ok true := by
  have hs := rg.built.shape
  -- the base part
  have hbase : ∃ ns, (if M.base.hasVertex v then M.base.neighbors v else (pure [] : Res _)) = .ok ns ∧
      ∀ w, w ∈ ns ↔ g.hasEdge v w = .ok true := by
    rw [hb]
    by_cases hv : v ∈ g.verts
    · have : g.hasVertex v = true := (hs.dom v).2 hv
      obtain ⟨j, ns, _, _, hn, _⟩ := Graph.neighbors_ok hs hv
      refine ⟨ns, by rw [if_pos this]; exact hn, fun w => ?_⟩
      rw [(Graph.neighbors_mem hs rg.clean hv hn).2 w, Graph.hasEdge_eq hs, rg.sym w v]
      by_cases hvw : v = w
      · subst hvw; simp
      · have : w ≠ v := fun h => hvw h.symm
        by_cases hw : w ∈ g.verts
        · simp [hvw, this, hw, hv]
        · simp [hvw, hw]
    · have : ¬ g.hasVertex v = true := fun h => hv ((hs.dom v).1 h)
      refine ⟨[], by rw [if_neg this]; rfl, fun w => ?_⟩
      rw [Graph.hasEdge_eq hs]
      by_cases hvw : v = w
      · simp [hvw]
      · simp [hvw, hv]
  obtain ⟨ns, h1, h2⟩ := hbase
  have hunf : M.neighbors ord v = (do
      let ns ← (if M.base.hasVertex v then M.base.neighbors v else (pure [] : Res _))
      match Assoc.get M.nbrs v with
        | none => pure ns
        | some l => pure (overlayLoop ns (ord l))) := by
    unfold Modified.neighbors
    by_cases hv : M.base.hasVertex v = true
    · simp only [if_pos hv]; rfl
    · simp only [if_neg hv]; rfl
  rw [hunf, h1, Res.bind_ok]
  cases hg' : Assoc.get M.nbrs v with
  | none =>
    refine ⟨ns, rfl, fun w => ?_⟩
    have : M.entry v w = none := by unfold Modified.entry; rw [hg']; rfl
    unfold Modified.hasEdge
    rw [this, hb]; exact h2 w
  | some l =>
    refine ⟨overlayLoop ns (ord l), rfl, fun w => ?_⟩
    have hkl := hk v l hg'
    have hko : ((ord l).map Prod.fst).Nodup := ((hord l).map _).nodup_iff.2 hkl
    rw [overlayLoop_mem _ _ hko, get_perm (hord l) hkl]
    have he : M.entry v w = Assoc.get l w := by unfold Modified.entry; rw [hg']; rfl
    unfold Modified.hasEdge
    rw [he, hb]
    cases Assoc.get l w with
    | none => exact h2 w
    | some i => simp

end Modified

end Capi
