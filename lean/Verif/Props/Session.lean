import Verif.Model.Session
import Verif.Lemmas.Parallel
import Verif.Props.Merge
import Verif.Props.Graph
import Verif.Props.Parallel
import Verif.Props.ShortestPath

/-!
# C95 — path computers share the graph they are made from
-/

namespace Capi

open ShortestPath Session

/-! ### Adding edges -/

theorem addDirected_exn {g : Graph} {a b : Coord} {m : Bool} (h : g.addDirected a b m = .error .exn) :
    a ≠ b ∧ (g.idx a = none ∨ g.idx b = none) := by
  unfold Graph.addDirected at h
  split_ifs at h with hab
  refine ⟨hab, ?_⟩
  unfold Graph.pairIndex Graph.toIndex at h
  cases ha : g.idx a with
  | none => exact Or.inl rfl
  | some i =>
    cases hb : g.idx b with
    | none => exact Or.inr rfl
    | some j =>
      exfalso
      rw [ha, hb] at h
      simp only [Res.bind_ok] at h
      split_ifs at h
      · simp only [pure, Except.pure, Res.bind_ok] at h
        unfold Graph.cell at h
        split at h
        · simp [bind, Except.bind] at h
        · simp [bind, Except.bind] at h
      · simp [bind, Except.bind] at h

theorem addDirected_idx {g g' : Graph} {a b : Coord} {m : Bool} (h : g.addDirected a b m = .ok g') :
    g'.idx = g.idx ∧ (a ≠ b → g.idx a ≠ none ∧ g.idx b ≠ none) := by
  unfold Graph.addDirected at h
  split_ifs at h with hab
  · cases Except.ok.inj h
    exact ⟨rfl, fun h => absurd hab h⟩
  · obtain ⟨k, hk, h⟩ := bind_split h
    obtain ⟨c, _, h⟩ := bind_split h
    cases Except.ok.inj h
    refine ⟨rfl, fun _ => ?_⟩
    unfold Graph.pairIndex Graph.toIndex at hk
    cases ha : g.idx a with
    | none => rw [ha] at hk; simp [bind, Except.bind] at hk
    | some i =>
      cases hb : g.idx b with
      | none => rw [ha, hb] at hk; simp [bind, Except.bind] at hk
      | some j => simp

/-- **C95** An addition that raises leaves the graph as it was, whatever the graph. -/
theorem C95_add_raises (g : Graph) (a b : Coord) (m : Bool) (h : (g.addEdgeS a b m).2 = .raised) :
    (g.addEdgeS a b m).1 = g := by
  unfold Graph.addEdgeS at h ⊢
  cases h1 : g.addDirected a b m with
  | error e => rw [h1] at h; cases e <;> simp at h ⊢
  | ok g1 =>
    rw [h1] at h
    dsimp only at h ⊢
    cases h2 : g1.addDirected b a m with
    | ok g2 => rw [h2] at h; simp at h
    | error e =>
      rw [h2] at h
      cases e
      · simp at h
      · exfalso
        obtain ⟨hab, hn⟩ := addDirected_exn h2
        obtain ⟨e, hd⟩ := addDirected_idx h1
        obtain ⟨h3, h4⟩ := hd (Ne.symm hab)
        rw [e] at hn
        rcases hn with hn | hn
        · exact h4 hn
        · exact h3 hn

/-- Non-vacuity of `C95_add_raises`: one end is a vertex, the other is not. -/
example : ((Graph.ofPolygons [[⟨0, 0⟩, ⟨1, 0⟩, ⟨0, 1⟩]]).addEdgeS ⟨0, 0⟩ ⟨5, 5⟩ false).2 = .raised := by
  decide +kernel

theorem addEdgeS_eq (g : Graph) (a b : Coord) (m : Bool) (g' : Graph) :
    (g.addEdgeS a b m).2 = .done () ∧ (g.addEdgeS a b m).1 = g' ↔ g.addEdge a b m = .ok g' := by
  unfold Graph.addEdgeS Graph.addEdge
  cases h1 : g.addDirected a b m with
  | error e => cases e <;> simp [bind, Except.bind]
  | ok g1 =>
    simp only [Res.bind_ok]
    cases h2 : g1.addDirected b a m with
    | error e => cases e <;> simp
    | ok g2 => simp

theorem addEdge_self (g : Graph) (a : Coord) (m : Bool) : g.addEdge a a m = .ok g := by
  simp [Graph.addEdge, Graph.addDirected]

/-- What adding an edge does to a graph Python may hold. -/
theorem addEdgeS_user {g : Graph} (hg : UserGraph g) (a b : Coord) (m : Bool) :
    UserGraph (g.addEdgeS a b m).1 ∧ (g.addEdgeS a b m).1.polygons = g.polygons ∧
      ((g.addEdgeS a b m).2 = .done () ∨
        (g.addEdgeS a b m).2 = .raised ∧ (g.addEdgeS a b m).1 = g) := by
  have hr := hg.regular
  by_cases hab : a = b
  · subst hab
    obtain ⟨h1, h2⟩ := (addEdgeS_eq g a a m g).2 (addEdge_self g a m)
    rw [h2]
    exact ⟨hg, rfl, Or.inl h1⟩
  · by_cases ha : a ∈ g.verts
    · rcases addEdge_cases hr.built.shape (b := b) m ha with ⟨hb, g', h1, f⟩ | ⟨hb, h1⟩
      · obtain ⟨h2, h3⟩ := (addEdgeS_eq g a b m g').2 h1
        rw [h3]
        refine ⟨?_, f.polygons, Or.inl h2⟩
        obtain ⟨ps, ops, hu, ho, hrun⟩ := hg
        have hv : g.verts = ps.flatten := by
          obtain ⟨g', h4, _, h5⟩ := (Graph.ok_fresh ps).run ops ho
          rw [hrun] at h4
          rw [Except.ok.inj h4]
          exact h5.verts
        refine ⟨ps, ops ++ [.add a b m], ?_, ?_, ?_⟩
        · intro o h
          rcases List.mem_append.1 h with h | h
          · exact hu o h
          · rw [List.mem_singleton.1 h]; trivial
        · intro o h c hc
          rcases List.mem_append.1 h with h | h
          · exact ho o h c hc
          · rw [List.mem_singleton.1 h] at hc
            simp only [opCoords, List.mem_cons, List.not_mem_nil, or_false] at hc
            rw [← hv]
            rcases hc with rfl | rfl
            · exact ha
            · exact hb
        · rw [Visgraph.run_append, hrun, Res.bind_ok]
          simp only [Graph.run, Graph.step, h1, Res.bind_ok]
      · have h2 := Graph.addDirected_error hr.built.shape m hab (Or.inr hb)
        unfold Graph.addEdgeS
        rw [h2]
        exact ⟨hg, rfl, Or.inr ⟨rfl, rfl⟩⟩
    · have h2 := Graph.addDirected_error hr.built.shape m hab (Or.inl ha)
      unfold Graph.addEdgeS
      rw [h2]
      exact ⟨hg, rfl, Or.inr ⟨rfl, rfl⟩⟩

/-! ### Merging -/

theorem merge_user {gs : List Graph} (hg : ∀ g ∈ gs, UserGraph g) {ps : List (List Coord)}
    (hp : Graph.MergeOrder gs ps) {schedule : List Graph.Op → List Graph.Op}
    (hs : ∀ l, (schedule l).Perm l) : ∃ G, Graph.mergeP ps schedule gs = .done G ∧ UserGraph G := by
  obtain ⟨ops, h1, h2⟩ := Graph.mergeOps_ok gs fun g hgg => (hg g hgg).regular.built.shape
  have hmem : ∀ o, o ∈ schedule ops ↔ o ∈ ops := fun o => (hs ops).mem_iff
  have hon : OpsOn ps.flatten (schedule ops) := by
    intro o ho c hc
    obtain ⟨g, hgg, a, b, m, rfl, h3, _⟩ := (h2 o).1 ((hmem o).1 ho)
    have hr := (hg g hgg).regular
    obtain ⟨ha, hb, _⟩ := Graph.hasEdge_true_mem hr.built.shape h3
    have hin : ∀ v ∈ g.verts, v ∈ ps.flatten := by
      intro v hv
      rw [hr.built.verts] at hv
      obtain ⟨p, hpp, hv⟩ := List.mem_flatten.1 hv
      exact List.mem_flatten.2 ⟨p, (hp.2 p).2 ⟨g, hgg, hpp⟩, hv⟩
    simp only [opCoords, List.mem_cons, List.not_mem_nil, or_false] at hc
    rcases hc with rfl | rfl
    · exact hin _ ha
    · exact hin _ hb
  obtain ⟨G, h3, _⟩ := (Graph.ok_fresh ps).run (schedule ops) hon
  refine ⟨G, ?_, ps, schedule ops, ?_, hon, h3⟩
  · unfold Graph.mergeP Graph.merge
    rw [h1, Res.bind_ok, h3]
    rfl
  · intro o ho
    obtain ⟨g, hgg, a, b, m, rfl, _⟩ := (h2 o).1 ((hmem o).1 ho)
    trivial

theorem mapM_get {l : List Graph} {ks : List ℕ} {gs : List Graph}
    (h : ks.mapM (l[·]?) = some gs) : ∀ g ∈ gs, g ∈ l := by
  induction ks generalizing gs with
  | nil => simp at h; subst h; simp
  | cons k r ih =>
    rw [List.mapM_cons] at h
    cases hk : l[k]? with
    | none => rw [hk] at h; simp at h
    | some x =>
      rw [hk] at h
      cases hr : r.mapM (l[·]?) with
      | none => rw [hr] at h; simp at h
      | some xs =>
        rw [hr] at h
        simp only [Option.pure_def, Option.bind_eq_bind, Option.bind_some, Option.some.injEq] at h
        subst h
        intro g hg
        rcases List.mem_cons.1 hg with rfl | hg
        · exact List.mem_of_getElem? hk
        · exact ih hr g hg

/-! ### Sessions -/

variable {lib : List (List Coord) → Tools → Prop}

theorem reach_inv {S : Session} (h : Reach lib UserGraph S) :
    (∀ g ∈ S.graphs, UserGraph g) ∧
      ∀ (c k : ℕ) (t : Tools), S.computers[c]? = some (k, t) →
        ∃ g, S.graphs[k]? = some g ∧ lib g.polygons t := by
  have grow : ∀ (S : Session) (G : Graph), (∀ (c k : ℕ) (t : Tools), S.computers[c]? = some (k, t) →
        ∃ g, S.graphs[k]? = some g ∧ lib g.polygons t) →
      ∀ (c k : ℕ) (t : Tools), S.computers[c]? = some (k, t) →
        ∃ g, (S.graphs ++ [G])[k]? = some g ∧ lib g.polygons t := by
    intro S G h c k t hc
    obtain ⟨g, h1, h2⟩ := h c k t hc
    refine ⟨g, ?_, h2⟩
    rw [List.getElem?_append_left (List.getElem?_eq_some_iff.1 h1).1]
    exact h1
  induction h with
  | empty => exact ⟨by simp [Session.empty], by simp [Session.empty]⟩
  | @step S S' c o _ hc hs ho ih =>
    obtain ⟨i1, i2⟩ := ih
    cases hs with
    | graph ps =>
      refine ⟨fun g hg => ?_, grow S _ i2⟩
      rcases List.mem_append.1 hg with hg | hg
      · exact i1 g hg
      · rw [List.mem_singleton.1 hg]
        exact ⟨ps, [], by simp, by simp [OpsOn], rfl⟩
    | adopt g0 =>
      refine ⟨fun g hg => ?_, grow S _ i2⟩
      rcases List.mem_append.1 hg with hg | hg
      · exact i1 g hg
      · rw [List.mem_singleton.1 hg]
        exact hc g0 rfl
    | addEdge k g a b m hk =>
      have hu := addEdgeS_user (i1 g (List.mem_of_getElem? hk)) a b m
      refine ⟨fun x hx => ?_, fun c' k' t hc' => ?_⟩
      · rcases List.mem_or_eq_of_mem_set hx with hx | rfl
        · exact i1 x hx
        · exact hu.1
      · obtain ⟨x, h1, h2⟩ := i2 c' k' t hc'
        by_cases e : k = k'
        · subst e
          rw [hk] at h1
          cases h1
          refine ⟨_, ?_, by rw [hu.2.1]; exact h2⟩
          exact List.getElem?_set_self (List.getElem?_eq_some_iff.1 hk).1
        · exact ⟨x, by show (S.graphs.set k _)[k']? = _; rw [List.getElem?_set_ne e]; exact h1, h2⟩
    | mergeNone ks h => exact ⟨i1, i2⟩
    | merge ks gs hk ps hp schedule hs G hG =>
      refine ⟨fun g hg => ?_, grow S _ i2⟩
      rcases List.mem_append.1 hg with hg | hg
      · exact i1 g hg
      · rw [List.mem_singleton.1 hg]
        obtain ⟨G', h1, h2⟩ := merge_user (fun g hg => i1 g (mapM_get hk g hg)) hp hs
        rw [hG] at h1
        cases h1
        exact h2
    | mergeBad ks gs hk ps hp schedule hs o h => exact ⟨i1, i2⟩
    | computerNone => exact ⟨i1, i2⟩
    | computer k g hk t ht =>
      refine ⟨i1, fun c' k' t' hc' => ?_⟩
      have hc' : (S.computers ++ [(k, t)])[c']? = some (k', t') := hc'
      rw [List.getElem?_append] at hc'
      split_ifs at hc' with hlt
      · exact i2 c' k' t' hc'
      · rw [List.getElem?_singleton] at hc'
        split_ifs at hc'
        cases hc'
        exact ⟨g, hk, ht⟩

/-- **C95** However many edges have been added since it was made, a path computer answers as one
made now from the same graph would: its tools fit the polygons the graph has now, so a new computer
may get equal ones, and then both can give the same answers to every query. -/
theorem C95_follows (S : Session) (h : Reach lib UserGraph S) (c k : ℕ) (t : Tools)
    (hc : S.computers[c]? = some (k, t)) :
    ∃ S', Step lib S (.computer (some k)) S' (.done ()) ∧
      S'.computers[S.computers.length]? = some (k, t) ∧
      ∀ (D : Type) [LinearOrder D] (A : Arith D) (s d : Coord) (allow : Bool) (r : Res (List Coord)),
        Asks A S' S.computers.length s d allow r ↔ Asks A S c s d allow r := by
  obtain ⟨g, hg, hl⟩ := (reach_inv h).2 c k t hc
  have hnew : (S.computers ++ [(k, t)])[S.computers.length]? = some (k, t) := by simp
  refine ⟨_, .computer S k g hg t hl, hnew, ?_⟩
  intro D _ A s d allow r
  constructor
  · rintro ⟨k', t', g', h1, h2, h3⟩
    have h1 : (S.computers ++ [(k, t)])[S.computers.length]? = some (k', t') := h1
    rw [hnew] at h1
    cases h1
    exact ⟨k, t, g', hc, h2, h3⟩
  · rintro ⟨k', t', g', h1, h2, h3⟩
    rw [hc] at h1
    cases h1
    exact ⟨k, t, g', hnew, h2, h3⟩

/-- **C95** In a session no call ends the process; a call is undefined only if it is handed `None`
for a graph; and a call that raises changes nothing. -/
theorem C95_safe (S : Session) (h : Reach lib UserGraph S) (c : Call) (S' : Session)
    (o : Outcome Unit) (hs : Step lib S c S' o) :
    o ≠ .aborted ∧ (o = .undefined → c = .computer none ∨ ∃ ks, c = .merge ks ∧ none ∈ ks) ∧
      (o = .raised → S' = S) := by
  obtain ⟨i1, _⟩ := reach_inv h
  cases hs with
  | graph ps => simp
  | adopt g0 => simp
  | addEdge k g a b m hk =>
    obtain ⟨_, _, h1 | ⟨h1, h2⟩⟩ := addEdgeS_user (i1 g (List.mem_of_getElem? hk)) a b m
    · rw [h1]; simp
    · rw [h1, h2]
      simp only [ne_eq, reduceCtorEq, not_false_eq_true, false_implies, true_and, forall_const]
      obtain ⟨hlt, hk⟩ := List.getElem?_eq_some_iff.1 hk
      rw [← hk, List.set_getElem_self]
  | mergeNone ks h => exact ⟨by simp, fun _ => Or.inr ⟨ks, rfl, h⟩, by simp⟩
  | merge ks gs hk ps hp schedule hs G hG => simp
  | mergeBad ks gs hk ps hp schedule hs o hb =>
    exfalso
    obtain ⟨G, h1, _⟩ := merge_user (fun g hg => i1 g (mapM_get hk g hg)) hp hs
    rw [h1] at hb
    simp at hb
  | computerNone => simp
  | computer k g hk t ht => simp

theorem bits_or_bit (x : BitVec 8) (m : Bool) : x ||| Graph.bit m ≠ 0 := by
  cases m <;> revert x <;> decide +kernel

/-- What adding an edge makes of the connections. -/
theorem addEdge_connects {g g' : Graph} (hs : g.Shape) {a b : Coord} {m : Bool} (hab : a ≠ b)
    (ha : a ∈ g.verts) (hb : b ∈ g.verts) (h : g.addEdge a b m = .ok g') (x y : Coord) :
    g'.hasEdge x y = .ok true ↔
      g.hasEdge x y = .ok true ∨ (x = a ∧ y = b) ∨ (x = b ∧ y = a) := by
  obtain ⟨g1, h1, f1, b1⟩ := Graph.addDirected_ok hs ha hb m
  have hs1 := f1.shape hs
  obtain ⟨g2, h2, f2, b2⟩ := Graph.addDirected_ok hs1 (a := b) (b := a)
    (by rw [f1.verts]; exact hb) (by rw [f1.verts]; exact ha) m
  rw [Graph.addEdge, h1, Res.bind_ok, h2] at h
  cases h
  rw [Graph.hasEdge_eq hs, Graph.hasEdge_eq (f2.shape hs1), f2.verts, f1.verts]
  by_cases hxy : x = y
  · subst hxy
    have : ¬ (x = a ∧ x = b) := fun e => hab (e.1.symm.trans e.2)
    have : ¬ (x = b ∧ x = a) := fun e => hab (e.2.symm.trans e.1)
    simp [*]
  · simp only [hxy, ↓reduceIte]
    by_cases hm : x ∈ g.verts ∧ y ∈ g.verts
    · simp only [hm, and_self, ↓reduceIte, Except.ok.injEq, bne_iff_ne, ne_eq]
      rw [b2]
      by_cases e2 : x = b ∧ y = a ∧ b ≠ a
      · rw [if_pos e2]
        exact iff_of_true (bits_or_bit _ m) (Or.inr (Or.inr ⟨e2.1, e2.2.1⟩))
      · rw [if_neg e2, b1]
        by_cases e1 : x = a ∧ y = b ∧ a ≠ b
        · rw [if_pos e1]
          exact iff_of_true (bits_or_bit _ m) (Or.inr (Or.inl ⟨e1.1, e1.2.1⟩))
        · rw [if_neg e1]
          have n2 : ¬ (x = b ∧ y = a) := fun e => e2 ⟨e.1, e.2, hab.symm⟩
          have n1 : ¬ (x = a ∧ y = b) := fun e => e1 ⟨e.1, e.2, hab⟩
          simp [n1, n2]
    · have n2 : ¬ (x = b ∧ y = a) := by rintro ⟨rfl, rfl⟩; exact hm ⟨hb, ha⟩
      have n1 : ¬ (x = a ∧ y = b) := by rintro ⟨rfl, rfl⟩; exact hm ⟨ha, hb⟩
      rw [if_neg hm, if_neg hm]
      simp [n1, n2]

/-- **C95** `add_edge` joins two vertices of the graph named, in both directions, and changes nothing
else in the session; with an end that is no vertex it raises and changes nothing at all. -/
theorem C95_add (S : Session) (h : Reach lib UserGraph S) (k : ℕ) (g : Graph)
    (hk : S.graphs[k]? = some g) (a b : Coord) (hab : a ≠ b) (m : Bool) (S' : Session)
    (o : Outcome Unit) (hs : Step lib S (.addEdge k a b m) S' o) :
    (a ∈ g.verts → b ∈ g.verts → o = .done () ∧ S'.computers = S.computers ∧
      (∀ j, j ≠ k → S'.graphs[j]? = S.graphs[j]?) ∧
      ∃ g', S'.graphs[k]? = some g' ∧ g'.polygons = g.polygons ∧
        ∀ x y, g'.hasEdge x y = .ok true ↔
          g.hasEdge x y = .ok true ∨ (x = a ∧ y = b) ∨ (x = b ∧ y = a)) ∧
      ((a ∉ g.verts ∨ b ∉ g.verts) → o = .raised ∧ S' = S) := by
  obtain ⟨i1, _⟩ := reach_inv h
  have hg := i1 g (List.mem_of_getElem? hk)
  have hr := hg.regular
  obtain ⟨hlt, hk'⟩ := List.getElem?_eq_some_iff.1 hk
  cases hs with
  | addEdge _ g0 _ _ _ hk0 =>
    rw [hk] at hk0
    cases hk0
    refine ⟨fun ha hb => ?_, fun hn => ?_⟩
    · rcases addEdge_cases hr.built.shape (b := b) m ha with ⟨_, g', h1, f⟩ | ⟨hb', _⟩
      · obtain ⟨h2, h3⟩ := (addEdgeS_eq g a b m g').2 h1
        rw [h2, h3]
        refine ⟨rfl, rfl, fun j hj => ?_, g', ?_, f.polygons,
          addEdge_connects hr.built.shape hab ha hb h1⟩
        · show (S.graphs.set k g')[j]? = _
          rw [List.getElem?_set_ne hj.symm]
        · exact List.getElem?_set_self hlt
      · exact (hb' hb).elim
    · have h2 := Graph.addDirected_error hr.built.shape m hab hn
      unfold Graph.addEdgeS
      rw [h2]
      refine ⟨rfl, ?_⟩
      dsimp only
      rw [← hk', List.set_getElem_self]

/-- **C95** Merging graphs of a session makes a new graph with just their polygons and connections,
and changes none of them. -/
theorem C95_merged (S : Session) (h : Reach lib UserGraph S) (ks : List ℕ) (gs : List Graph)
    (hk : ks.mapM (S.graphs[·]?) = some gs) (S' : Session) (o : Outcome Unit)
    (hs : Step lib S (.merge (ks.map some)) S' o) :
    o = .done () ∧ S'.computers = S.computers ∧ ∃ G, S'.graphs = S.graphs ++ [G] ∧
      (∀ p, p ∈ G.polygons ↔ ∃ g ∈ gs, p ∈ g.polygons) ∧
      ∀ x y, G.hasEdge x y = .ok true ↔ ∃ g ∈ gs, g.hasEdge x y = .ok true := by
  obtain ⟨i1, _⟩ := reach_inv h
  have hu : ∀ g ∈ gs, UserGraph g := fun g hg => i1 g (mapM_get hk g hg)
  have hmap : ∀ {l l' : List ℕ}, l.map some = l'.map some → l = l' := fun e =>
    List.map_injective_iff.2 (Option.some_injective _) e
  generalize hc : Call.merge (ks.map some) = c at hs
  cases hs with
  | graph => cases hc
  | adopt => cases hc
  | addEdge => cases hc
  | computerNone => cases hc
  | computer => cases hc
  | mergeNone _ hn =>
    cases hc
    simp at hn
  | mergeBad ks' gs' hk' ps hp schedule hsch o hb =>
    exfalso
    obtain ⟨G, h1, _⟩ := merge_user (fun g hg => i1 g (mapM_get hk' g hg)) hp hsch
    rw [h1] at hb
    simp at hb
  | merge ks' gs' hk' ps hp schedule hsch G hG =>
    cases hmap (Call.merge.inj hc)
    rw [hk] at hk'
    cases hk'
    obtain ⟨G', h1, h2, _, h3⟩ := C24_union gs ps schedule
      (fun g hg => (hu g hg).regular.built) hp hsch
    have : G = G' := by
      unfold Graph.mergeP at hG
      rw [h1] at hG
      cases hG
      rfl
    subst this
    refine ⟨rfl, rfl, G, rfl, h2, fun x y => ?_⟩
    rw [(h3 x y).1]
    constructor
    · rintro ⟨g, hg, h | h⟩
      · exact ⟨g, hg, h⟩
      · obtain ⟨ps', ops, hu', ho, hrun⟩ := hu g hg
        exact ⟨g, hg, by rw [(C18_symmetric ps' ops hu' g hrun ho x y).1]; exact h⟩
    · rintro ⟨g, hg, h⟩
      exact ⟨g, hg, Or.inl h⟩

/-- **C95** Every call naming existing graphs has an outcome. -/
theorem C95_total (hlib : ∀ ps, ∃ t, lib ps t) (S : Session) (h : Reach lib UserGraph S) (c : Call)
    (hc : match c with
      | .addEdge k _ _ _ => k < S.graphs.length
      | .merge ks => ∀ k, some k ∈ ks → k < S.graphs.length
      | .computer (some k) => k < S.graphs.length
      | _ => True) :
    ∃ S' o, Step lib S c S' o := by
  obtain ⟨i1, _⟩ := reach_inv h
  cases c with
  | graph ps => exact ⟨_, _, .graph S ps⟩
  | adopt g => exact ⟨_, _, .adopt S g⟩
  | addEdge k a b m => exact ⟨_, _, .addEdge S k S.graphs[k] a b m (List.getElem?_eq_getElem hc)⟩
  | computer k =>
    cases k with
    | none => exact ⟨_, _, .computerNone S⟩
    | some k =>
      obtain ⟨t, ht⟩ := hlib S.graphs[k].polygons
      exact ⟨_, _, .computer S k S.graphs[k] (List.getElem?_eq_getElem hc) t ht⟩
  | merge ks =>
    by_cases hn : none ∈ ks
    · exact ⟨_, _, .mergeNone S ks hn⟩
    · have h1 : ∀ l : List (Option ℕ), none ∉ l → (∀ k, some k ∈ l → k < S.graphs.length) →
          ∃ (ns : List ℕ) (gs : List Graph), l = ns.map some ∧ ns.mapM (S.graphs[·]?) = some gs := by
        intro l
        induction l with
        | nil => intro _ _; exact ⟨[], [], rfl, rfl⟩
        | cons x r ih =>
          intro hx hl
          obtain ⟨ns, gs, h2, h3⟩ := ih (fun h => hx (List.mem_cons_of_mem _ h)) fun k hk =>
            hl k (List.mem_cons_of_mem _ hk)
          cases x with
          | none => exact absurd List.mem_cons_self hx
          | some k =>
            refine ⟨k :: ns, S.graphs[k]'(hl k List.mem_cons_self) :: gs, by rw [h2]; rfl, ?_⟩
            rw [List.mapM_cons, List.getElem?_eq_getElem (hl k List.mem_cons_self), h3]
            rfl
      obtain ⟨ns, gs, rfl, h2⟩ := h1 ks hn hc
      have hp : Graph.MergeOrder gs (gs.flatMap Graph.polygons).dedup :=
        ⟨List.nodup_dedup _, fun p => by rw [List.mem_dedup, List.mem_flatMap]⟩
      obtain ⟨G, h3, _⟩ := merge_user (fun g hg => i1 g (mapM_get h2 g hg)) hp
        (schedule := id) fun l => List.Perm.refl l
      exact ⟨_, _, .merge S ns gs h2 _ hp id (fun l => List.Perm.refl l) G h3⟩

/-- **C95** Paths follow the graph as it is now: every leg of an answer that is not the straight line
is an edge of the shared graph at the time of the query, or leads from or to an end. -/
theorem C95_paths {D : Type} [LinearOrder D] (A : Arith D) (hA : A.Sound)
    (hord : ∀ ps t, lib ps t → ∀ l, (t.ord l).Perm l) (S : Session) (h : Reach lib UserGraph S)
    (c k : ℕ) (t : Tools) (g : Graph) (hc : S.computers[c]? = some (k, t)) (hk : S.graphs[k]? = some g)
    (s d : Coord) (allow : Bool) (path : List Coord) (hq : Asks A S c s d allow (.ok path)) :
    ∃ ns nd cor, normalizeC s = .ok ns ∧ normalizeC d = .ok nd ∧
      correct (t.env g) ns nd allow = .ok cor ∧
      (path = [cor.src, cor.dst] ∨
        IsWalk (fun u v => g.hasEdge u v = .ok true ∨ u = cor.src ∨ v = cor.src ∨ u = cor.dst ∨
          v = cor.dst) cor.src cor.dst path) := by
  obtain ⟨i1, i2⟩ := reach_inv h
  obtain ⟨k', t', g', h1, h2, h3⟩ := hq
  rw [hc] at h1
  cases h1
  rw [hk] at h2
  cases h2
  obtain ⟨g', h4, hl⟩ := i2 c k t hc
  obtain ⟨ns, nd, cor, h5, h6, h7, h8⟩ := C42_paths A hA (t.env g) (i1 g (List.mem_of_getElem? hk))
    (hord _ t hl) s d allow path h3
  refine ⟨ns, nd, cor, h5, h6, h7, ?_⟩
  rcases h8 with ⟨_, h8⟩ | ⟨_, h8, h9, h10⟩
  · exact Or.inl h8
  · refine Or.inr ⟨h8, h9, h10.imp fun u v huv => ?_⟩
    rcases huv with h | ⟨h, _⟩ | ⟨h, _⟩ | ⟨h, _⟩ | ⟨h, _⟩
    · exact Or.inl h
    · exact Or.inr (Or.inl h)
    · exact Or.inr (Or.inr (Or.inl h))
    · exact Or.inr (Or.inr (Or.inr (Or.inl h)))
    · exact Or.inr (Or.inr (Or.inr (Or.inr h)))

/-! ### The graph is not a snapshot -/

/-- An island between two others. -/
def exThree : List (List Coord) :=
  [[⟨0, 0⟩, ⟨-1000000, 1000000⟩, ⟨-1000000, -1000000⟩],
    [⟨4000000, -1000000⟩, ⟨6000000, -1000000⟩, ⟨5000000, 2000000⟩],
    [⟨10000000, 0⟩, ⟨11000000, -1000000⟩, ⟨11000000, 1000000⟩]]

/-- The sides of the island in between. -/
def exSides : List Seg :=
  [⟨⟨5000000, 2000000⟩, ⟨4000000, -1000000⟩⟩, ⟨⟨6000000, -1000000⟩, ⟨5000000, 2000000⟩⟩]

/-- Tools that know the sides of the island in between. -/
def exToolsOf (ps : List (List Coord)) : Tools where
  onLand _ := false
  closest _ := .error .exn
  project _ c := .ok c
  crossings _ := exSides
  reach c := Vistree.scanC exLook (Vistree.ofPolygons ps) c (Vistree.vertices (Vistree.ofPolygons ps))
    (Vistree.segments (Vistree.ofPolygons ps)) false
  ord l := l

/-- The tools of the map. -/
def exTools : Tools := exToolsOf exThree

/-- The tools that can be built as far as the generator is concerned; the index is left open. -/
def exLib (ps : List (List Coord)) (t : Tools) : Prop := IsReach ps t.reach ∧ ∀ l, (t.ord l).Perm l

theorem exTools_ok : exLib exThree exTools :=
  ⟨fun _ => ⟨_, _, _, List.Perm.refl _, List.Perm.refl _, exLook_ok, rfl⟩, fun l => List.Perm.refl l⟩

/-- A graph without edges and a computer made from it. -/
def exBefore : Session := ⟨[Graph.ofPolygons exThree], [(0, exTools)]⟩

/-- The graph with an edge across the island in between. -/
def exLinked : Graph := ((Graph.ofPolygons exThree).addEdgeS ⟨0, 0⟩ ⟨10000000, 0⟩ false).1

/-- The session after the edge has been added. -/
def exAfter : Session := ⟨[exLinked], [(0, exTools)]⟩

theorem exBefore_reach : Reach exLib UserGraph exBefore := by
  have h1 : Reach exLib UserGraph ⟨[Graph.ofPolygons exThree], []⟩ :=
    .step .empty (by simp) (.graph .empty exThree) (Or.inl rfl)
  exact .step h1 (by simp) (.computer _ 0 (Graph.ofPolygons exThree) rfl exTools exTools_ok)
    (Or.inl rfl)

theorem exAfter_step : Step exLib exBefore (.addEdge 0 ⟨0, 0⟩ ⟨10000000, 0⟩ false) exAfter (.done ()) := by
  have h := Step.addEdge (lib := exLib) exBefore 0 (Graph.ofPolygons exThree) ⟨0, 0⟩ ⟨10000000, 0⟩
    false rfl
  have e : ((Graph.ofPolygons exThree).addEdgeS ⟨0, 0⟩ ⟨10000000, 0⟩ false).2 = .done () := by
    decide +kernel
  rw [e] at h
  exact h

theorem exThree_prepare (g : Graph) (h1 : g.hasVertex ⟨0, 0⟩ = true)
    (h2 : g.hasVertex ⟨10000000, 0⟩ = true) :
    prepare (exTools.env g) ⟨0, 0⟩ ⟨10000000, 0⟩ false =
      .ok (.inr (.base g, ⟨⟨0, 0⟩, ⟨10000000, 0⟩, none, none⟩)) := by
  have e1 : normalizeC ⟨0, 0⟩ = .ok ⟨0, 0⟩ := C01_normalize_id _ (by decide) (by decide)
  have e2 : normalizeC ⟨10000000, 0⟩ = .ok ⟨10000000, 0⟩ := C01_normalize_id _ (by decide) (by decide)
  unfold prepare
  rw [e1, e2]
  have e3 : net (exTools.env g) ⟨⟨0, 0⟩, ⟨10000000, 0⟩, none, none⟩ = .ok (.base g) := by
    unfold net
    rw [if_pos (by
      show (g.hasVertex ⟨0, 0⟩ && g.hasVertex ⟨10000000, 0⟩) = true
      rw [h1, h2]; rfl)]
    rfl
  show (do
    let N ← net (exTools.env g) ⟨⟨0, 0⟩, ⟨10000000, 0⟩, none, none⟩
    return Sum.inr (N, ⟨⟨0, 0⟩, ⟨10000000, 0⟩, none, none⟩) : Res (List Coord ⊕ (Net × Correction))) = _
  rw [e3]
  rfl

/-- **C95** (the claim that a computer answers from the graph it was given fails) A computer is made
from a graph without edges and finds no way past an island; after an edge across the island has been
added to the graph, the same computer answers with a path straight over it.  No added edge is checked
against the polygons. -/
theorem C95_snapshot_false {D : Type} [LinearOrder D] (A : Arith D) (hA : A.Sound)
    (hno : ∀ d, A.over d = false) :
    Reach exLib UserGraph exBefore ∧
      Step exLib exBefore (.addEdge 0 ⟨0, 0⟩ ⟨10000000, 0⟩ false) exAfter (.done ()) ∧
      (∀ r, Asks A exBefore 0 ⟨0, 0⟩ ⟨10000000, 0⟩ false r ↔ r = .error .exn) ∧
      (∀ r, Asks A exAfter 0 ⟨0, 0⟩ ⟨10000000, 0⟩ false r ↔ r = .ok [⟨0, 0⟩, ⟨10000000, 0⟩]) ∧
      ∀ s ∈ exSides, EdgeOf exThree s ∧ Crosses ⟨0, 0⟩ ⟨10000000, 0⟩ s := by
  have hasks : ∀ (g : Graph) r, Asks A ⟨[g], [(0, exTools)]⟩ 0 ⟨0, 0⟩ ⟨10000000, 0⟩ false r ↔
      Query A (exTools.env g) ⟨0, 0⟩ ⟨10000000, 0⟩ false r := by
    intro g r
    constructor
    · rintro ⟨k, t, g', h1, h2, h3⟩
      cases h1
      cases h2
      exact h3
    · intro h
      exact ⟨0, exTools, g, rfl, rfl, h⟩
  have hord : ∀ (g : Graph) l, ((exTools.env g).ord l).Perm l := fun _ l => List.Perm.refl l
  -- between vertices of the graph only its edges can be used
  have hroute : ∀ (g : Graph), g.hasVertex ⟨0, 0⟩ = true → g.hasVertex ⟨10000000, 0⟩ = true →
      ∀ u v, RouteEdge (exTools.env g) ⟨⟨0, 0⟩, ⟨10000000, 0⟩, none, none⟩ u v →
        g.hasEdge u v = .ok true := by
    intro g h1 h2 u v h
    rcases h with h | ⟨_, h⟩ | ⟨_, h⟩ | ⟨_, h⟩ | ⟨_, h⟩
    · exact h
    · exact absurd (h1.symm.trans h.1) (by simp)
    · exact absurd (h1.symm.trans h.1) (by simp)
    · exact absurd (h2.symm.trans h.1) (by simp)
    · exact absurd (h2.symm.trans h.1) (by simp)
  have hu : UserGraph (Graph.ofPolygons exThree) := ⟨exThree, [], by simp, by simp [OpsOn], rfl⟩
  have hu' : UserGraph exLinked := (addEdgeS_user hu _ _ _).1
  refine ⟨exBefore_reach, exAfter_step, fun r => ?_, fun r => ?_, ?_⟩
  · rw [exBefore, hasks]
    have hp := exThree_prepare (Graph.ofPolygons exThree) (by decide +kernel) (by decide +kernel)
    have hnone : ¬ ∃ route, IsWalk (RouteEdge (exTools.env (Graph.ofPolygons exThree))
        ⟨⟨0, 0⟩, ⟨10000000, 0⟩, none, none⟩) ⟨0, 0⟩ ⟨10000000, 0⟩ route := by
      rintro ⟨route, h1, h2, h3⟩
      match route, h1, h2, h3 with
      | [], h1, _, _ => simp at h1
      | [x], h1, h2, _ =>
        simp only [List.head?_cons, Option.some.injEq] at h1
        subst h1
        simp at h2
      | x :: y :: l, _, _, h3 =>
        have := hroute _ (by decide +kernel) (by decide +kernel) _ _ (List.isChain_cons_cons.1 h3).1
        obtain ⟨hx, hy, hxy, hb⟩ := Graph.hasEdge_true_mem hu.regular.built.shape this
        exact hb (Graph.ofPolygons_bits _ _ _)
    constructor
    · exact fun hq => (C46_unlimited A hA hno _ hu (hord _) _ _ _ _ _ hp r hq).2 hnone
    · rintro rfl
      obtain ⟨⟨r, hq⟩, _⟩ := C43_outcome A hA (exTools.env (Graph.ofPolygons exThree)) hu (hord _)
        ⟨0, 0⟩ ⟨10000000, 0⟩ false
      have := (C46_unlimited A hA hno _ hu (hord _) _ _ _ _ _ hp r hq).2 hnone
      rwa [this] at hq
  · rw [exAfter, hasks]
    have hp := exThree_prepare exLinked (by decide +kernel) (by decide +kernel)
    have hedges : ∀ u ∈ exLinked.verts, ∀ v ∈ exLinked.verts, exLinked.hasEdge u v = .ok true →
        (u = ⟨0, 0⟩ ∧ v = ⟨10000000, 0⟩) ∨ (u = ⟨10000000, 0⟩ ∧ v = ⟨0, 0⟩) := by decide +kernel
    have hstep : ∀ u v, RouteEdge (exTools.env exLinked) ⟨⟨0, 0⟩, ⟨10000000, 0⟩, none, none⟩ u v →
        (u = ⟨0, 0⟩ ∧ v = ⟨10000000, 0⟩) ∨ (u = ⟨10000000, 0⟩ ∧ v = ⟨0, 0⟩) := by
      intro u v h
      have he := hroute exLinked (by decide +kernel) (by decide +kernel) u v h
      obtain ⟨hx, hy, _⟩ := Graph.hasEdge_true_mem hu'.regular.built.shape he
      exact hedges u hx v hy he
    have hway : IsWalk (RouteEdge (exTools.env exLinked) ⟨⟨0, 0⟩, ⟨10000000, 0⟩, none, none⟩) ⟨0, 0⟩
        ⟨10000000, 0⟩ [⟨0, 0⟩, ⟨10000000, 0⟩] := by
      refine ⟨rfl, rfl, ?_⟩
      rw [List.isChain_cons_cons]
      refine ⟨Or.inl ?_, List.isChain_singleton _⟩
      show exLinked.hasEdge _ _ = _
      decide +kernel
    have hall : ∀ r, Query A (exTools.env exLinked) ⟨0, 0⟩ ⟨10000000, 0⟩ false r →
        r = .ok [⟨0, 0⟩, ⟨10000000, 0⟩] := by
      intro r hq
      obtain ⟨path, rfl⟩ := (C46_failure A hA _ hu' (hord _) _ _ _ _ _ hp).1
        ⟨_, hway, fun v _ => hno _⟩ r hq
      have hnd := (C43_outcome A hA (exTools.env exLinked) hu' (hord _) _ _ _).2 _ _ path hp hq
      obtain ⟨ns, nd, c, h1, h2, h3, h4⟩ := C42_paths A hA (exTools.env exLinked) hu' (hord _) _ _ _
        path hq
      rw [C01_normalize_id _ (by decide) (by decide)] at h1 h2
      cases h1
      cases h2
      cases h3
      rcases h4 with ⟨h4, _⟩ | ⟨_, h4, h5, h6⟩
      · exact absurd h4 (by decide)
      · match path, hnd, h4, h5, h6 with
        | [], _, h4, _, _ => simp at h4
        | [x], _, h4, h5, _ =>
          simp only [List.head?_cons, Option.some.injEq] at h4
          subst h4
          simp at h5
        | [x, y], _, h4, _, h6 =>
          simp only [List.head?_cons, Option.some.injEq] at h4
          subst h4
          rcases hstep _ _ (List.isChain_cons_cons.1 h6).1 with ⟨_, rfl⟩ | ⟨h, _⟩
          · rfl
          · simp at h
        | x :: y :: z :: l, hnd, h4, _, h6 =>
          exfalso
          simp only [List.head?_cons, Option.some.injEq] at h4
          subst h4
          obtain ⟨e1, h6⟩ := List.isChain_cons_cons.1 h6
          obtain ⟨e2, _⟩ := List.isChain_cons_cons.1 h6
          rcases hstep _ _ e1 with ⟨_, rfl⟩ | ⟨h, _⟩
          · rcases hstep _ _ e2 with ⟨h, _⟩ | ⟨_, rfl⟩
            · simp at h
            · simp at hnd
          · simp at h
    constructor
    · exact hall r
    · rintro rfl
      obtain ⟨⟨r, hq⟩, _⟩ := C43_outcome A hA (exTools.env exLinked) hu' (hord _) ⟨0, 0⟩
        ⟨10000000, 0⟩ false
      rwa [hall r hq] at hq
  · have hcross : ∀ s ∈ exSides, Crosses ⟨0, 0⟩ ⟨10000000, 0⟩ s := by
      unfold Crosses
      decide +kernel
    intro s hs
    refine ⟨?_, hcross s hs⟩
    simp only [exSides, List.mem_cons, List.not_mem_nil, or_false] at hs
    rcases hs with rfl | rfl
    · exact ⟨_, List.mem_cons_of_mem _ List.mem_cons_self, 2, by decide, rfl⟩
    · exact ⟨_, List.mem_cons_of_mem _ List.mem_cons_self, 1, by decide, rfl⟩

/-- Non-vacuity of `C95_follows`, `C95_safe`, `C95_total` and `C95_paths`: the session after the
addition, a further addition that raises, and a merger with `None`. -/
example : Reach exLib UserGraph exAfter ∧ (∃ S', Step exLib exAfter (.addEdge 0 ⟨0, 0⟩ ⟨3, 3⟩ false) S' .raised) ∧
    Step exLib exAfter (.merge [some 0, none]) exAfter .undefined ∧ (∀ ps, ∃ t, exLib ps t) ∧
    ∀ ps t, exLib ps t → ∀ l, (t.ord l).Perm l := by
  refine ⟨.step exBefore_reach (by simp) exAfter_step (Or.inl rfl), ?_, .mergeNone _ _ (by simp),
    fun ps => ⟨exToolsOf ps, fun _ => ⟨_, _, _, List.Perm.refl _, List.Perm.refl _, exLook_ok, rfl⟩,
      fun l => List.Perm.refl l⟩, fun _ _ h => h.2⟩
  have h := Step.addEdge (lib := exLib) exAfter 0 exLinked ⟨0, 0⟩ ⟨3, 3⟩ false rfl
  have e : (exLinked.addEdgeS ⟨0, 0⟩ ⟨3, 3⟩ false).2 = .raised := by decide +kernel
  rw [e] at h
  exact ⟨_, h⟩

/-- Non-vacuity of `C95_add` and `C95_merged`: two vertices of the map, and the graph merged with itself. -/
example : ⟨10000000, 0⟩ ∈ exLinked.verts ∧ ⟨0, 0⟩ ∈ exLinked.verts ∧
    [0, 0].mapM (exAfter.graphs[·]?) = some [exLinked, exLinked] ∧
    ∃ S' o, Step exLib exAfter (.merge ([0, 0].map some)) S' o := by
  refine ⟨by decide +kernel, by decide +kernel, rfl, ?_⟩
  exact C95_total (fun ps => ⟨exToolsOf ps,
    fun _ => ⟨_, _, _, List.Perm.refl _, List.Perm.refl _, exLook_ok, rfl⟩,
      fun l => List.Perm.refl l⟩) exAfter
    (.step exBefore_reach (by simp) exAfter_step (Or.inl rfl)) _ (by simp [exAfter])

end Capi
