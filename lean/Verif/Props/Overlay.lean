import Verif.Lemmas.Overlay

/-!
# C98 — overlays over any base graph, also over overlays
-/

namespace Capi

open Graph (Op)
open Layer (face caught Single)

/-- A triangle, the base of the examples. -/
def exTri : Graph := Graph.ofPolygons [[⟨0, 0⟩, ⟨5, 0⟩, ⟨0, 5⟩]]

theorem exTri_regular : exTri.Regular :=
  UserGraph.regular ⟨[[⟨0, 0⟩, ⟨5, 0⟩, ⟨0, 5⟩]], [], by simp, by simp [OpsOn], rfl⟩

/-- C98: which pairs a graph made from polygons answers for: those of its own vertices. -/
theorem C98_graph_answers (g : Graph) (hg : UserGraph g) (c d : Coord) :
    Answers g.face c d ↔ c = d ∨ c ∈ g.verts ∧ d ∈ g.verts := by
  have hs := hg.regular.built.shape
  simp only [Answers, Graph.face, Graph.hasEdge_eq hs, Graph.isCrossing_eq hs]
  by_cases h1 : c = d
  · simp [h1]
  · by_cases h2 : c ∈ g.verts ∧ d ∈ g.verts
    · simp only [h1, if_false, if_pos h2]
      cases h : g.bits c d != 0 <;> simp [h2]
    · simp [h1, h2]

theorem exTri_user : UserGraph exTri :=
  ⟨[[⟨0, 0⟩, ⟨5, 0⟩, ⟨0, 5⟩]], [], by simp, by simp [OpsOn], rfl⟩

theorem exTri_answers : Answers exTri.face ⟨0, 0⟩ ⟨5, 0⟩ ∧ Answers exTri.face ⟨5, 0⟩ ⟨0, 0⟩ ∧
    ¬ Answers exTri.face ⟨0, 0⟩ ⟨9, 9⟩ := by
  refine ⟨(C98_graph_answers _ exTri_user _ _).2 (Or.inr (by decide)),
    (C98_graph_answers _ exTri_user _ _).2 (Or.inr (by decide)), fun h => ?_⟩
  have := (C98_graph_answers _ exTri_user _ _).1 h
  revert this
  decide

/-- C98: over a `Graph` the general overlay is the one of C26 and C27: it reads the same, and
operations have the same result and raise the same. -/
theorem C98_modified (M : Modified) (ord : List (Coord × Info) → List (Coord × Info)) :
    (∀ v, M.hasVertex v = (face M.base.face ord M.nbrs).hasVertex v) ∧
    (∀ a b, M.hasEdge a b = (face M.base.face ord M.nbrs).hasEdge a b ∧
      M.isCrossing a b = (face M.base.face ord M.nbrs).isCrossing a b) ∧
    (∀ v, M.neighbors ord v = (face M.base.face ord M.nbrs).neighbors v) ∧
    M.vertices = (face M.base.face ord M.nbrs).vertices ∧
    ∀ ops, M.run ops = match Layer.run M.base.face M.nbrs ops with
      | (O, none) => .ok ⟨M.base, O⟩
      | (_, some e) => .error e := by
  have hdir : ∀ (M : Modified) a b m, M.addDirected a b m =
      match Layer.addDirected M.base.face M.nbrs a b m with
      | (O, none) => .ok ⟨M.base, O⟩
      | (_, some e) => .error e := by
    intro M a b m
    unfold Modified.addDirected Layer.addDirected
    by_cases hab : a = b
    · simp [hab]
    · have he : M.ensure a = ⟨M.base, Layer.ensure M.nbrs a⟩ := by
        unfold Modified.ensure Layer.ensure
        cases Assoc.get M.nbrs a <;> rfl
      simp only [hab, if_false, he]
      have hen : Modified.entry ⟨M.base, Layer.ensure M.nbrs a⟩ a b =
          Layer.entry (Layer.ensure M.nbrs a) a b := rfl
      have hff : Modified.firstFlag ⟨M.base, Layer.ensure M.nbrs a⟩ a b m =
          Layer.firstFlag M.base.face a b m := rfl
      rw [hen]
      cases Layer.entry (Layer.ensure M.nbrs a) a b with
      | some i => rfl
      | none =>
        simp only
        rw [hff]
        cases Layer.firstFlag M.base.face a b m <;> rfl
  have hrem : ∀ (M : Modified) a b, M.removeDirected a b =
      ⟨M.base, Layer.removeDirected M.nbrs a b⟩ := by
    intro M a b
    have he : M.ensure a = ⟨M.base, Layer.ensure M.nbrs a⟩ := by
      unfold Modified.ensure Layer.ensure
      cases Assoc.get M.nbrs a <;> rfl
    unfold Modified.removeDirected
    rw [he]; rfl
  have hstep : ∀ (M : Modified) o, M.step o =
      match Layer.step M.base.face M.nbrs o with
      | (O, none) => .ok ⟨M.base, O⟩
      | (_, some e) => .error e := by
    intro M o
    cases o with
    | addDir a b m => exact hdir M a b m
    | removeDir a b => simp only [Modified.step, Layer.step, hrem]
    | remove a b => simp only [Modified.step, Layer.step, Modified.removeEdge, Layer.removeEdge, hrem]
    | add a b m =>
      simp only [Modified.step, Layer.step, Modified.addEdge, Layer.addEdge, hdir]
      rcases Layer.addDirected M.base.face M.nbrs a b m with ⟨O, _ | e⟩ <;> rfl
  refine ⟨fun v => rfl, fun a b => ⟨rfl, rfl⟩, fun v => ?_, rfl, fun ops => ?_⟩
  · simp only [face, Layer.neighbors, Graph.face, Modified.neighbors]
    by_cases hv : M.base.hasVertex v = true
    · simp only [if_pos hv]
      cases M.base.neighbors v with
      | error e => rfl
      | ok ns => cases Assoc.get M.nbrs v <;> rfl
    · simp only [if_neg hv]
      cases Assoc.get M.nbrs v <;> rfl
  · induction ops generalizing M with
    | nil => rfl
    | cons o r ih =>
      simp only [Modified.run, Layer.run, hstep]
      rcases h : Layer.step M.base.face M.nbrs o with ⟨O, _ | e⟩
      · exact ih ⟨M.base, O⟩
      · rfl

example : (Modified.ofGraph exTri).run [.add ⟨0, 0⟩ ⟨9, 9⟩ true] = .error .exn ∧
    ∃ M, (Modified.ofGraph exTri).run [.add ⟨0, 0⟩ ⟨5, 0⟩ true] = .ok M := by
  refine ⟨?_, ⟨exTri, (Layer.run exTri.face [] [.add ⟨0, 0⟩ ⟨5, 0⟩ true]).1⟩, ?_⟩
  · rw [(C98_modified (Modified.ofGraph exTri) id).2.2.2.2]; rfl
  · rw [(C98_modified (Modified.ofGraph exTri) id).2.2.2.2]; rfl

/-- C98: a pair no operation named is answered by the base, whatever the base is, whatever else
was done and whatever was raised on the way. -/
theorem C98_untouched (B : Face) (ord : List (Coord × Info) → List (Coord × Info)) (ops : List Op)
    (c d : Coord) (h : ∀ e ∈ history ops, e.on c d = false) :
    (face B ord (caught B [] ops)).hasEdge c d = B.hasEdge c d ∧
    (face B ord (caught B [] ops)).isCrossing c d = B.isCrossing c d ∧
    (face B ord (caught B [] ops)).polygons = B.polygons := by
  have ha : about c d (history ops) = [] := by
    simp only [about, List.filter_eq_nil_iff]
    intro e he hx
    rw [h e he] at hx
    simp at hx
  have := Layer.entry_caught_frame B [] ops c d ha
  have h0 : Layer.entry [] c d = none := rfl
  simp only [face, Layer.hasEdge, Layer.isCrossing, this, h0, and_self]

example : (face exTri.face id (caught exTri.face []
      [.add ⟨0, 0⟩ ⟨9, 9⟩ true, .add ⟨0, 0⟩ ⟨9, 9⟩ false, .remove ⟨0, 5⟩ ⟨0, 0⟩])).hasEdge ⟨0, 0⟩ ⟨5, 0⟩ =
    exTri.hasEdge ⟨0, 0⟩ ⟨5, 0⟩ :=
  (C98_untouched exTri.face id _ ⟨0, 0⟩ ⟨5, 0⟩ (by decide)).1

/-- C98: exactly what an overlay answers about a pair, from the changes of that pair which took
place.  If there were none, what the base answers.  Otherwise there is an edge iff the last one was
an addition, and it counts as crossing iff all of them were crossing additions and the base has
either no such edge or a crossing one: one removal or one plain addition makes the pair plain for
good.  The base may be anything; either it answers for the pair, or no operation is an `add_edge`. -/
theorem C98_edge (B : Face) (ord : List (Coord × Info) → List (Coord × Info)) (ops : List Op)
    (c d : Coord) (hcd : c ≠ d)
    (h : (Answers B c d ∧ Answers B d c) ∨ ∀ o ∈ ops, Single o) :
    (heard B c d (history ops) = [] →
      (face B ord (caught B [] ops)).hasEdge c d = B.hasEdge c d ∧
      (face B ord (caught B [] ops)).isCrossing c d = B.isCrossing c d) ∧
    ∀ hl : heard B c d (history ops) ≠ [],
      (face B ord (caught B [] ops)).hasEdge c d =
        .ok ((heard B c d (history ops)).getLast hl).isAdd ∧
      ∃ x, (face B ord (caught B [] ops)).isCrossing c d = .ok x ∧
        (x = true ↔
          (∀ e ∈ heard B c d (history ops), e.isCrossingAdd = true) ∧ Permits B c d) := by
  rcases Layer.entry_heard (B := B) ops hcd h with ⟨h1, h2⟩ | ⟨hl, i, h1, h2, h3⟩
  · refine ⟨fun _ => ?_, fun hl => absurd h1 hl⟩
    simp only [face, Layer.hasEdge, Layer.isCrossing, h2, and_self]
  · refine ⟨fun h => absurd h hl, fun _ => ?_⟩
    simp only [face, Layer.hasEdge, Layer.isCrossing, h1]
    refine ⟨?_, i.crossing, rfl, h3⟩
    rw [Except.ok.injEq, Bool.eq_iff_iff]
    exact h2

example : (face exTri.face id (caught exTri.face []
      [.add ⟨0, 0⟩ ⟨5, 0⟩ true, .remove ⟨0, 0⟩ ⟨5, 0⟩, .addDir ⟨0, 0⟩ ⟨5, 0⟩ true])).hasEdge
      ⟨0, 0⟩ ⟨5, 0⟩ = .ok true := by
  have h := (C98_edge exTri.face id
    [.add ⟨0, 0⟩ ⟨5, 0⟩ true, .remove ⟨0, 0⟩ ⟨5, 0⟩, .addDir ⟨0, 0⟩ ⟨5, 0⟩ true] ⟨0, 0⟩ ⟨5, 0⟩
    (by decide) (Or.inl ⟨exTri_answers.1, exTri_answers.2.1⟩)).2
  have hh : heard exTri.face ⟨0, 0⟩ ⟨5, 0⟩ (history
      [.add ⟨0, 0⟩ ⟨5, 0⟩ true, .remove ⟨0, 0⟩ ⟨5, 0⟩, .addDir ⟨0, 0⟩ ⟨5, 0⟩ true]) =
      [.added ⟨0, 0⟩ ⟨5, 0⟩ true, .removed ⟨0, 0⟩ ⟨5, 0⟩, .added ⟨0, 0⟩ ⟨5, 0⟩ true] := by
    unfold heard
    rw [if_pos exTri_answers.1]
    decide
  simp only [hh] at h
  exact (h (by simp)).1

/-- C98: an addition raises iff it is a crossing one between different coordinates, the base does
not answer for the pair, and nothing about the pair was heard before.  What it leaves: no answer
about any edge has changed, but the first coordinate has become a vertex. -/
theorem C98_raises (B : Face) (ops : List Op)
    (c d : Coord) (hcd : c ≠ d) (m : Bool)
    (h : (Answers B c d ∧ Answers B d c) ∨ ∀ o ∈ ops, Single o) :
    ((Layer.addDirected B (caught B [] ops) c d m).2 ≠ none ↔
      m = true ∧ ¬ Answers B c d ∧ heard B c d (history ops) = []) ∧
    ((Layer.addDirected B (caught B [] ops) c d m).2 ≠ none →
      (∀ a b, Layer.hasEdge B (Layer.addDirected B (caught B [] ops) c d m).1 a b =
          Layer.hasEdge B (caught B [] ops) a b ∧
        Layer.isCrossing B (Layer.addDirected B (caught B [] ops) c d m).1 a b =
          Layer.isCrossing B (caught B [] ops) a b) ∧
      ∀ v, Layer.hasVertex B (Layer.addDirected B (caught B [] ops) c d m).1 v =
        (Layer.hasVertex B (caught B [] ops) v || decide (v = c))) := by
  set O := caught B [] ops with hO
  have hen : O.entry c d = none ↔ heard B c d (history ops) = [] := by
    rcases Layer.entry_heard (B := B) ops hcd h with ⟨h1, h2⟩ | ⟨hl, i, h1, _⟩
    · exact ⟨fun _ => h1, fun _ => h2⟩
    · rw [hO, h1]; exact ⟨fun x => by simp at x, fun x => absurd x hl⟩
  have hraise : (Layer.addDirected B O c d m).2 ≠ none ↔
      m = true ∧ ¬ Answers B c d ∧ O.entry c d = none := by
    unfold Layer.addDirected
    simp only [hcd, if_false, Layer.entry_ensure]
    cases he : O.entry c d with
    | some i => simp
    | none =>
      cases m with
      | false => simp [Layer.firstFlag]
      | true =>
        by_cases hA : Answers B c d
        · obtain ⟨f, hf, _⟩ := Layer.firstFlag_ok hA true
          simp [hf, hA]
        · obtain ⟨e, hf⟩ := Layer.firstFlag_error hA
          simp [hf, hA]
  refine ⟨by rw [hraise, hen], fun hr => ?_⟩
  obtain ⟨hm, hA, he⟩ := hraise.1 hr
  subst hm
  obtain ⟨e, hf⟩ := Layer.firstFlag_error hA
  have hst : (Layer.addDirected B O c d true).1 = O.ensure c := by
    unfold Layer.addDirected
    simp [hcd, Layer.entry_ensure, he, hf]
  rw [hst]
  refine ⟨fun a b => ?_, fun v => ?_⟩
  · simp only [Layer.hasEdge, Layer.isCrossing, Layer.entry_ensure]
    exact ⟨trivial, trivial⟩
  · simp only [Layer.hasVertex, Layer.ensure_known]
    cases B.hasVertex v <;> cases decide (v = c) <;> simp

example : (Layer.addDirected exTri.face (caught exTri.face [] []) ⟨9, 9⟩ ⟨0, 0⟩ true).2 ≠ none ∧
    Layer.hasVertex exTri.face [] ⟨9, 9⟩ = false ∧
    Layer.hasVertex exTri.face
      (Layer.addDirected exTri.face (caught exTri.face [] []) ⟨9, 9⟩ ⟨0, 0⟩ true).1 ⟨9, 9⟩ = true := by
  have hn : ¬ Answers exTri.face ⟨9, 9⟩ ⟨0, 0⟩ := fun h => by
    have := (C98_graph_answers _ exTri_user _ _).1 h
    revert this
    decide
  have hr := (C98_raises exTri.face [] ⟨9, 9⟩ ⟨0, 0⟩ (by decide) true
    (Or.inr (by simp))).1.2 ⟨rfl, hn, by simp [heard, hn, about, history]⟩
  exact ⟨hr, by decide, by
    rw [(C98_raises exTri.face [] ⟨9, 9⟩ ⟨0, 0⟩ (by decide) true (Or.inr (by simp))).2 hr |>.2]
    decide⟩

/-- C98: "`add_edge` adds both directions or, if it raises, neither" is false.  Here the direction
out of a known port was removed before; adding the edge again finds that entry and succeeds, the
direction back asks the base about a coordinate it does not know and raises.  One direction stays. -/
theorem C98_half_false : ∃ (B : Face) (O : Layer) (a b : Coord),
    (Layer.addEdge B O a b true).2 = some .exn ∧
    Layer.hasEdge B O a b = .ok false ∧
    Layer.hasEdge B (Layer.addEdge B O a b true).1 a b = .ok true ∧
    Layer.hasEdge B (Layer.addEdge B O a b true).1 b a = .error .exn :=
  ⟨exTri.face, Layer.removeDirected [] ⟨0, 0⟩ ⟨9, 9⟩, ⟨0, 0⟩, ⟨9, 9⟩, by decide +kernel⟩

/-- C98: an overlay over a base that answers for a pair answers for it as well, so nothing raised
by the lowest graph can be raised higher up for that pair. -/
theorem C98_answers (B : Face) (ord : List (Coord × Info) → List (Coord × Info)) (ops : List Op)
    (c d : Coord) (hcd : c ≠ d) (h1 : Answers B c d) (h2 : Answers B d c) :
    Answers (face B ord (caught B [] ops)) c d := by
  obtain ⟨e1, e2⟩ := C98_edge B ord ops c d hcd (Or.inl ⟨h1, h2⟩)
  by_cases hl : heard B c d (history ops) = []
  · obtain ⟨a1, a2⟩ := e1 hl
    unfold Answers
    rw [a1, a2]
    exact h1
  · obtain ⟨a1, x, a2, _⟩ := e2 hl
    unfold Answers
    rw [a1, a2]
    cases ((heard B c d (history ops)).getLast hl).isAdd
    · exact Or.inl rfl
    · exact Or.inr ⟨rfl, x, rfl⟩

example : Answers (face exTri.face id (caught exTri.face [] [.add ⟨0, 0⟩ ⟨5, 0⟩ true]))
    ⟨0, 0⟩ ⟨5, 0⟩ :=
  C98_answers _ _ _ _ _ (by decide) exTri_answers.1 exTri_answers.2.1

theorem heard_answers {B : Face} {c d : Coord} (h : Answers B c d) (es : List Event) :
    heard B c d es = about c d es := by simp [heard, h]

theorem edge_about (B : Face) (ord : List (Coord × Info) → List (Coord × Info)) (ops : List Op)
    (c d : Coord) (hcd : c ≠ d) (h1 : Answers B c d) (h2 : Answers B d c) (l : List Event)
    (hl : heard B c d (history ops) = l) :
    (l = [] → (face B ord (caught B [] ops)).hasEdge c d = B.hasEdge c d ∧
      (face B ord (caught B [] ops)).isCrossing c d = B.isCrossing c d) ∧
    ∀ hl : l ≠ [], (face B ord (caught B [] ops)).hasEdge c d = .ok (l.getLast hl).isAdd ∧
      ∃ x, (face B ord (caught B [] ops)).isCrossing c d = .ok x ∧
        (x = true ↔ (∀ e ∈ l, e.isCrossingAdd = true) ∧ Permits B c d) := by
  subst hl
  exact C98_edge B ord ops c d hcd (Or.inl ⟨h1, h2⟩)

theorem history_append (l r : List Op) : history (l ++ r) = history l ++ history r := by
  simp [history]

theorem caught_append (B : Face) (O : Layer) (l r : List Op) :
    caught B O (l ++ r) = caught B (caught B O l) r := by
  induction l generalizing O with
  | nil => rfl
  | cons o l ih => exact ih _

/-- C98: two overlays one upon the other against one overlay with all the operations.  There is an
edge in the one iff there is in the other.  Whatever is crossing in the single overlay is crossing
in the pair, and the converse fails exactly where the lower overlay ended by removing the edge and
the upper one added it as crossing and nothing else. -/
theorem C98_stack (B : Face) (ord : List (Coord × Info) → List (Coord × Info))
    (ops1 ops2 : List Op) (c d : Coord) (hcd : c ≠ d) (h1 : Answers B c d) (h2 : Answers B d c) :
    (stack B ord [ops1, ops2]).hasEdge c d = (stack B ord [ops1 ++ ops2]).hasEdge c d ∧
    ((stack B ord [ops1 ++ ops2]).isCrossing c d = .ok true →
      (stack B ord [ops1, ops2]).isCrossing c d = .ok true) ∧
    ((stack B ord [ops1, ops2]).isCrossing c d = .ok true ∧
      (stack B ord [ops1 ++ ops2]).isCrossing c d ≠ .ok true ↔
      (∃ e, (about c d (history ops1)).getLast? = some e ∧ e.isAdd = false) ∧
      about c d (history ops2) ≠ [] ∧
      ∀ e ∈ about c d (history ops2), e.isCrossingAdd = true) := by
  set B1 := face B ord (caught B [] ops1) with hB1
  have k1 : Answers B1 c d := C98_answers B ord ops1 c d hcd h1 h2
  have k2 : Answers B1 d c := C98_answers B ord ops1 d c hcd.symm h2 h1
  have lo := edge_about B ord ops1 c d hcd h1 h2 _ (heard_answers h1 _)
  have up := edge_about B1 ord ops2 c d hcd k1 k2 _ (heard_answers k1 _)
  have fl := edge_about B ord (ops1 ++ ops2) c d hcd h1 h2
    (about c d (history ops1) ++ about c d (history ops2))
    (by rw [heard_answers h1, history_append, Layer.about_append])
  rw [← hB1] at lo
  have hs : stack B ord [ops1, ops2] = face B1 ord (caught B1 [] ops2) := rfl
  have hf : stack B ord [ops1 ++ ops2] = face B ord (caught B [] (ops1 ++ ops2)) := rfl
  rw [hs, hf]
  clear hs hf
  generalize face B1 ord (caught B1 [] ops2) = S at up ⊢
  generalize face B ord (caught B [] (ops1 ++ ops2)) = F at fl ⊢
  generalize about c d (history ops1) = l1 at lo fl ⊢
  generalize about c d (history ops2) = l2 at up fl ⊢
  by_cases e2 : l2 = []
  · obtain ⟨u1, u2⟩ := up.1 e2
    by_cases e1 : l1 = []
    · obtain ⟨a1, a2⟩ := lo.1 e1
      obtain ⟨f1, f2⟩ := fl.1 (by simp [e1, e2])
      refine ⟨by rw [u1, a1, f1], fun x => by rw [u2, a2, ← f2]; exact x, ?_⟩
      rw [u2, a2, f2]
      simp [e2]
    · obtain ⟨a1, x, a2, a3⟩ := lo.2 e1
      obtain ⟨f1, y, f2, f3⟩ := fl.2 (by simp [e1])
      have hxy : x = y := by
        rw [Bool.eq_iff_iff, a3, f3]; simp [e2]
      refine ⟨?_, ?_, ?_⟩
      · rw [u1, a1, f1]; simp [e2]
      · rw [u2, a2, f2, hxy]; exact id
      · rw [u2, a2, f2, hxy]; simp [e2]
  · obtain ⟨u1, x, u2, u3⟩ := up.2 e2
    obtain ⟨f1, y, f2, f3⟩ := fl.2 (by simp [e2])
    have hedge : S.hasEdge c d = F.hasEdge c d := by
      rw [u1, f1, List.getLast_append_of_ne_nil _ e2]
    have hy : y = true ↔ ((∀ e ∈ l1, e.isCrossingAdd = true) ∧ ∀ e ∈ l2, e.isCrossingAdd = true) ∧
        Permits B c d := by
      rw [f3]
      simp only [List.mem_append, or_imp, forall_and]
    by_cases e1 : l1 = []
    · obtain ⟨a1, a2⟩ := lo.1 e1
      have hp : Permits B1 c d ↔ Permits B c d := by unfold Permits; rw [a1, a2]
      have hxy : x = y := by
        rw [Bool.eq_iff_iff, u3, hy, hp]; simp [e1]
      refine ⟨hedge, ?_, ?_⟩
      · rw [u2, f2, hxy]; exact id
      · rw [u2, f2, hxy]; simp [e1]
    · obtain ⟨a1, z, a2, a3⟩ := lo.2 e1
      have hlast : l1.getLast? = some (l1.getLast e1) := List.getLast?_eq_some_getLast e1
      by_cases hrem : (l1.getLast e1).isAdd = false
      · have hp : Permits B1 c d := Or.inl (by rw [a1, hrem])
        have hno : ¬ ∀ e ∈ l1, e.isCrossingAdd = true := fun hx => by
          have h0 := hx _ (List.getLast_mem e1)
          cases hz : l1.getLast e1 with
          | added a b m => rw [hz] at hrem; simp [Event.isAdd] at hrem
          | removed a b => rw [hz] at h0; simp [Event.isCrossingAdd] at h0
        have hyf : y = false := by
          rw [Bool.eq_false_iff]; intro hyt; exact hno (hy.1 hyt).1.1
        refine ⟨hedge, ?_, ?_⟩
        · rw [f2, hyf]; simp
        · rw [u2, f2, hyf, hlast]
          have hx : (Except.ok x : Res Bool) = .ok true ↔ x = true := by simp
          rw [hx, u3]
          simp [hp, hrem, e2]
      · have hadd : (l1.getLast e1).isAdd = true := by simpa using hrem
        have hp : Permits B1 c d ↔ z = true := by
          unfold Permits; rw [a1, a2, hadd]; simp
        have hxy : x = y := by
          rw [Bool.eq_iff_iff, u3, hy, hp, a3]
          exact ⟨fun q => ⟨⟨q.2.1, q.1⟩, q.2.2⟩, fun q => ⟨q.1.2, q.1.1, q.2⟩⟩
        refine ⟨hedge, ?_, ?_⟩
        · rw [u2, f2, hxy]; exact id
        · rw [u2, f2, hxy, hlast]; simp [hadd]

example : (stack exTri.face id [[.remove ⟨0, 0⟩ ⟨5, 0⟩], [.add ⟨0, 0⟩ ⟨5, 0⟩ false]]).hasEdge
      ⟨0, 0⟩ ⟨5, 0⟩ =
    (stack exTri.face id [[.remove ⟨0, 0⟩ ⟨5, 0⟩] ++ [.add ⟨0, 0⟩ ⟨5, 0⟩ false]]).hasEdge
      ⟨0, 0⟩ ⟨5, 0⟩ :=
  (C98_stack exTri.face id _ _ _ _ (by decide) exTri_answers.1 exTri_answers.2.1).1

/-- C98: "an overlay upon an overlay is the overlay with all the operations" is false: an edge
removed in the lower one and added again as crossing is crossing in the pair, plain in the single
overlay. -/
theorem C98_stack_false : ∃ (g : Graph) (ops1 ops2 : List Op) (c d : Coord), UserGraph g ∧
    OpsOn g.verts ops1 ∧ OpsOn g.verts ops2 ∧
    (stack g.face id [ops1, ops2]).isCrossing c d = .ok true ∧
    (stack g.face id [ops1 ++ ops2]).isCrossing c d = .ok false :=
  ⟨exTri, [.remove ⟨0, 0⟩ ⟨5, 0⟩], [.add ⟨0, 0⟩ ⟨5, 0⟩ true], ⟨0, 0⟩, ⟨5, 0⟩, exTri_user,
    by simp only [OpsOn]; decide, by simp only [OpsOn]; decide, by decide +kernel, by decide +kernel⟩

/-- C98: any number of overlays: there is an edge iff the last change of the pair, over all of them
from the lowest to the highest, was an addition; without a change the lowest graph answers. -/
theorem C98_depth (B : Face) (ord : List (Coord × Info) → List (Coord × Info))
    (levels : List (List Op)) (c d : Coord) (hcd : c ≠ d) (h1 : Answers B c d)
    (h2 : Answers B d c) :
    (about c d (history levels.flatten) = [] →
      (stack B ord levels).hasEdge c d = B.hasEdge c d ∧
      (stack B ord levels).isCrossing c d = B.isCrossing c d) ∧
    (∀ hl : about c d (history levels.flatten) ≠ [], (stack B ord levels).hasEdge c d =
      .ok ((about c d (history levels.flatten)).getLast hl).isAdd) ∧
    Answers (stack B ord levels) c d := by
  induction levels generalizing B with
  | nil => exact ⟨fun _ => ⟨rfl, rfl⟩, fun hl => absurd rfl hl, h1⟩
  | cons ops r ih =>
    have lo := C98_edge B ord ops c d hcd (Or.inl ⟨h1, h2⟩)
    obtain ⟨i1, i2, i3⟩ := ih (face B ord (caught B [] ops))
      (C98_answers B ord ops c d hcd h1 h2) (C98_answers B ord ops d c hcd.symm h2 h1)
    simp only [heard_answers h1] at lo
    simp only [List.flatten_cons, history_append, Layer.about_append]
    refine ⟨fun hn => ?_, fun hl => ?_, i3⟩
    · obtain ⟨n1, n2⟩ := List.append_eq_nil_iff.1 hn
      obtain ⟨a1, a2⟩ := lo.1 n1
      obtain ⟨b1, b2⟩ := i1 n2
      exact ⟨b1.trans a1, b2.trans a2⟩
    · by_cases hr : about c d (history r.flatten) = []
      · have hne : about c d (history ops) ≠ [] := fun hx => hl (by simp [hx, hr])
        have := (i1 hr).1.trans (lo.2 hne).1
        refine Eq.trans this ?_
        simp [hr]
      · rw [List.getLast_append_of_ne_nil _ hr]
        exact i2 hr

example : (stack exTri.face id [[.add ⟨0, 0⟩ ⟨5, 0⟩ true], [.remove ⟨5, 0⟩ ⟨0, 0⟩], []]).hasEdge
      ⟨0, 0⟩ ⟨5, 0⟩ = .ok false :=
  (C98_depth exTri.face id [[.add ⟨0, 0⟩ ⟨5, 0⟩ true], [.remove ⟨5, 0⟩ ⟨0, 0⟩], []] ⟨0, 0⟩ ⟨5, 0⟩
    (by decide) exTri_answers.1 exTri_answers.2.1).2.1 (by decide)

/-- C98: at any depth over a graph made from polygons, whatever was done and raised and in
whatever order the maps iterate: every vertex lists its neighbours, they are exactly the
coordinates it has an edge to, only vertices have edges, and `get_vertices` lists exactly what
`has_vertex` accepts. -/
theorem C98_neighbors (g : Graph) (hg : UserGraph g)
    (ord : List (Coord × Info) → List (Coord × Info)) (hord : ∀ l, (ord l).Perm l)
    (levels : List (List Op)) : Coherent (stack g.face ord levels) := by
  have key : ∀ (levels : List (List Op)) (B : Face), Coherent B → Coherent (stack B ord levels) := by
    intro levels
    induction levels with
    | nil => exact fun B h => h
    | cons ops r ih =>
      exact fun B h => ih _ (Layer.coherent h ord hord (Layer.caught_keys Layer.keys_nil B ops))
  exact key levels _ (Layer.graph_coherent hg.regular)

example : ∃ ns, (stack exTri.face id [[.addDir ⟨9, 9⟩ ⟨0, 0⟩ true], [.add ⟨9, 9⟩ ⟨0, 0⟩ false]]).neighbors
    ⟨9, 9⟩ = .ok ns ∧ ⟨0, 0⟩ ∈ ns := by
  obtain ⟨ns, h1, h2⟩ := (C98_neighbors exTri exTri_user id (fun l => List.Perm.refl _)
    [[.addDir ⟨9, 9⟩ ⟨0, 0⟩ true], [.add ⟨9, 9⟩ ⟨0, 0⟩ false]]).neighbors ⟨9, 9⟩ (by decide +kernel)
  exact ⟨ns, h1, (h2 _).2 (by decide +kernel)⟩

/-- C98: the vertices of an overlay are those of its base and those at which a change started, a
removal too, and an addition that raised too: `remove_edge` between two coordinates nobody knows
makes both of them vertices.  The end of a directed edge does not become one.  `add_edge` may stop
half way, hence only one inclusion if it is used. -/
theorem C98_vertices (B : Face) (ord : List (Coord × Info) → List (Coord × Info)) (ops : List Op)
    (v : Coord) :
    ((face B ord (caught B [] ops)).hasVertex v = true →
      B.hasVertex v = true ∨ ∃ e ∈ history ops, e.startsAt v = true) ∧
    ((∀ o ∈ ops, Single o) → (B.hasVertex v = true ∨ ∃ e ∈ history ops, e.startsAt v = true) →
      (face B ord (caught B [] ops)).hasVertex v = true) := by
  have hrem : ∀ (O : Layer) a b, (Assoc.get (O.removeDirected a b) v).isSome =
      (decide (v = a) || (Assoc.get O v).isSome) := by
    intro O a b
    unfold Layer.removeDirected
    rw [Layer.setEntry_known, Layer.ensure_known]
    cases decide (v = a) <;> simp
  have step1 : ∀ (O : Layer) o, (Assoc.get (O.step B o).1 v).isSome = true →
      (Assoc.get O v).isSome = true ∨ ∃ e ∈ eventsOf o, e.startsAt v = true := by
    intro O o h
    cases o with
    | add a b m =>
      simp only [Layer.step, Layer.addEdge_fst] at h
      split at h
      · simp only [Layer.addDirected_known, Bool.or_eq_true, decide_eq_true_eq] at h
        rcases h with h | h | h
        · exact Or.inr ⟨.added b a m, by simp [eventsOf], by simpa [Event.startsAt] using h⟩
        · exact Or.inr ⟨.added a b m, by simp [eventsOf], by simpa [Event.startsAt] using h⟩
        · exact Or.inl h
      · simp only [Layer.addDirected_known, Bool.or_eq_true, decide_eq_true_eq] at h
        rcases h with h | h
        · exact Or.inr ⟨.added a b m, by simp [eventsOf], by simpa [Event.startsAt] using h⟩
        · exact Or.inl h
    | addDir a b m =>
      simp only [Layer.step, Layer.addDirected_known, Bool.or_eq_true, decide_eq_true_eq] at h
      rcases h with h | h
      · exact Or.inr ⟨.added a b m, by simp [eventsOf], by simpa [Event.startsAt] using h⟩
      · exact Or.inl h
    | remove a b =>
      simp only [Layer.step, Layer.removeEdge, hrem, Bool.or_eq_true, decide_eq_true_eq] at h
      rcases h with h | h | h
      · exact Or.inr ⟨.removed b a, by simp [eventsOf], by simpa [Event.startsAt] using h⟩
      · exact Or.inr ⟨.removed a b, by simp [eventsOf], by simpa [Event.startsAt] using h⟩
      · exact Or.inl h
    | removeDir a b =>
      simp only [Layer.step, hrem, Bool.or_eq_true, decide_eq_true_eq] at h
      rcases h with h | h
      · exact Or.inr ⟨.removed a b, by simp [eventsOf], by simpa [Event.startsAt] using h⟩
      · exact Or.inl h
  have step2 : ∀ (O : Layer) o, Single o → ((Assoc.get O v).isSome = true ∨
      ∃ e ∈ eventsOf o, e.startsAt v = true) → (Assoc.get (O.step B o).1 v).isSome = true := by
    intro O o ho h
    cases o with
    | add a b m => exact absurd ho id
    | addDir a b m =>
      simp only [Layer.step, Layer.addDirected_known, Bool.or_eq_true, decide_eq_true_eq]
      rcases h with h | ⟨e, he, h⟩
      · exact Or.inr h
      · simp only [eventsOf, List.mem_singleton] at he
        subst he
        exact Or.inl (by simpa [Event.startsAt] using h)
    | remove a b =>
      simp only [Layer.step, Layer.removeEdge, hrem, Bool.or_eq_true, decide_eq_true_eq]
      rcases h with h | ⟨e, he, h⟩
      · exact Or.inr (Or.inr h)
      · simp only [eventsOf, List.mem_cons, List.not_mem_nil, or_false] at he
        rcases he with rfl | rfl
        · exact Or.inr (Or.inl (by simpa [Event.startsAt] using h))
        · exact Or.inl (by simpa [Event.startsAt] using h)
    | removeDir a b =>
      simp only [Layer.step, hrem, Bool.or_eq_true, decide_eq_true_eq]
      rcases h with h | ⟨e, he, h⟩
      · exact Or.inr h
      · simp only [eventsOf, List.mem_singleton] at he
        subst he
        exact Or.inl (by simpa [Event.startsAt] using h)
  have all1 : ∀ (ops : List Op) (O : Layer), (Assoc.get (caught B O ops) v).isSome = true →
      (Assoc.get O v).isSome = true ∨ ∃ e ∈ history ops, e.startsAt v = true := by
    intro ops
    induction ops with
    | nil => exact fun O h => Or.inl h
    | cons o r ih =>
      intro O h
      rcases ih _ h with h | ⟨e, he, h⟩
      · rcases step1 O o h with h | ⟨e, he, h⟩
        · exact Or.inl h
        · exact Or.inr ⟨e, List.mem_append_left _ he, h⟩
      · exact Or.inr ⟨e, List.mem_append_right _ he, h⟩
  have all2 : ∀ (ops : List Op) (O : Layer), (∀ o ∈ ops, Single o) →
      ((Assoc.get O v).isSome = true ∨ ∃ e ∈ history ops, e.startsAt v = true) →
      (Assoc.get (caught B O ops) v).isSome = true := by
    intro ops
    induction ops with
    | nil =>
      rintro O - (h | ⟨e, he, -⟩)
      · exact h
      · exact absurd he (by simp [history])
    | cons o r ih =>
      intro O ho h
      refine ih _ (fun x hx => ho x (by simp [hx])) ?_
      rcases h with h | ⟨e, he, h⟩
      · exact Or.inl (step2 O o (ho o (by simp)) (Or.inl h))
      · rcases List.mem_append.1 (show e ∈ eventsOf o ++ history r from he) with he | he
        · exact Or.inl (step2 O o (ho o (by simp)) (Or.inr ⟨e, he, h⟩))
        · exact Or.inr ⟨e, he, h⟩
  simp only [face, Layer.hasVertex, Bool.or_eq_true]
  constructor
  · rintro (h | h)
    · exact Or.inl h
    · rcases all1 ops [] h with h | h
      · simp [Assoc.get] at h
      · exact Or.inr h
  · rintro ho (h | h)
    · exact Or.inl h
    · exact Or.inr (all2 ops [] ho (Or.inr h))

example : (face exTri.face id (caught exTri.face [] [.remove ⟨8, 8⟩ ⟨9, 9⟩])).hasVertex ⟨9, 9⟩ = true ∧
    (face exTri.face id (caught exTri.face [] [.addDir ⟨8, 8⟩ ⟨9, 9⟩ false])).hasVertex ⟨9, 9⟩ = false := by
  refine ⟨(C98_vertices exTri.face id [.remove ⟨8, 8⟩ ⟨9, 9⟩] ⟨9, 9⟩).2 (by simp [Single])
    (Or.inr ⟨.removed ⟨9, 9⟩ ⟨8, 8⟩, by decide, by decide⟩), ?_⟩
  rw [Bool.eq_false_iff]
  intro h
  rcases (C98_vertices exTri.face id [.addDir ⟨8, 8⟩ ⟨9, 9⟩ false] ⟨9, 9⟩).1 h with h | ⟨e, he, h⟩
  · revert h; decide
  · revert e; decide

/-- C98: `add_vertex`, after anything: the coordinate is a vertex, no other coordinate becomes one, no
answer about an edge changes, and no neighbour appears or vanishes anywhere.  A coordinate that was a
vertex already changes nothing at all, so that nothing is ever listed twice because of it. -/
theorem C98_add_vertex (B : Face) (ord : List (Coord × Info) → List (Coord × Info))
    (hord : ∀ l, (ord l).Perm l) (O : Layer) (v : Coord) :
    (∀ u, (face B ord (O.addVertex B v)).hasVertex u =
      ((face B ord O).hasVertex u || decide (u = v))) ∧
    (∀ c d, (face B ord (O.addVertex B v)).hasEdge c d = (face B ord O).hasEdge c d ∧
      (face B ord (O.addVertex B v)).isCrossing c d = (face B ord O).isCrossing c d) ∧
    (∀ u, (face B ord (O.addVertex B v)).neighbors u = (face B ord O).neighbors u) ∧
    (Coherent B → (face B ord (O.addVertex B v)).vertices.count v =
      max 1 ((face B ord O).vertices.count v)) := by
  have hkeys : ∀ (O : Layer), Assoc.get O v = none →
      (Assoc.set O v []).map Prod.fst = O.map Prod.fst ++ [v] := by
    intro O
    induction O with
    | nil => intro _; rfl
    | cons p r ih =>
      intro h
      simp only [Assoc.get] at h
      split_ifs at h with hp
      simp only [Assoc.set, if_neg hp, List.map_cons, ih h, List.cons_append]
  have hmem : ∀ (O : Layer), v ∈ O.map Prod.fst ↔ (Assoc.get O v).isSome = true := by
    intro O
    have := Assoc.get_eq_none O v
    cases hg : Assoc.get O v with
    | none => simp [this.1 hg]
    | some l =>
      simp only [Option.isSome_some, iff_true]
      by_contra hn
      rw [this.2 hn] at hg; simp at hg
  by_cases hv : Layer.hasVertex B O v = true
  · have hO : O.addVertex B v = O := by unfold Layer.addVertex; rw [if_pos hv]
    rw [hO]
    refine ⟨fun u => ?_, fun c d => ⟨rfl, rfl⟩, fun u => rfl, fun hB => ?_⟩
    · by_cases hu : u = v
      · subst hu
        simp only [face, hv]; simp
      · simp [hu]
    · have hm : v ∈ (face B ord O).vertices := by
        simp only [face, Layer.vertices, List.mem_append, hB.vertices, hmem]
        simpa [Layer.hasVertex] using hv
      have := List.count_pos_iff.2 hm
      omega
  · have hO : O.addVertex B v = Assoc.set O v [] := by unfold Layer.addVertex; rw [if_neg hv]
    have hno : B.hasVertex v = false ∧ Assoc.get O v = none := by
      simpa [Layer.hasVertex] using hv
    rw [hO]
    have hget : ∀ u, Assoc.get (Assoc.set O v []) u = if v = u then some [] else Assoc.get O u :=
      fun u => Assoc.get_set _ _ _ _
    have hentry : ∀ c d, Layer.entry (Assoc.set O v []) c d = Layer.entry O c d := by
      intro c d
      unfold Layer.entry
      rw [hget]
      split_ifs with h
      · subst h; simp [hno.2, Assoc.get]
      · rfl
    refine ⟨fun u => ?_, fun c d => ?_, fun u => ?_, fun hB => ?_⟩
    · simp only [face, Layer.hasVertex, hget]
      by_cases hu : u = v
      · subst hu; simp
      · simp [hu, Ne.symm hu]
    · simp only [face, Layer.hasEdge, Layer.isCrossing, hentry, and_self]
    · simp only [face, Layer.neighbors, hget]
      by_cases hu : v = u
      · subst hu
        have ho : ord [] = [] := List.perm_nil.1 (hord [])
        simp [hno.1, hno.2, Modified.overlayLoop, ho]
      · simp [hu]
    · have hb : B.vertices.count v = 0 := by
        rw [List.count_eq_zero, hB.vertices, hno.1]; simp
      have ho : (O.map Prod.fst).count v = 0 := by
        rw [List.count_eq_zero, hmem, hno.2]; simp
      simp only [face, Layer.vertices, hkeys O hno.2, List.count_append, hb, ho]
      simp

example : (face exTri.face id (Layer.addVertex exTri.face [] ⟨9, 9⟩)).vertices.count ⟨9, 9⟩ = 1 ∧
    (face exTri.face id (Layer.addVertex exTri.face [] ⟨0, 0⟩)).vertices.count ⟨0, 0⟩ = 1 := by
  have hB := Layer.graph_coherent exTri_regular
  constructor
  · rw [(C98_add_vertex exTri.face id (fun l => List.Perm.refl _) [] ⟨9, 9⟩).2.2.2 hB]; decide
  · rw [(C98_add_vertex exTri.face id (fun l => List.Perm.refl _) [] ⟨0, 0⟩).2.2.2 hB]; decide

/-- C98: how often an overlay lists a neighbour: as often as the base does if it holds nothing
about the pair, never if it holds a removal, once more than the base if it holds an addition.  So an
edge present at the bottom and added again in each of `n` overlays is listed `n + 1` times. -/
theorem C98_count (B : Face) (ord : List (Coord × Info) → List (Coord × Info))
    (hord : ∀ l, (ord l).Perm l) (ops : List Op) (c d : Coord) (hcd : c ≠ d)
    (h : (Answers B c d ∧ Answers B d c) ∨ ∀ o ∈ ops, Single o) (ns : List Coord)
    (hns : (if B.hasVertex c then B.neighbors c else .ok []) = .ok ns) :
    ∃ ms, (face B ord (caught B [] ops)).neighbors c = .ok ms ∧
      ms.count d = match (heard B c d (history ops)).getLast? with
        | none => ns.count d
        | some e => if e.isAdd then ns.count d + 1 else 0 := by
  have hk := Layer.caught_keys Layer.keys_nil B ops
  have hen := Layer.entry_heard (B := B) ops hcd h
  set O := caught B [] ops
  simp only [face, Layer.neighbors, hns, Res.bind_ok]
  cases hg : Assoc.get O c with
  | none =>
    have he : O.entry c d = none := by unfold Layer.entry; rw [hg]; rfl
    rcases hen with ⟨h1, _⟩ | ⟨_, i, h1, _⟩
    · exact ⟨ns, rfl, by rw [h1]; rfl⟩
    · rw [he] at h1; simp at h1
  | some l =>
    have he : O.entry c d = Assoc.get l d := by unfold Layer.entry; rw [hg]; rfl
    have hkl := hk.2 c l hg
    have hko : ((ord l).map Prod.fst).Nodup := ((hord l).map _).nodup_iff.2 hkl
    refine ⟨_, rfl, ?_⟩
    rw [Layer.overlayLoop_count _ _ _ hko, Modified.get_perm (hord l) hkl, ← he]
    rcases hen with ⟨h1, h2⟩ | ⟨hl, i, h1, h2, _⟩
    · rw [h1, h2]; rfl
    · rw [h1, List.getLast?_eq_some_getLast hl]
      simp only [h2]

example : ∃ ms, (face exTri.face id (caught exTri.face [] [.add ⟨0, 0⟩ ⟨5, 0⟩ true])).neighbors ⟨0, 0⟩ =
    .ok ms ∧ ms.count ⟨5, 0⟩ = 1 := by
  obtain ⟨ms, h1, h2⟩ := C98_count exTri.face id (fun l => List.Perm.refl _)
    [.add ⟨0, 0⟩ ⟨5, 0⟩ true] ⟨0, 0⟩ ⟨5, 0⟩ (by decide)
    (Or.inl ⟨exTri_answers.1, exTri_answers.2.1⟩) [] (by decide +kernel)
  refine ⟨ms, h1, ?_⟩
  rw [heard_answers exTri_answers.1] at h2
  exact h2

/-- C98: so listing a neighbour twice happens: an edge of the graph, added again in two overlays,
is listed three times. -/
theorem C98_once_false : ∃ (g : Graph) (levels : List (List Op)) (c d : Coord) (ns : List Coord),
    UserGraph g ∧ (∀ ops ∈ levels, OpsOn g.verts ops) ∧
    (stack g.face id levels).neighbors c = .ok ns ∧ ns.count d = 3 := by
  refine ⟨((Graph.ofPolygons [[⟨0, 0⟩, ⟨5, 0⟩, ⟨0, 5⟩]]).run [.add ⟨0, 0⟩ ⟨5, 0⟩ false]).toOption.getD
      Graph.empty, [[.add ⟨0, 0⟩ ⟨5, 0⟩ false], [.add ⟨0, 0⟩ ⟨5, 0⟩ false]], ⟨0, 0⟩, ⟨5, 0⟩,
    [⟨5, 0⟩, ⟨5, 0⟩, ⟨5, 0⟩], ⟨[[⟨0, 0⟩, ⟨5, 0⟩, ⟨0, 5⟩]], [.add ⟨0, 0⟩ ⟨5, 0⟩ false], ?_, ?_, rfl⟩,
    ?_, by decide +kernel, by decide⟩
  · simp [Op.undirected]
  · simp only [OpsOn]; decide
  · simp only [OpsOn]; decide +kernel

end Capi
