import Verif.Lemmas.ModifiedGraph

/-!
# C26, C27 — overlay graphs
-/

namespace Capi

open Modified
open Graph (Op)

/-- C26: a query about an ordered pair never named by an update answers like the base graph,
whatever else was updated (also at coordinates unknown to the base), and the base graph is
never modified. -/
theorem C26_read_through (g : Graph) (ops : List Op) (M : Modified)
    (h : (ofGraph g).run ops = .ok M) :
    M.base = g ∧ ∀ c d : Coord, (∀ e ∈ history ops, e.pair ≠ (c, d)) →
      M.hasEdge c d = g.hasEdge c d ∧ M.isCrossing c d = g.isCrossing c d := by
  rw [Modified.run_events] at h
  have hb : M.base = g := (events_base h).1
  refine ⟨hb, fun c d hne => ?_⟩
  obtain ⟨_, h2⟩ := events_frame h c d hne
  have : M.entry c d = none := by rw [h2]; rfl
  unfold Modified.hasEdge Modified.isCrossing
  rw [this, hb]
  exact ⟨rfl, rfl⟩

example : ∃ M, (ofGraph (Graph.ofPolygons [[⟨0, 0⟩, ⟨1, 0⟩]])).run [.addDir ⟨0, 0⟩ ⟨9, 9⟩ false] = .ok M ∧
    M.base.num = 2 ∧ M.hasEdge ⟨0, 0⟩ ⟨9, 9⟩ = .ok true ∧ M.hasEdge ⟨1, 0⟩ ⟨0, 0⟩ = .ok false := by
  refine ⟨_, rfl, rfl, by decide, ?_⟩
  rw [((C26_read_through _ [.addDir ⟨0, 0⟩ ⟨9, 9⟩ false] _ rfl).2 ⟨1, 0⟩ ⟨0, 0⟩ (by decide)).1]
  decide

/-- C26: in any overlay state an update changes the answers for the pairs it names only. -/
theorem C26_frame (M M' : Modified) (o : Op) (h : M.step o = .ok M') (c d : Coord)
    (hne : ∀ e ∈ eventsOf o, e.pair ≠ (c, d)) :
    M'.base = M.base ∧ M'.hasEdge c d = M.hasEdge c d ∧ M'.isCrossing c d = M.isCrossing c d := by
  rw [Modified.step_events] at h
  obtain ⟨h1, h2⟩ := events_frame h c d hne
  unfold Modified.hasEdge Modified.isCrossing
  rw [h2, h1]
  exact ⟨rfl, rfl, rfl⟩

example : ∃ M', (ofGraph (Graph.ofPolygons [[⟨0, 0⟩, ⟨1, 0⟩]])).step (.addDir ⟨0, 0⟩ ⟨9, 9⟩ false) = .ok M' ∧
    M'.hasEdge ⟨1, 0⟩ ⟨0, 0⟩ =
      (ofGraph (Graph.ofPolygons [[⟨0, 0⟩, ⟨1, 0⟩]])).hasEdge ⟨1, 0⟩ ⟨0, 0⟩ :=
  ⟨_, rfl, (C26_frame _ _ (.addDir ⟨0, 0⟩ ⟨9, 9⟩ false) rfl _ _ (by decide)).2.1⟩

/-- C26: what was written is read back.  Removals and plain additions never fail, also for
coordinates unknown to the base graph. -/
theorem C26_read_back (M : Modified) (a b : Coord) (hab : a ≠ b) :
    (∃ M', M.addDirected a b false = .ok M' ∧ M'.hasEdge a b = .ok true ∧
      M'.isCrossing a b = .ok false ∧ M'.hasVertex a = true) ∧
    (∀ M', M.addDirected a b true = .ok M' → M'.hasEdge a b = .ok true) ∧
    (M.removeDirected a b).hasEdge a b = .ok false ∧
    (M.removeDirected a b).isCrossing a b = .ok false := by
  refine ⟨?_, ?_, ?_, ?_⟩
  · have hok : ∃ M', M.addDirected a b false = .ok M' := by
      unfold Modified.addDirected
      rw [if_neg hab]
      simp only [entry_ensure]
      cases M.entry a b <;> exact ⟨_, rfl⟩
    obtain ⟨M', hM'⟩ := hok
    obtain ⟨_, _, ⟨hc, _⟩ | ⟨_, f, h3, h4⟩⟩ := addDirected_inv hM'
    · exact absurd hc hab
    have hf : f = false := by
      cases he : M.entry a b with
      | none =>
        rw [he] at h3
        simpa [firstFlag] using h3.symm
      | some i =>
        rw [he] at h3
        simpa using h3
    have he := h4 a b
    rw [if_pos ⟨rfl, rfl⟩] at he
    refine ⟨M', hM', ?_, ?_, ?_⟩
    · unfold Modified.hasEdge; rw [he]
    · unfold Modified.isCrossing; rw [he, hf]
    · unfold Modified.hasVertex
      unfold Modified.entry at he
      cases hg : Assoc.get M'.nbrs a with
      | none => rw [hg] at he; simp at he
      | some l => simp
  · intro M' hM'
    obtain ⟨_, _, ⟨hc, _⟩ | ⟨_, f, h3, h4⟩⟩ := addDirected_inv hM'
    · exact absurd hc hab
    unfold Modified.hasEdge
    rw [h4, if_pos ⟨rfl, rfl⟩]
  · obtain ⟨_, _, h⟩ := removeDirected_inv M a b
    unfold Modified.hasEdge
    rw [h, if_pos ⟨rfl, rfl⟩]
  · obtain ⟨_, _, h⟩ := removeDirected_inv M a b
    unfold Modified.isCrossing
    rw [h, if_pos ⟨rfl, rfl⟩]

example : ((ofGraph (Graph.ofPolygons [[⟨0, 0⟩, ⟨1, 0⟩]])).removeDirected ⟨0, 0⟩ ⟨1, 0⟩).hasEdge
    ⟨0, 0⟩ ⟨1, 0⟩ = .ok false := (C26_read_back _ _ _ (by decide)).2.2.1

/-- C26: adding a vertex makes exactly this vertex known and changes no answer about edges; the
overlay may hold anything beforehand. -/
theorem C26_add_vertex (M : Modified) (v : Coord) :
    (∀ w, (M.addVertex v).hasVertex w = true ↔ M.hasVertex w = true ∨ w = v) ∧
    ∀ a b, (M.addVertex v).hasEdge a b = M.hasEdge a b ∧
      (M.addVertex v).isCrossing a b = M.isCrossing a b ∧
      ∀ ord, ord [] = [] → (M.addVertex v).neighbors ord a = M.neighbors ord a := by
  unfold Modified.addVertex
  by_cases hv : M.hasVertex v = true
  · rw [if_pos hv]
    refine ⟨fun w => ⟨Or.inl, ?_⟩, fun a b => ⟨rfl, rfl, fun _ _ => rfl⟩⟩
    rintro (h | rfl)
    · exact h
    · exact hv
  · rw [if_neg hv]
    have hn : Assoc.get M.nbrs v = none := by
      unfold Modified.hasVertex at hv
      cases h : Assoc.get M.nbrs v with
      | none => rfl
      | some l => rw [h] at hv; simp at hv
    have hg : ∀ w, Assoc.get (Assoc.set M.nbrs v []) w =
        if v = w then some [] else Assoc.get M.nbrs w := fun w => Assoc.get_set _ _ _ _
    refine ⟨fun w => ?_, fun a b => ?_⟩
    · unfold Modified.hasVertex
      simp only [hg, Bool.or_eq_true]
      by_cases h : v = w
      · simp [h]
      · rw [if_neg h]
        have : w ≠ v := fun h' => h h'.symm
        simp [this]
    · have he : Modified.entry { M with nbrs := Assoc.set M.nbrs v [] } a b = M.entry a b := by
        unfold Modified.entry
        simp only [hg]
        by_cases h : v = a
        · subst h; simp [hn, Assoc.get]
        · rw [if_neg h]
      refine ⟨?_, ?_, fun ord hord => ?_⟩
      · unfold Modified.hasEdge; rw [he]
      · unfold Modified.isCrossing; rw [he]
      · unfold Modified.neighbors
        simp only [hg]
        by_cases h : v = a
        · subst h; simp [hn, hord, Modified.overlayLoop]
        · rw [if_neg h]

/-- C26: the vertices listed by an overlay are the known ones. -/
theorem C26_vertices (M : Modified) (hg : UserGraph M.base) (w : Coord) :
    w ∈ M.vertices ↔ M.hasVertex w = true := by
  unfold Modified.vertices Modified.hasVertex
  rw [List.mem_append, Bool.or_eq_true]
  refine or_congr (hg.regular.built.shape.dom w).symm ?_
  rw [Option.isSome_iff_ne_none, ne_eq, Assoc.get_eq_none, not_not]

/-- C26: a base vertex with overlay entries is listed twice. -/
theorem C26_vertices_repeated :
    (do let M ← (ofGraph (Graph.ofPolygons [[⟨0, 0⟩, ⟨1, 0⟩]])).addEdge ⟨0, 0⟩ ⟨1, 0⟩ false
        pure M.vertices) = (.ok [⟨0, 0⟩, ⟨1, 0⟩, ⟨0, 0⟩, ⟨1, 0⟩] : Res _) := by decide +kernel

/-- C27 (partial: histories over base vertices; the crossing flag only for pairs never
removed).  The overlay and the updated base graph give the same `has_edge` answers, also after
removals, and the same crossing answers for pairs never removed; a crossing edge of the overlay
is always a crossing edge of the updated graph. -/
theorem C27_refines_partial (g : Graph) (hg : UserGraph g) (ops : List Op)
    (ho : OpsOn g.verts ops) :
    ∃ M G, (ofGraph g).run ops = .ok M ∧ g.run ops = .ok G ∧
      ∀ a ∈ g.verts, ∀ b ∈ g.verts,
        M.hasEdge a b = G.hasEdge a b ∧
        (Event.removed a b ∉ history ops → M.isCrossing a b = G.isCrossing a b) ∧
        (M.isCrossing a b = .ok true → G.isCrossing a b = .ok true) := by
  have rg := hg.regular
  have hs := rg.built.shape
  obtain ⟨M, G, h1, h2, h3⟩ := refines_events hs (refines_start hs rg.small) (history ops)
    (history_known ho)
  rw [List.nil_append] at h3
  refine ⟨M, G, by rw [Modified.run_events]; exact h1, by rw [Graph.run_events]; exact h2, ?_⟩
  intro a ha b hb
  have ha' := h3.verts.symm ▸ ha
  have hb' := h3.verts.symm ▸ hb
  have hp := h3.pair a ha b hb
  unfold Modified.hasEdge Modified.isCrossing
  rw [Graph.hasEdge_ok h3.shape ha' hb', Graph.isCrossing_ok h3.shape ha' hb']
  cases he : M.entry a b with
  | none =>
    rw [he] at hp
    simp only at hp
    rw [h3.base, Graph.hasEdge_ok hs ha hb, Graph.isCrossing_ok hs ha hb, hp]
    exact ⟨rfl, fun _ => rfl, id⟩
  | some i =>
    rw [he] at hp
    obtain ⟨p1, p2, p3, p4⟩ := hp
    simp only [Except.ok.injEq]
    refine ⟨?_, ?_, ?_⟩
    · by_cases hab : a = b
      · rw [(p2 hab).1]; simp [hab]
      · rw [Bool.eq_iff_iff, p1 hab, Bool.and_eq_true, bne_iff_ne, bne_iff_ne]
        exact ⟨fun h => ⟨hab, h⟩, fun h => h.2⟩
    · intro hn
      obtain ⟨hab, _, h5⟩ := p4 hn
      rw [Bool.eq_iff_iff, h5, Bool.and_eq_true, bne_iff_ne, beq_iff_eq]
      exact ⟨fun h => ⟨hab, h⟩, fun h => h.2⟩
    · intro hc
      have h5 := p3 hc
      rw [Bool.and_eq_true, bne_iff_ne, beq_iff_eq]
      refine ⟨fun hab => ?_, h5⟩
      rw [(p2 hab).2] at hc; simp at hc

/-- C27: the neighbours listed by an overlay (over an undirected base graph) are exactly the
vertices it has an edge to, for every iteration order and also at new vertices.  (Multiplicity
is not claimed: see `C27_duplicate_neighbor_false`.) -/
theorem C27_neighbors (g : Graph) (hg : UserGraph g) (ops : List Op) (M : Modified)
    (h : (ofGraph g).run ops = .ok M) (ord : List (Coord × Info) → List (Coord × Info))
    (hord : ∀ l, (ord l).Perm l) (v : Coord) :
    ∃ ns, M.neighbors ord v = .ok ns ∧ ∀ w, w ∈ ns ↔ M.hasEdge v w = .ok true := by
  rw [Modified.run_events] at h
  obtain ⟨hb, hk⟩ := events_base h
  exact neighbors_hasEdge hg.regular hb (hk fun a l h => by simp [ofGraph, Assoc.get] at h) ord
    hord v

example : ∃ M ns, (ofGraph Graph.empty).run [.addDir ⟨0, 0⟩ ⟨9, 9⟩ false] = .ok M ∧
    M.neighbors List.reverse ⟨0, 0⟩ = .ok ns ∧ ⟨9, 9⟩ ∈ ns := by
  have hu : UserGraph Graph.empty := ⟨[], [], by simp, by simp [OpsOn], rfl⟩
  obtain ⟨ns, h1, h2⟩ := C27_neighbors Graph.empty hu [.addDir ⟨0, 0⟩ ⟨9, 9⟩ false] _ rfl List.reverse
    List.reverse_perm ⟨0, 0⟩
  exact ⟨_, ns, rfl, h1, (h2 _).2 (by decide)⟩

/-- C27 is false for a crossing re-addition after a removal: the ordinary graph reports the edge
as crossing, the overlay as plain. -/
theorem C27_readd_crossing_false :
    (do let g := Graph.ofPolygons [[⟨0, 0⟩, ⟨1, 0⟩]]
        let ops := [Op.remove ⟨0, 0⟩ ⟨1, 0⟩, Op.add ⟨0, 0⟩ ⟨1, 0⟩ true]
        let M ← (ofGraph g).run ops
        let G ← g.run ops
        let x ← M.isCrossing ⟨0, 0⟩ ⟨1, 0⟩
        let y ← G.isCrossing ⟨0, 0⟩ ⟨1, 0⟩
        pure (x, y)) = (.ok (false, true) : Res _) := by decide +kernel

/-- C27: adding a crossing edge at a vertex that exists only in the overlay raises an error
(the base graph is asked about it). -/
theorem C27_new_vertex_crossing_false :
    (do let g := Graph.ofPolygons [[⟨0, 0⟩, ⟨1, 0⟩]]
        let M := (ofGraph g).addVertex ⟨7, 7⟩
        let M' ← M.addEdge ⟨7, 7⟩ ⟨0, 0⟩ true
        M'.hasEdge ⟨7, 7⟩ ⟨0, 0⟩) = (.error .exn : Res _) := by decide +kernel

/-- C27: re-adding an edge the base already has lists the neighbour twice. -/
theorem C27_duplicate_neighbor_false :
    (do let g ← (Graph.ofPolygons [[⟨0, 0⟩, ⟨1, 0⟩]]).addEdge ⟨0, 0⟩ ⟨1, 0⟩ false
        let M ← (ofGraph g).addEdge ⟨0, 0⟩ ⟨1, 0⟩ false
        M.neighbors id ⟨0, 0⟩) = (.ok [⟨1, 0⟩, ⟨1, 0⟩] : Res _) := by decide +kernel

/-- Non-vacuity of C27: a base graph with an edge, a history with removal and additions. -/
example : ∃ g, UserGraph g ∧ OpsOn g.verts
    [.remove ⟨0, 0⟩ ⟨1, 0⟩, .add ⟨0, 0⟩ ⟨0, 1⟩ true, .addDir ⟨1, 0⟩ ⟨0, 1⟩ false] := by
  have ho : OpsOn [[(⟨0, 0⟩ : Coord), ⟨1, 0⟩, ⟨0, 1⟩]].flatten [Op.add ⟨0, 0⟩ ⟨1, 0⟩ false] := by
    unfold OpsOn; decide
  obtain ⟨g, h1, h2, h3⟩ := (Graph.ok_fresh [[⟨0, 0⟩, ⟨1, 0⟩, ⟨0, 1⟩]]).run _ ho
  refine ⟨g, ⟨_, _, ?_, ho, h1⟩, ?_⟩
  · intro o h
    simp only [List.mem_cons, List.not_mem_nil, or_false] at h
    subst h; trivial
  · rw [h3.verts]; unfold OpsOn; decide

end Capi
