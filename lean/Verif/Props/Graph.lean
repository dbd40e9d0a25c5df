import Verif.Lemmas.Graph

/-!
# C17–C21 — the visibility graph container, sequentially

"Graph built from polygons" is `Graph.ofPolygons ps`; every history of updates naming only
vertices is covered.  Duplicate vertices are allowed (the last index wins).
-/

namespace Capi

open Graph

/-- C17: after any history of updates naming vertices, `has_edge` and
`is_edge_meridian_crossing` answer according to the history. -/
theorem C17_history (ps : List (List Coord)) (ops : List Op) (ho : OpsOn ps.flatten ops) :
    ∃ g, (ofPolygons ps).run ops = .ok g ∧
      ∀ a b : Coord, a ∈ ps.flatten → b ∈ ps.flatten → a ≠ b →
        (g.hasEdge a b = .ok true ↔ ∃ m, Live (history ops) a b m) ∧
        (g.hasEdge a b = .ok false ↔ ¬ ∃ m, Live (history ops) a b m) ∧
        (g.isCrossing a b = .ok true ↔
          (∃ m, Live (history ops) a b m) ∧ ∀ m, Live (history ops) a b m → m = true) ∧
        (g.isCrossing a b = .ok false ↔
          ¬ ((∃ m, Live (history ops) a b m) ∧ ∀ m, Live (history ops) a b m → m = true)) := by
  obtain ⟨g, h1, h2, h3⟩ := (ok_fresh ps).run ops ho
  refine ⟨g, h1, fun a b ha hb hab => ?_⟩
  have ha' := h3.verts ▸ ha
  have hb' := h3.verts ▸ hb
  obtain ⟨r1, r2⟩ := h3.rep.has ha' hb' hab
  simp only [List.nil_append] at r1 r2
  rw [hasEdge_ok h3.shape ha' hb', isCrossing_ok h3.shape ha' hb', ← r2, ← r1]
  simp [hab]

/-- Non-vacuity of C17: added plainly and crossing, removed, re-added crossing. -/
example : OpsOn [[⟨0, 0⟩, ⟨1, 0⟩, ⟨0, 1⟩]].flatten
    [.add ⟨0, 0⟩ ⟨1, 0⟩ false, .addDir ⟨0, 0⟩ ⟨1, 0⟩ true, .removeDir ⟨0, 0⟩ ⟨1, 0⟩,
      .addDir ⟨0, 0⟩ ⟨1, 0⟩ true] := by unfold OpsOn; decide

/-- C18: an update changes the answers for the ordered pairs it names only.  This holds for
arbitrary graph states of consistent shape and for all coordinates, known or not. -/
theorem C18_frame (g g' : Graph) (hs : g.Shape) (o : Op) (h : g.step o = .ok g') (c d : Coord)
    (hne : ∀ e ∈ eventsOf o, e ≠ .added c d true ∧ e ≠ .added c d false ∧ e ≠ .removed c d) :
    g'.hasEdge c d = g.hasEdge c d ∧ g'.isCrossing c d = g.isCrossing c d := by
  have key : ∀ g' : Graph, SameFrame g g' → g'.bits c d = g.bits c d →
      g'.hasEdge c d = g.hasEdge c d ∧ g'.isCrossing c d = g.isCrossing c d := by
    intro g' hf hb
    rw [hasEdge_eq hs, hasEdge_eq (hf.shape hs), isCrossing_eq hs, isCrossing_eq (hf.shape hs),
      hf.verts, hb]
    exact ⟨rfl, rfl⟩
  cases o with
  | add a b m =>
    obtain ⟨hf, hb⟩ := addEdge_inv hs h
    refine key g' hf ?_
    have h1 := hne (.added a b m) (by simp [eventsOf])
    have h2 := hne (.added b a m) (by simp [eventsOf])
    rw [hb, if_neg]
    rintro ⟨⟨rfl, rfl⟩ | ⟨rfl, rfl⟩, _⟩ <;> cases m <;> simp_all
  | addDir a b m =>
    obtain ⟨hf, hb⟩ := addDirected_inv hs h
    refine key g' hf ?_
    have h1 := hne (.added a b m) (by simp [eventsOf])
    rw [hb, if_neg]
    rintro ⟨rfl, rfl, _⟩; cases m <;> simp_all
  | remove a b =>
    obtain ⟨hf, hb⟩ := removeEdge_inv hs h
    refine key g' hf ?_
    have h1 := hne (.removed a b) (by simp [eventsOf])
    have h2 := hne (.removed b a) (by simp [eventsOf])
    rw [hb, if_neg]
    rintro ⟨⟨rfl, rfl⟩ | ⟨rfl, rfl⟩, _⟩ <;> simp_all
  | removeDir a b =>
    obtain ⟨hf, hb⟩ := removeDirected_inv hs h
    refine key g' hf ?_
    have h1 := hne (.removed a b) (by simp [eventsOf])
    rw [hb, if_neg]
    rintro ⟨rfl, rfl, _⟩; simp_all

example : ∃ g', (ofPolygons [[⟨0, 0⟩, ⟨1, 0⟩, ⟨0, 1⟩]]).step (.addDir ⟨0, 0⟩ ⟨1, 0⟩ true) = .ok g' ∧
    g'.hasEdge ⟨0, 0⟩ ⟨1, 0⟩ = .ok true ∧ g'.hasEdge ⟨1, 0⟩ ⟨0, 0⟩ = .ok false :=
  ⟨_, rfl, by decide, (C18_frame (ofPolygons [[⟨0, 0⟩, ⟨1, 0⟩, ⟨0, 1⟩]]) _ (ofPolygons_shape _)
    (.addDir ⟨0, 0⟩ ⟨1, 0⟩ true) rfl ⟨1, 0⟩ ⟨0, 0⟩ (by decide)).1⟩

/-- C18: histories of undirected updates keep all answers symmetric. -/
theorem C18_symmetric (ps : List (List Coord)) (ops : List Op) (hu : ∀ o ∈ ops, o.undirected)
    (g : Graph) (h : (ofPolygons ps).run ops = .ok g) (ho : OpsOn ps.flatten ops) (a b : Coord) :
    g.hasEdge a b = g.hasEdge b a ∧ g.isCrossing a b = g.isCrossing b a := by
  have hsym := run_sym (ofPolygons_shape ps)
    (fun a b => by rw [ofPolygons_bits, ofPolygons_bits]) ops hu h
  obtain ⟨g', h1, h2, h3⟩ := (ok_fresh ps).run ops ho
  rw [h] at h1
  obtain rfl := Except.ok.inj h1
  rw [hasEdge_eq h3.shape, hasEdge_eq h3.shape, isCrossing_eq h3.shape, isCrossing_eq h3.shape,
    hsym a b]
  simp only [eq_comm (a := a), and_comm (a := a ∈ g.verts), and_self]

example : ∃ g, (ofPolygons [[⟨0, 0⟩, ⟨1, 0⟩, ⟨0, 1⟩]]).run [.add ⟨0, 0⟩ ⟨1, 0⟩ true] = .ok g ∧
    g.isCrossing ⟨0, 0⟩ ⟨1, 0⟩ = .ok true ∧
    g.isCrossing ⟨0, 0⟩ ⟨1, 0⟩ = g.isCrossing ⟨1, 0⟩ ⟨0, 0⟩ :=
  ⟨_, rfl, by decide, (C18_symmetric [[⟨0, 0⟩, ⟨1, 0⟩, ⟨0, 1⟩]] [.add ⟨0, 0⟩ ⟨1, 0⟩ true]
    (fun o ho => by rw [List.mem_singleton.1 ho]; trivial) _ rfl (by unfold OpsOn; decide) _ _).2⟩

/-- C18: no graph ever reports an edge from a coordinate to itself. -/
theorem C18_no_self_edge (g : Graph) (a : Coord) :
    g.hasEdge a a = .ok false ∧ g.isCrossing a a = .ok false := by
  simp [hasEdge, isCrossing]

/-- C19: after undirected updates `get_neighbors v` lists, without repetition, exactly the
vertices `w` with `has_edge v w`. -/
theorem C19_neighbors (ps : List (List Coord)) (ops : List Op) (hu : ∀ o ∈ ops, o.undirected)
    (ho : OpsOn ps.flatten ops) (v : Coord) (hv : v ∈ ps.flatten) :
    ∃ g ns, (ofPolygons ps).run ops = .ok g ∧ g.neighbors v = .ok ns ∧ ns.Nodup ∧
      ∀ w, w ∈ ns ↔ g.hasEdge v w = .ok true := by
  obtain ⟨g, h1, h2, h3⟩ := (ok_fresh ps).run ops ho
  have hv' := h3.verts ▸ hv
  have hsym := run_sym (ofPolygons_shape ps)
    (fun a b => by rw [ofPolygons_bits, ofPolygons_bits]) ops hu h1
  obtain ⟨j, ns, _, _, hn, _⟩ := neighbors_ok h3.shape hv'
  obtain ⟨hnd, hm⟩ := neighbors_mem h3.shape h3.clean hv' hn
  refine ⟨g, ns, h1, hn, hnd, fun w => ?_⟩
  rw [hm, hasEdge_eq h3.shape, hsym w v]
  by_cases hvw : v = w
  · subst hvw; simp
  · have : w ≠ v := fun h => hvw h.symm
    by_cases hw : w ∈ g.verts
    · simp [hvw, this, hw, hv']
    · simp [hvw, hw]

example : ∃ g ns, (ofPolygons [[⟨0, 0⟩, ⟨1, 0⟩, ⟨0, 1⟩]]).run [.add ⟨0, 0⟩ ⟨1, 0⟩ true] = .ok g ∧
    g.neighbors ⟨0, 0⟩ = .ok ns ∧ ns.Nodup ∧ ∀ w, w ∈ ns ↔ g.hasEdge ⟨0, 0⟩ w = .ok true :=
  C19_neighbors _ _ (fun o ho => by rw [List.mem_singleton.1 ho]; trivial)
    (by unfold OpsOn; decide) _ (by decide)

/-- C19: in general (directed updates included) it lists the predecessors. -/
theorem C19_predecessors (ps : List (List Coord)) (ops : List Op)
    (ho : OpsOn ps.flatten ops) (v : Coord) (hv : v ∈ ps.flatten) :
    ∃ g ns, (ofPolygons ps).run ops = .ok g ∧ g.neighbors v = .ok ns ∧ ns.Nodup ∧
      ∀ w, w ∈ ns ↔ g.hasEdge w v = .ok true := by
  obtain ⟨g, h1, h2, h3⟩ := (ok_fresh ps).run ops ho
  have hv' := h3.verts ▸ hv
  obtain ⟨j, ns, _, _, hn, _⟩ := neighbors_ok h3.shape hv'
  obtain ⟨hnd, hm⟩ := neighbors_mem h3.shape h3.clean hv' hn
  refine ⟨g, ns, h1, hn, hnd, fun w => ?_⟩
  rw [hm, hasEdge_eq h3.shape]
  by_cases hwv : w = v
  · simp [hwv]
  · by_cases hw : w ∈ g.verts
    · simp [hwv, hw, hv']
    · simp [hwv, hw]

example : ∃ g ns, (ofPolygons [[⟨0, 0⟩, ⟨1, 0⟩, ⟨0, 1⟩]]).run [.addDir ⟨0, 0⟩ ⟨1, 0⟩ true] = .ok g ∧
    g.neighbors ⟨1, 0⟩ = .ok ns ∧ ns.Nodup ∧ ∀ w, w ∈ ns ↔ g.hasEdge w ⟨1, 0⟩ = .ok true :=
  C19_predecessors _ _ (by unfold OpsOn; decide) _ (by decide)

/-- C19: with a directed edge the successor is not listed as a neighbour. -/
theorem C19_directed_false :
    (do let g ← (ofPolygons [[⟨0, 0⟩, ⟨1, 0⟩]]).addDirected ⟨0, 0⟩ ⟨1, 0⟩ false
        let e ← g.hasEdge ⟨0, 0⟩ ⟨1, 0⟩
        let ns ← g.neighbors ⟨0, 0⟩
        let ms ← g.neighbors ⟨1, 0⟩
        pure (e, ns, ms)) = (.ok (true, [], [⟨0, 0⟩]) : Res _) := by decide +kernel

/-- C20: an edge operation naming an unknown coordinate raises an error and the graph state is
unchanged: no write precedes the error (an undirected operation fails in its first half, and
if the first half succeeds so does the second). -/
theorem C20_unknown (g : Graph) (hs : g.Shape) (a b : Coord) (m : Bool) (hab : a ≠ b)
    (h : a ∉ g.verts ∨ b ∉ g.verts) :
    g.addDirected a b m = .error .exn ∧ g.removeDirected a b = .error .exn ∧
    g.addEdge a b m = .error .exn ∧ g.removeEdge a b = .error .exn ∧
    g.hasEdge a b = .error .exn ∧ g.isCrossing a b = .error .exn ∧
    (a ∉ g.verts → g.neighbors a = .error .exn) ∧
    (g.hasVertex a = true ↔ a ∈ g.verts) := by
  have h1 := addDirected_error hs m hab h
  have h2 := removeDirected_error hs hab h
  refine ⟨h1, h2, by rw [addEdge, h1]; rfl, by rw [removeEdge, h2]; rfl, ?_, ?_, ?_, hs.dom a⟩
  · rw [hasEdge_eq hs, if_neg hab, if_neg (by tauto)]
  · rw [isCrossing_eq hs, if_neg hab, if_neg (by tauto)]
  · intro ha
    simp [neighbors, toIndex, hs.unknown ha]

example : (ofPolygons [[⟨0, 0⟩, ⟨1, 0⟩]]).addEdge ⟨0, 0⟩ ⟨7, 7⟩ true = .error .exn :=
  (C20_unknown _ (ofPolygons_shape _) _ _ true (by decide) (Or.inr (by decide))).2.2.1

/-- C20: undirected updates are atomic with respect to errors. -/
theorem C20_atomic (g g1 : Graph) (hs : g.Shape) (a b : Coord) (m : Bool) :
    (g.addDirected a b m = .ok g1 → ∃ g2, g1.addDirected b a m = .ok g2) ∧
    (g.removeDirected a b = .ok g1 → ∃ g2, g1.removeDirected b a = .ok g2) := by
  constructor
  · intro h
    obtain ⟨hf, _⟩ := addDirected_inv hs h
    by_cases hab : a = b
    · subst hab; exact ⟨g1, addDirected_self⟩
    · by_cases hk : a ∈ g.verts ∧ b ∈ g.verts
      · obtain ⟨g2, h2, _⟩ := addDirected_ok (hf.shape hs) (a := b) (b := a)
          (hf.verts ▸ hk.2) (hf.verts ▸ hk.1) m
        exact ⟨g2, h2⟩
      · rw [addDirected_error hs m hab (by tauto)] at h; simp at h
  · intro h
    obtain ⟨hf, _⟩ := removeDirected_inv hs h
    by_cases hab : a = b
    · subst hab; exact ⟨g1, removeDirected_self⟩
    · by_cases hk : a ∈ g.verts ∧ b ∈ g.verts
      · obtain ⟨g2, h2, _⟩ := removeDirected_ok (hf.shape hs) (a := b) (b := a)
          (hf.verts ▸ hk.2) (hf.verts ▸ hk.1)
        exact ⟨g2, h2⟩
      · rw [removeDirected_error hs hab (by tauto)] at h; simp at h

example : ∃ g1 g2, (ofPolygons [[⟨0, 0⟩, ⟨1, 0⟩]]).addDirected ⟨0, 0⟩ ⟨1, 0⟩ true = .ok g1 ∧
    g1.addDirected ⟨1, 0⟩ ⟨0, 0⟩ true = .ok g2 :=
  ⟨_, ((C20_atomic (ofPolygons [[⟨0, 0⟩, ⟨1, 0⟩]]) _ (ofPolygons_shape _) _ _ true).1 rfl).imp
    fun _ h => ⟨rfl, h⟩⟩

/-- C20: no cell of the matrix can be spared.  With a shorter matrix the operations on a pair are
undefined exactly if the cell of the pair is missing. -/
theorem C20_short (g : Graph) (hs : g.Shape) (a b : Coord) (ha : a ∈ g.verts) (hb : b ∈ g.verts)
    (hab : a ≠ b) (k : ℕ) : ∃ i j, g.idx a = some i ∧ g.idx b = some j ∧ i < g.num ∧ j < g.num ∧
    ∀ g', g' = { g with cells := g.cells.take k } →
      (g'.hasEdge a b = .error .ub ↔ k ≤ i + g.num * j) ∧
      (g'.isCrossing a b = .error .ub ↔ k ≤ i + g.num * j) ∧
      (g'.removeDirected a b = .error .ub ↔ k ≤ i + g.num * j) ∧
      ∀ m, g'.addDirected a b m = .error .ub ↔ k ≤ i + g.num * j := by
  obtain ⟨i, j, hi, hj, hin, hjn, -, hp, hc⟩ := pairIndex_ok hs ha hb hab
  refine ⟨i, j, hi, hj, hin, hjn, ?_⟩
  rintro g' rfl
  have hp' : Graph.pairIndex { g with cells := g.cells.take k } a b = .ok (i + g.num * j) := hp
  have hcell : Graph.cell { g with cells := g.cells.take k } (i + g.num * j) =
      if k ≤ i + g.num * j then .error .ub else g.cell (i + g.num * j) := by
    unfold Graph.cell
    simp only [List.getElem?_take]
    by_cases h : k ≤ i + g.num * j
    · rw [if_pos h, if_neg (not_lt.2 h)]
    · rw [if_neg h, if_pos (not_le.1 h)]
  refine ⟨?_, ?_, ?_, fun m => ?_⟩
  · unfold Graph.hasEdge
    rw [if_neg hab, hp', Res.bind_ok, hcell, hc]
    split <;> simp_all
  · unfold Graph.isCrossing
    rw [if_neg hab, hp', Res.bind_ok, hcell, hc]
    split <;> simp_all
  · unfold Graph.removeDirected
    rw [if_neg hab, hp', Res.bind_ok, hcell, hc]
    split <;> simp_all
  · unfold Graph.addDirected
    rw [if_neg hab, hp', Res.bind_ok, hcell, hc]
    split <;> simp_all

/-- Two vertices; the edge from the second to the first is in the second cell. -/
example : Graph.hasEdge { ofPolygons [[⟨0, 0⟩, ⟨1, 0⟩]] with cells := [0] } ⟨1, 0⟩ ⟨0, 0⟩ =
    .error .ub := by
  obtain ⟨i, j, hi, hj, -, -, h⟩ := C20_short (ofPolygons [[⟨0, 0⟩, ⟨1, 0⟩]]) (ofPolygons_shape _)
    ⟨1, 0⟩ ⟨0, 0⟩ (by decide) (by decide) (by decide) 1
  have h1 : i = 1 := by
    have : (ofPolygons [[⟨0, 0⟩, ⟨1, 0⟩]]).idx ⟨1, 0⟩ = some 1 := rfl
    rw [this] at hi
    exact (Option.some.inj hi).symm
  exact (h _ rfl).1.2 (by omega)

/-- Graph states reachable by construction, updates and vertex additions. -/
inductive Reachable : Graph → Prop
  | empty : Reachable Graph.empty
  | ofPolygons (ps : List (List Coord)) : Reachable (ofPolygons ps)
  | step {g g' : Graph} (o : Op) : Reachable g → g.step o = .ok g' → Reachable g'
  | addVertex {g : Graph} (v : Coord) : Reachable g → Reachable (g.addVertex v)

/-- C20: in every reachable state no operation has undefined behaviour: every matrix, vertex and
lock access is inside its container and no lock is taken twice. -/
theorem C20_memory_safe (g : Graph) (hg : Reachable g) (a b : Coord) (o : Op) :
    g.Shape ∧ g.step o ≠ .error .ub ∧ g.hasEdge a b ≠ .error .ub ∧
    g.isCrossing a b ≠ .error .ub ∧ g.neighbors a ≠ .error .ub := by
  have addN : ∀ g : Graph, g.Shape → ∀ a b m, g.addDirected a b m ≠ .error .ub := by
    intro g hs a b m
    by_cases hab : a = b
    · subst hab; rw [addDirected_self]; simp
    · by_cases hk : a ∈ g.verts ∧ b ∈ g.verts
      · obtain ⟨g2, h2, _⟩ := addDirected_ok hs hk.1 hk.2 m
        rw [h2]; simp
      · rw [addDirected_error hs m hab (by tauto)]; simp
  have rmN : ∀ g : Graph, g.Shape → ∀ a b, g.removeDirected a b ≠ .error .ub := by
    intro g hs a b
    by_cases hab : a = b
    · subst hab; rw [removeDirected_self]; simp
    · by_cases hk : a ∈ g.verts ∧ b ∈ g.verts
      · obtain ⟨g2, h2, _⟩ := removeDirected_ok hs hk.1 hk.2
        rw [h2]; simp
      · rw [removeDirected_error hs hab (by tauto)]; simp
  have hs : g.Shape := by
    induction hg with
    | empty => exact ⟨rfl, rfl, rfl, by simp [Graph.empty], by simp [Graph.empty]⟩
    | ofPolygons ps => exact ofPolygons_shape ps
    | step o _ he ih =>
      cases o with
      | add a b m => exact (addEdge_inv ih he).1.shape ih
      | addDir a b m => exact (addDirected_inv ih he).1.shape ih
      | remove a b => exact (removeEdge_inv ih he).1.shape ih
      | removeDir a b => exact (removeDirected_inv ih he).1.shape ih
    | addVertex v _ ih => exact addVertex_shape ih v
  refine ⟨hs, ?_, ?_, ?_, ?_⟩
  · cases o with
    | add a b m =>
      simp only [Graph.step, addEdge]
      cases h1 : g.addDirected a b m with
      | error e =>
        have := addN g hs a b m
        rw [h1] at this
        simpa using this
      | ok g1 => exact addN g1 ((addDirected_inv hs h1).1.shape hs) b a m
    | addDir a b m => exact addN g hs a b m
    | remove a b =>
      simp only [Graph.step, removeEdge]
      cases h1 : g.removeDirected a b with
      | error e =>
        have := rmN g hs a b
        rw [h1] at this
        simpa using this
      | ok g1 => exact rmN g1 ((removeDirected_inv hs h1).1.shape hs) b a
    | removeDir a b => exact rmN g hs a b
  · rw [hasEdge_eq hs]; split_ifs <;> simp
  · rw [isCrossing_eq hs]; split_ifs <;> simp
  · by_cases ha : a ∈ g.verts
    · obtain ⟨j, ns, _, _, h, _⟩ := neighbors_ok hs ha
      rw [h]; simp
    · simp [neighbors, toIndex, hs.unknown ha]

/-- Non-vacuity: a reachable state with an edge and an added vertex. -/
example : ∃ g, Reachable g ∧ g.verts.length = 4 ∧
    g.verts = [⟨0, 0⟩, ⟨1, 0⟩, ⟨0, 1⟩, ⟨9, 9⟩] := by
  obtain ⟨g, h, hf, _⟩ := addDirected_ok (ofPolygons_shape [[⟨0, 0⟩, ⟨1, 0⟩, ⟨0, 1⟩]])
    (a := ⟨0, 0⟩) (b := ⟨1, 0⟩) (by decide) (by decide) true
  refine ⟨g.addVertex ⟨9, 9⟩, .addVertex _ (.step (.addDir _ _ _) (.ofPolygons _) h), ?_, ?_⟩ <;>
    simp [Graph.addVertex, hf.verts, Graph.ofPolygons]

/-- C21 is false: after adding a vertex the existing edge is gone (the matrix is resized
without moving the rows) and an edge nobody added appears. -/
theorem C21_add_vertex_false :
    (do let g ← (ofPolygons [[⟨0, 0⟩, ⟨1, 0⟩]]).addEdge ⟨0, 0⟩ ⟨1, 0⟩ false
        let g' := g.addVertex ⟨5, 5⟩
        let before ← g.hasEdge ⟨0, 0⟩ ⟨1, 0⟩
        let after ← g'.hasEdge ⟨0, 0⟩ ⟨1, 0⟩
        let phantom ← g'.hasEdge ⟨5, 5⟩ ⟨0, 0⟩
        pure (before, after, phantom)) = (.ok (true, false, true) : Res _) := by decide +kernel

/-- C21 (partial: only for graphs whose stored bytes are all zero, i.e. without edges).  Adding
a vertex to such a graph keeps all answers, adds no edge and makes the vertex known. -/
theorem C21_no_edges_partial (g : Graph) (hs : g.Shape) (h0 : ∀ c ∈ g.cells, c = 0)
    (v a b : Coord) (ha : a ∈ g.verts) (hb : b ∈ g.verts) :
    (g.addVertex v).hasEdge a b = g.hasEdge a b ∧
    (g.addVertex v).isCrossing a b = g.isCrossing a b ∧
    (g.addVertex v).hasVertex v = true ∧
    (g.addVertex v).hasEdge a v = .ok false ∧ (g.addVertex v).hasEdge v a = .ok false := by
  have hs' := addVertex_shape hs v
  have z : ∀ (l : List (BitVec 8)) (k : ℕ), (∀ c ∈ l, c = 0) → l.getD k 0 = 0 := by
    intro l k hl
    rw [List.getD_eq_getElem?_getD]
    cases hk : l[k]? with
    | none => rfl
    | some c => exact hl c (List.mem_of_getElem? hk)
  have zb : ∀ (g : Graph), (∀ c ∈ g.cells, c = 0) → ∀ a b, g.bits a b = 0 := by
    intro g hg a b
    unfold bits
    split
    · exact z _ _ hg
    · rfl
  have h0' : ∀ c ∈ (g.addVertex v).cells, c = 0 := by
    intro c hc
    simp only [addVertex, List.mem_append, List.mem_replicate] at hc
    rcases hc with hc | hc
    · exact h0 c (List.mem_of_mem_take hc)
    · exact hc.2
  have mem : ∀ c ∈ g.verts, c ∈ (g.addVertex v).verts := by
    intro c hc; simp [addVertex, hc]
  have memv : v ∈ (g.addVertex v).verts := by simp [addVertex]
  rw [hasEdge_ok hs' (mem a ha) (mem b hb), hasEdge_ok hs ha hb,
    isCrossing_ok hs' (mem a ha) (mem b hb), isCrossing_ok hs ha hb,
    hasEdge_ok hs' (mem a ha) memv, hasEdge_ok hs' memv (mem a ha),
    zb _ h0', zb _ h0, zb _ h0', zb _ h0']
  exact ⟨rfl, rfl, (hs'.dom v).2 memv, by simp, by simp⟩

example : (ofPolygons [[⟨0, 0⟩, ⟨1, 0⟩]]).Shape ∧ ∀ c ∈ (ofPolygons [[⟨0, 0⟩, ⟨1, 0⟩]]).cells, c = 0 :=
  ⟨ofPolygons_shape _, by decide⟩

end Capi
