import Verif.Props.Chain

/-!
# C62: how new endpoints are joined to the graph
-/

namespace Capi

open ShortestPath Visgraph

/-- A leg at an endpoint that is not a vertex. -/
theorem endpoint_leg {E : Env} {ps : List (List Coord)} (hps : ∀ v ∈ ps.flatten, v.Geo)
    (hg : UserGraph E.graph) (hv : E.graph.verts = ps.flatten) (hr : IsReach ps E.reach)
    {c : Correction} (hsrc : c.src.Geo) (hdst : c.dst.Geo) (hne : c.src ≠ c.dst) {u v : Coord}
    (h : RouteEdge E c u v) :
    (c.src ∉ ps.flatten → u = c.src → v ∈ ps.flatten ∧ Linked E c.src c.srcEdge v) ∧
    (c.dst ∉ ps.flatten → v = c.dst → u ∈ ps.flatten ∧ Linked E c.dst c.dstEdge u) := by
  have hs := hg.regular.built.shape
  have hmem : ∀ e edge x, e.Geo → Linked E e edge x → x ∈ ps.flatten := by
    rintro e edge x he ⟨-, -, ⟨vis, m, h1, h2⟩, -⟩
    obtain ⟨vis', g1, g2⟩ := reach_geo hps hr he.per
    rw [h1] at g1
    cases g1
    exact (g2 _ h2).1
  rcases h with h | ⟨rfl, h⟩ | ⟨rfl, h⟩ | ⟨rfl, h⟩ | ⟨rfl, h⟩
  · obtain ⟨-, h1, h2⟩ := hasEdge_verts hs h
    rw [hv] at h1 h2
    exact ⟨fun hn e => absurd (e ▸ h1) hn, fun hn e => absurd (e ▸ h2) hn⟩
  · refine ⟨fun _ _ => ⟨hmem _ _ _ hsrc h, h⟩, fun hn e => ?_⟩
    exact absurd (e ▸ hmem _ _ _ hsrc h) hn
  · refine ⟨fun hn e => absurd e h.2.1, fun hn e => absurd e hne⟩
  · refine ⟨fun hn e => absurd e.symm hne, fun hn e => absurd e h.2.1⟩
  · refine ⟨fun hn e => ?_, fun _ _ => ⟨hmem _ _ _ hdst h, h⟩⟩
    exact absurd (e ▸ hmem _ _ _ hdst h) hn

theorem new_not_crossing {E : Env} {ps : List (List Coord)} (hg : UserGraph E.graph)
    (hv : E.graph.verts = ps.flatten) {u v : Coord} (hn : u ∉ ps.flatten ∨ v ∉ ps.flatten) :
    ¬ CrossesMeridian E u v := by
  intro hc
  unfold CrossesMeridian at hc
  by_cases huv : u = v
  · rw [huv] at hc
    unfold Graph.isCrossing at hc
    rw [if_pos rfl] at hc
    cases hc
  · rw [← hv] at hn
    rw [(C20_unknown E.graph hg.regular.built.shape u v false huv hn).2.2.2.2.2.1] at hc
    cases hc

/-- A searched path is a walk between the corrected endpoints. -/
theorem searched_walk {D : Type} [LinearOrder D] {A : Arith D} (hA : A.Sound) {E : Env}
    (hg : UserGraph E.graph) (hord : ∀ l, (E.ord l).Perm l) {s d : Coord} {allow : Bool} {N : Net}
    {c : Correction} (hp : prepare E s d allow = .ok (.inr (N, c))) {path : List Coord}
    (h : Query A E s d allow (.ok path)) : IsWalk (RouteEdge E c) c.src c.dst path := by
  obtain ⟨ns, nd, h1, h2, h3, h4, -⟩ := prepare_inr hp
  obtain ⟨ns', nd', c', k1, k2, k3, k4⟩ := C42_paths A hA E hg hord s d allow path h
  rw [h1] at k1
  rw [h2] at k2
  cases k1
  cases k2
  rw [h3] at k3
  cases k3
  rcases k4 with ⟨k4, -⟩ | ⟨-, k4⟩
  · exact absurd k4 h4
  · exact k4

/-- **C62** If the corrected source is not a vertex of the stored graph, the second point of a path
found by a search is an obstacle vertex reported by the full scan from the source, not strictly to
the left of the edge the source was moved to.  The leg is measured directly, never across the
meridian. -/
theorem C62_first_leg {D : Type} [LinearOrder D] (A : Arith D) (hA : A.Sound)
    (E : Env) (ps : List (List Coord)) (hps : ∀ v ∈ ps.flatten, v.Geo) (hg : UserGraph E.graph)
    (hv : E.graph.verts = ps.flatten) (hr : IsReach ps E.reach) (hord : ∀ l, (E.ord l).Perm l)
    (s d : Coord) (allow : Bool) (N : Net) (c : Correction)
    (hp : prepare E s d allow = .ok (.inr (N, c))) (hsrc : c.src.Geo) (hdst : c.dst.Geo)
    (hnew : c.src ∉ ps.flatten) (hne : c.src ≠ c.dst)
    (path : List Coord) (h : Query A E s d allow (.ok path)) :
    ∃ v rest, path = c.src :: v :: rest ∧ v ∈ ps.flatten ∧
      (∃ vis m, E.reach c.src = .ok vis ∧ (v, m) ∈ vis) ∧
      (∀ e, c.srcEdge = some e → area2 e.p e.q v ≤ 0) ∧ N.isCrossing c.src v = .ok false := by
  have hw := searched_walk hA hg hord hp h
  obtain ⟨-, -, -, -, -, -, h5⟩ := prepare_inr hp
  obtain ⟨vs, hvs⟩ := net_ok hg hord h5
  obtain ⟨rest, rfl, hl, hc⟩ := isWalk_cons.1 hw
  cases rest with
  | nil => exact absurd hl hne
  | cons v t =>
    rw [List.isChain_cons_cons] at hc
    obtain ⟨h1, h2⟩ := (endpoint_leg hps hg hv hr hsrc hdst hne hc.1).1 hnew rfl
    refine ⟨v, t, rfl, h1, h2.2.2.1, h2.2.2.2, ?_⟩
    obtain ⟨m, h3, h4⟩ := hvs.crossing _ _ hc.1
    cases m with
    | false => exact h3
    | true => exact absurd (h4.1 rfl) (new_not_crossing hg hv (Or.inl hnew))

/-- **C62** The same for the last leg. -/
theorem C62_last_leg {D : Type} [LinearOrder D] (A : Arith D) (hA : A.Sound)
    (E : Env) (ps : List (List Coord)) (hps : ∀ v ∈ ps.flatten, v.Geo) (hg : UserGraph E.graph)
    (hv : E.graph.verts = ps.flatten) (hr : IsReach ps E.reach) (hord : ∀ l, (E.ord l).Perm l)
    (s d : Coord) (allow : Bool) (N : Net) (c : Correction)
    (hp : prepare E s d allow = .ok (.inr (N, c))) (hsrc : c.src.Geo) (hdst : c.dst.Geo)
    (hnew : c.dst ∉ ps.flatten) (hne : c.src ≠ c.dst)
    (path : List Coord) (h : Query A E s d allow (.ok path)) :
    ∃ v rest, path = rest ++ [v, c.dst] ∧ v ∈ ps.flatten ∧
      (∃ vis m, E.reach c.dst = .ok vis ∧ (v, m) ∈ vis) ∧
      (∀ e, c.dstEdge = some e → area2 e.p e.q v ≤ 0) ∧ N.isCrossing v c.dst = .ok false := by
  obtain ⟨hw1, hw2, hw3⟩ := searched_walk hA hg hord hp h
  obtain ⟨-, -, -, -, -, -, h5⟩ := prepare_inr hp
  obtain ⟨vs, hvs⟩ := net_ok hg hord h5
  obtain ⟨l, rfl⟩ := List.getLast?_eq_some_iff.1 hw2
  rcases List.eq_nil_or_concat l with rfl | ⟨rest, v, rfl⟩
  · simp only [List.nil_append, List.head?_cons, Option.some.injEq] at hw1
    exact absurd hw1.symm hne
  · rw [List.concat_eq_append, List.append_assoc] at hw3 ⊢
    have hc : RouteEdge E c v c.dst := by
      have := (List.isChain_append.1 hw3).2.1
      simpa using this
    obtain ⟨h1, h2⟩ := (endpoint_leg hps hg hv hr hsrc hdst hne hc).2 hnew rfl
    refine ⟨v, rest, rfl, h1, h2.2.2.1, h2.2.2.2, ?_⟩
    obtain ⟨m, h3, h4⟩ := hvs.crossing _ _ hc
    cases m with
    | false => exact h3
    | true => exact absurd (h4.1 rfl) (new_not_crossing hg hv (Or.inr hnew))

/-- **C62** Two endpoints that are both new are never joined directly: a path found by a search
between them visits an obstacle vertex. -/
theorem C62_via {D : Type} [LinearOrder D] (A : Arith D) (hA : A.Sound)
    (E : Env) (ps : List (List Coord)) (hps : ∀ v ∈ ps.flatten, v.Geo) (hg : UserGraph E.graph)
    (hv : E.graph.verts = ps.flatten) (hr : IsReach ps E.reach) (hord : ∀ l, (E.ord l).Perm l)
    (s d : Coord) (allow : Bool) (N : Net) (c : Correction)
    (hp : prepare E s d allow = .ok (.inr (N, c))) (hsrc : c.src.Geo) (hdst : c.dst.Geo)
    (hnew : c.src ∉ ps.flatten) (hnew' : c.dst ∉ ps.flatten) (hne : c.src ≠ c.dst)
    (path : List Coord) (h : Query A E s d allow (.ok path)) :
    ∃ v ∈ path, v ∈ ps.flatten ∧ 3 ≤ path.length := by
  obtain ⟨v, rest, rfl, h1, -⟩ := C62_first_leg A hA E ps hps hg hv hr hord s d allow N c hp hsrc hdst
    hnew hne path h
  refine ⟨v, by simp, h1, ?_⟩
  have hw := (searched_walk hA hg hord hp h).2.1
  cases rest with
  | nil =>
    simp only [List.getLast?_cons_cons, List.getLast?_singleton, Option.some.injEq] at hw
    exact absurd (hw ▸ h1) hnew'
  | cons x t => simp

/-- Non-vacuity of C62: both endpoints of the tour round the island are new. -/
example : ∃ N path, prepare exTour ⟨-5, 5⟩ ⟨15, 5⟩ false =
      .ok (.inr (N, ⟨⟨-5, 5⟩, ⟨15, 5⟩, none, none⟩)) ∧
    Query (exactArith 1 none) exTour ⟨-5, 5⟩ ⟨15, 5⟩ false (.ok path) ∧
    ∃ v ∈ path, v ∈ [exSquare].flatten ∧ 3 ≤ path.length := by
  have hV := exTour_voyage
  obtain ⟨N, hN⟩ := hV.searched (by simp [exTour]) false
  have hA := exact_sound 1 none
  obtain ⟨⟨r, hq⟩, -⟩ := C43_outcome _ hA exTour hV.made hV.ord ⟨-5, 5⟩ ⟨15, 5⟩ false
  obtain ⟨path, rfl⟩ := C61_found _ hA (fun _ => rfl) _ _ _ _ _ _ _ hV _
    ⟨exTour_chain.1, exTour_chain.2.1, exTour_chain.2.2.imp fun _ _ h => Or.inl h⟩
    (by decide) false r hq
  obtain ⟨v, h1, h2, h3⟩ := C62_via _ hA exTour exTour.graph.polygons hV.geo' hV.made hV.verts
    hV.reach hV.ord _ _ false N _ hN hV.src hV.dst
    (fun h => absurd ((hV.mem_flatten _).1 h) (by decide))
    (fun h => absurd ((hV.mem_flatten _).1 h) (by decide)) (by decide) path hq
  exact ⟨N, path, hN, hq, v, h1, (hV.mem_flatten _).1 h2, h3⟩

end Capi
