import Verif.Lemmas.Parallel
import Verif.Props.Visgraph

/-!
# C94 — what ends the process while a graph is generated or merged

Within the parallel loops no exception can be handed to the caller.  The process survives exactly if
all reports are of vertices of the map, which longitudes beyond 180 degrees spoil.
-/

namespace Capi

open Visgraph

/-- **C94** Generation never raises an exception.  If the copies of all vertices fit into 32 bits and
the scans are defined, it ends in one of two ways, whatever the order in which vertices are handled:
either every scan succeeds and reports vertices of the map only, and the graph is returned, or the
process is ended. -/
theorem C94_generate (ps : List (List Coord)) (scanner : Coord → Res (List (Coord × Bool)))
    (order : List Coord → List Coord) (ho : ∀ l, (order l).Perm l)
    (hfit : ∀ v ∈ ps.flatten, -1787483647 ≤ v.lon ∧ v.lon ≤ 1787483646)
    (hs : ∀ a ∈ ps.flatten, scanner a ≠ .error .ub) :
    ((∀ a ∈ ps.flatten, ∃ vis, scanner a = .ok vis ∧ ∀ r ∈ vis, r.1 ∈ ps.flatten) ∧
        ∃ g, generateP ps scanner order = .done g ∧ g.polygons = ps ∧ g.verts = ps.flatten) ∨
      ((∃ a ∈ ps.flatten, scanner a = .error .exn ∨
          ∃ vis, scanner a = .ok vis ∧ ∃ r ∈ vis, r.1 ∉ ps.flatten) ∧
        generateP ps scanner order = .aborted) := by
  obtain ⟨c, hc⟩ := copiesC_ok hfit
  have hmem : ∀ a, a ∈ order ps.flatten ↔ a ∈ ps.flatten := fun a => (ho _).mem_iff
  have hP : generateP ps scanner order = .region (generate ps scanner order) := by
    unfold generateP; rw [hc]; rfl
  have hG : generate ps scanner order
      = sweepAll scanner (Graph.ofPolygons ps) (order ps.flatten) := by
    unfold generate; rw [polygonVertices_eq]
  rcases sweepAll_cases (scanner := scanner) (order ps.flatten) (Graph.ofPolygons_shape ps)
    (fun a ha => (hmem a).1 ha) (fun a ha => hs a ((hmem a).1 ha)) with ⟨h1, g, h2, f⟩ | ⟨h1, h2⟩
  · refine Or.inl ⟨fun a ha => h1 a ((hmem a).2 ha), g, by rw [hP, hG, h2]; rfl, f.polygons, f.verts⟩
  · obtain ⟨a, ha, h1⟩ := h1
    exact Or.inr ⟨⟨a, (hmem a).1 ha, h1⟩, by rw [hP, hG, h2]; rfl⟩

/-- **C94** On maps drawn within 180 degrees generation, in one go or in parts, never ends the
process and is never undefined; a bad range is an exception the caller can handle. -/
theorem C94_geographic (T : ℕ → Polygon.SumTree) (ps : List (List Coord))
    (hg : ∀ v ∈ ps.flatten, v.Geo) (scanner : Coord → Res (List (Coord × Bool)))
    (hs : IsScanner T ps scanner) (order shuffle : List Coord → List Coord)
    (ho : ∀ l, (order l).Perm l) (hsh : ∀ l, (shuffle l).Perm l) (lo hi : ℕ) :
    (∃ g, generateP ps scanner order = .done g ∧ generate ps scanner order = .ok g) ∧
      (ps ≠ [] ∧ (hi < lo ∨ ps.flatten.length < hi) →
        generateRangeP ps scanner order shuffle lo hi = .raised) ∧
      (ps = [] ∨ (lo ≤ hi ∧ hi ≤ ps.flatten.length) →
        ∃ g, generateRangeP ps scanner order shuffle lo hi = .done g ∧
          generateRange ps scanner order shuffle lo hi = .ok g) := by
  obtain ⟨c, hc⟩ := copiesC_ok (ps := ps) fun v hv => by
    obtain ⟨h1, h2, _⟩ := hg v hv
    omega
  refine ⟨?_, ?_, ?_⟩
  · obtain ⟨g, _, h1, _⟩ := C38_edges T ps hg scanner hs order ho
    exact ⟨g, by unfold generateP; rw [hc, h1]; rfl, h1⟩
  · rintro ⟨hp, hr⟩
    have hp' : ps.isEmpty = false := by simpa using hp
    unfold generateRangeP
    rw [polygonVertices_eq, if_neg (by simp [hp']), if_pos (by omega)]
  · intro h
    obtain ⟨g, h1, _⟩ := (C41_ranges T ps hg scanner hs order shuffle ho hsh lo hi).2 h
    refine ⟨g, ?_, h1⟩
    unfold generateRange at h1
    unfold generateRangeP
    by_cases hp : ps.isEmpty = true
    · rw [if_pos hp] at h1 ⊢
      rw [← Except.ok.inj h1]
    · have hp' : ps ≠ [] := by simpa using hp
      have hr := h.resolve_left hp'
      rw [← polygonVertices_eq] at hr
      have hb : ¬ (hi > (polygonVertices ps).length ∨ lo > hi) := by omega
      rw [if_neg hp, if_neg hb] at h1 ⊢
      rw [hc]
      have h2 : (do
          let chosen ← slice (shuffle (polygonVertices ps)) lo hi
          sweepAll scanner (Graph.ofPolygons ps) (order chosen)) = .ok g := h1
      show Outcome.region _ = _
      rw [h2]
      rfl

/-- **C94** Vertices too far out overflow when they are copied. -/
theorem C94_overflow (ps : List (List Coord)) (scanner : Coord → Res (List (Coord × Bool)))
    (order : List Coord → List Coord)
    (h : ∃ v ∈ ps.flatten, v.lon < -1787483647 ∨ 1787483646 < v.lon) :
    generateP ps scanner order = .undefined := by
  obtain ⟨v, hv, h⟩ := h
  have hc : copiesC ps = .error .ub := by
    unfold copiesC
    rw [polygonVertices_eq]
    have each : ∀ a ∈ ps.flatten,
        (∃ b, periodicCopiesC a = .ok b) ∨ periodicCopiesC a = .error .ub := by
      intro a _
      by_cases ha : -1787483647 ≤ a.lon ∧ a.lon ≤ 1787483646
      · exact Or.inl ⟨_, periodicCopiesC_ok ha.1 ha.2⟩
      · exact Or.inr (periodicCopiesC_ub (by omega))
    rcases mapM_cases ps.flatten each with ⟨h1, _⟩ | ⟨_, h1⟩
    · obtain ⟨b, hb⟩ := h1 v hv
      rw [periodicCopiesC_ub h] at hb
      simp at hb
    · exact h1
  unfold generateP
  rw [hc]
  rfl

/-- If generation returns, all scans have succeeded and reported vertices of the map. -/
theorem done_reports {ps : List (List Coord)} {scanner : Coord → Res (List (Coord × Bool))}
    {order : List Coord → List Coord} (ho : ∀ l, (order l).Perm l) {g : Graph}
    (h : generateP ps scanner order = .done g) :
    generate ps scanner order = .ok g ∧
      ∀ a ∈ ps.flatten, ∃ vis, scanner a = .ok vis ∧ ∀ r ∈ vis, r.1 ∈ ps.flatten := by
  have hgen : generate ps scanner order = .ok g := by
    unfold generateP at h
    cases hc : copiesC ps with
    | error e => rw [hc] at h; cases e <;> simp [Outcome.outside, Outcome.andThen] at h
    | ok c =>
      rw [hc] at h
      simp only [Outcome.outside, Outcome.andThen] at h
      cases hgg : generate ps scanner order with
      | error e => rw [hgg] at h; cases e <;> simp [Outcome.region] at h
      | ok g' =>
        rw [hgg] at h
        simp only [Outcome.region, Outcome.done.injEq] at h
        rw [h]
  refine ⟨hgen, ?_⟩
  have hmem : ∀ a, a ∈ order ps.flatten ↔ a ∈ ps.flatten := fun a => (ho _).mem_iff
  unfold generate at hgen
  rw [polygonVertices_eq] at hgen
  · have key : ∀ (us : List Coord) (g0 g1 : Graph), g0.Shape → (∀ a ∈ us, a ∈ g0.verts) →
        sweepAll scanner g0 us = .ok g1 →
        ∀ a ∈ us, ∃ vis, scanner a = .ok vis ∧ ∀ r ∈ vis, r.1 ∈ g0.verts := by
      intro us
      induction us with
      | nil => intro _ _ _ _ _ a ha; simp at ha
      | cons c r ih =>
        intro g0 g1 h0 hu h1 a ha
        rw [sweepAll] at h1
        obtain ⟨vis, hv, h1⟩ := bind_split h1
        obtain ⟨g2, hl, h1⟩ := bind_split h1
        rcases link_cases vis h0 (hu c List.mem_cons_self) with ⟨h3, g3, h4, f⟩ | ⟨_, h4⟩
        · rw [h4] at hl
          obtain rfl := Except.ok.inj hl
          rcases List.mem_cons.1 ha with rfl | ha
          · exact ⟨vis, hv, h3⟩
          · obtain ⟨w, hw, hw2⟩ := ih g3 g1 (f.shape h0)
              (fun b hb => by rw [f.verts]; exact hu b (List.mem_cons_of_mem _ hb)) h1 a ha
            exact ⟨w, hw, fun x hx => by rw [← f.verts]; exact hw2 x hx⟩
        · rw [h4] at hl; simp at hl
    intro a ha
    exact key (order ps.flatten) _ g (Graph.ofPolygons_shape ps) (fun a ha => (hmem a).1 ha) hgen a
      ((hmem a).2 ha)

/-- **C94** If generation returns, no two vertices that both lie beyond 180 degrees are linked, not
even the ends of one edge of a polygon. -/
theorem C94_beyond (T : ℕ → Polygon.SumTree) (ps : List (List Coord))
    (scanner : Coord → Res (List (Coord × Bool))) (hs : IsScanner T ps scanner)
    (order : List Coord → List Coord) (ho : ∀ l, (order l).Perm l) (g : Graph)
    (h : generateP ps scanner order = .done g) (a b : Coord)
    (ha : a.lon < -180000000 ∨ 180000000 < a.lon) (hb : b.lon < -180000000 ∨ 180000000 < b.lon) :
    g.hasEdge a b ≠ .ok true := by
  obtain ⟨hgen, hall⟩ := done_reports ho h
  have hmem : ∀ a, a ∈ order ps.flatten ↔ a ∈ ps.flatten := fun a => (ho _).mem_iff
  unfold generate at hgen
  rw [polygonVertices_eq] at hgen
  have hf : ∀ a, ∃ vis, a ∈ ps.flatten → scanner a = .ok vis ∧ ∀ r ∈ vis, r.1 ∈ ps.flatten := by
    intro a
    by_cases ha : a ∈ ps.flatten
    · obtain ⟨vis, h⟩ := hall a ha
      exact ⟨vis, fun _ => h⟩
    · exact ⟨[], fun h => absurd h ha⟩
  choose f hf using hf
  have hon : On ps.flatten f := fun a ha x hx => (hf a ha).2 x hx
  obtain ⟨g', h1, _, _, _, h2⟩ := run_opsOf hon (us := order ps.flatten) fun a ha => (hmem a).1 ha
  rw [sweepAll_run _ (fun a ha => (hf a ((hmem a).1 ha)).1), h1] at hgen
  obtain rfl := Except.ok.inj hgen
  have range : ∀ c ∈ ps.flatten, ∀ x ∈ f c, -180000000 ≤ x.1.lon ∧ x.1.lon ≤ 180000000 := by
    intro c hc x hx
    obtain ⟨m, segs, look, _, _, _, h4⟩ := hs c
    exact scanC_range (h4 ▸ (hf c hc).1) x hx
  intro he
  obtain ⟨_, m, ⟨h3, h4⟩ | ⟨h3, h4⟩⟩ := (h2 a b).1.1 he
  · have := range a ((hmem a).1 h3) _ h4; simp only at this; omega
  · have := range b ((hmem b).1 h3) _ h4; simp only at this; omega

/-- An island drawn with longitudes from 190 to 200 degrees. -/
def exDrawnEast : List Coord :=
  [⟨190000000, 0⟩, ⟨200000000, 0⟩, ⟨200000000, 10000000⟩, ⟨190000000, 10000000⟩]

/-- The same island drawn with longitudes from -170 to -160 degrees. -/
def exDrawnWest : List Coord :=
  [⟨-170000001, 0⟩, ⟨-160000001, 0⟩, ⟨-160000001, 10000000⟩, ⟨-170000001, 10000000⟩]

theorem exTwins_scans : ∀ a ∈ [exDrawnEast, exDrawnWest].flatten,
    (match exScanner Polygon.SumTree.sequential [exDrawnEast, exDrawnWest] a with
      | .ok vis => vis.all fun r => decide (r.1 ∈ [exDrawnEast, exDrawnWest].flatten)
      | .error _ => false) = true := by decide +kernel

theorem exTwins_defined : ∀ a ∈ [exDrawnEast, exDrawnWest].flatten,
    exScanner Polygon.SumTree.sequential [exDrawnEast, exDrawnWest] a ≠ .error .ub := by
  intro a ha h
  have := exTwins_scans a ha
  rw [h] at this
  simp at this

/-- Non-vacuity of `C94_beyond`: if the island is drawn at both places generation returns. -/
example : (∀ v ∈ exDrawnEast, 180000000 < v.lon) ∧
    ∃ g, generateP [exDrawnEast, exDrawnWest] (exScanner Polygon.SumTree.sequential [exDrawnEast, exDrawnWest]) id = .done g ∧
      g.hasEdge ⟨190000000, 0⟩ ⟨-160000001, 0⟩ = .ok true ∧
      g.hasEdge ⟨190000000, 0⟩ ⟨200000000, 0⟩ = .ok false := by
  refine ⟨by decide, ?_⟩
  rcases C94_generate [exDrawnEast, exDrawnWest] (exScanner Polygon.SumTree.sequential [exDrawnEast, exDrawnWest]) id
    (fun l => List.Perm.refl l) (by decide) exTwins_defined with ⟨_, g, h, _⟩ | ⟨h, _⟩
  · refine ⟨g, h, ?_⟩
    have hgen := (done_reports (order := id) (fun l => List.Perm.refl l) h).1
    have h1 : ((generate [exDrawnEast, exDrawnWest] (exScanner Polygon.SumTree.sequential [exDrawnEast, exDrawnWest]) id).bind
        fun g => do
          let x ← g.hasEdge ⟨190000000, 0⟩ ⟨-160000001, 0⟩
          let y ← g.hasEdge ⟨190000000, 0⟩ ⟨200000000, 0⟩
          return (x, y)) = .ok (true, false) := by decide +kernel
    rw [hgen] at h1
    obtain ⟨_, e, h1⟩ := bind_split h1
    cases Except.ok.inj e
    obtain ⟨x, h2, h1⟩ := bind_split h1
    obtain ⟨y, h3, h1⟩ := bind_split h1
    cases Except.ok.inj h1
    exact ⟨h2, h3⟩
  · exfalso
    obtain ⟨a, ha, h⟩ := h
    have hc := exTwins_scans a ha
    rcases h with h | ⟨vis, h, r, hr, hn⟩
    · rw [h] at hc; simp at hc
    · rw [h] at hc
      exact hn (by simpa using List.all_eq_true.1 hc r hr)

/-- An island drawn across the meridian, from 175 to 185 degrees. -/
def exAcross : List Coord :=
  [⟨175000000, 0⟩, ⟨185000000, 0⟩, ⟨185000000, 10000000⟩, ⟨175000000, 10000000⟩]

theorem openInitialC_look {obs : Coord} {s : Seg}
    (h : (match Vistree.openInitialC (fun _ _ => false) obs .empty s with
      | .ok ⟨[], []⟩ => true
      | _ => false) = true) (look : Seg → Seg → Bool) :
    Vistree.openInitialC look obs .empty s = .ok .empty := by
  unfold Vistree.openInitialC at h ⊢
  split_ifs at h ⊢ with h0
  · rfl
  · cases h1 : s.intersectC (Vistree.initialScanline obs) with
    | error e => rw [h1] at h; simp at h
    | ok x =>
      rw [h1] at h
      simp only [Res.bind_ok] at h ⊢
      cases x with
      | none => rfl
      | some x =>
        dsimp only at h ⊢
        cases h2 : (Vistree.initialScanline obs).onSegmentC s.p with
        | error e => rw [h2] at h; simp at h
        | ok b1 =>
          rw [h2] at h
          simp only [Res.bind_ok] at h ⊢
          cases h3 : (Vistree.initialScanline obs).onSegmentC s.q with
          | error e => rw [h3] at h; simp at h
          | ok b2 =>
            rw [h3] at h
            simp only [Res.bind_ok] at h ⊢
            split_ifs at h ⊢ with h4
            · cases h5 : x.subC obs with
              | error e => rw [h5] at h; simp at h
              | ok d =>
                rw [h5] at h
                simp only [Res.bind_ok] at h
                cases h6 : d.magSqC with
                | error e => rw [h6] at h; simp at h
                | ok k =>
                  rw [h6] at h
                  simp [OpenEdges.add, OpenEdges.empty, OpenEdges.emplace] at h
            · rfl

/-- The map of the island drawn across the meridian, with its copies. -/
def exAcrossMap : VisMap :=
  Vistree.ofPolygons (polygonsPeriodic Polygon.SumTree.sequential [exAcross])

/-- **C94** (the claim that generation returns for every map of an island fails) An island drawn
across the meridian in one piece ends the process, in whatever order its vertices are handled.  This
is so for one behaviour of the containers; for none of them does generation return. -/
theorem C94_across_false :
    (∀ order : List Coord → List Coord, (∀ l, (order l).Perm l) →
      generateP [exAcross] (exScanner Polygon.SumTree.sequential [exAcross]) order = .aborted) ∧
    ∀ scanner, IsScanner Polygon.SumTree.sequential [exAcross] scanner →
      ∀ order : List Coord → List Coord, (∀ l, (order l).Perm l) →
        ∀ g, generateP [exAcross] scanner order ≠ .done g := by
  have never : ∀ scanner, IsScanner Polygon.SumTree.sequential [exAcross] scanner →
      ∀ order : List Coord → List Coord, (∀ l, (order l).Perm l) →
        ∀ g, generateP [exAcross] scanner order ≠ .done g := by
    intro scanner hs order ho g h
    obtain ⟨_, hall⟩ := done_reports ho h
    obtain ⟨vis, hv, hin⟩ := hall ⟨175000000, 0⟩ (by decide)
    obtain ⟨m, segs, look, h1, h2, _, h4⟩ := hs ⟨175000000, 0⟩
    rw [h4] at hv
    have hopen : ∀ s ∈ Vistree.segments exAcrossMap, ∀ look,
        Vistree.openInitialC look ⟨175000000, 0⟩ .empty s = .ok .empty := by
      have : ∀ s ∈ Vistree.segments exAcrossMap,
          (match Vistree.openInitialC (fun _ _ => false) ⟨175000000, 0⟩ .empty s with
            | .ok ⟨[], []⟩ => true
            | _ => false) = true := by decide +kernel
      exact fun s hs => openInitialC_look (this s hs)
    obtain ⟨w, hw, hwl⟩ := scanC_first (M := exAcrossMap) (obs := ⟨175000000, 0⟩)
      (v := ⟨185000000, 0⟩)
      (inc := [⟨⟨175000000, 0⟩, ⟨185000000, 0⟩⟩, ⟨⟨185000000, 0⟩, ⟨185000000, 10000000⟩⟩])
      (by decide +kernel) h1 h2 hopen (by decide +kernel) (by decide +kernel) (by decide)
      (by decide +kernel) (by decide +kernel) (by decide +kernel) hv
    have hw' : normalizeC ⟨185000000, 0⟩ = .ok ⟨-175000001, 0⟩ := by decide +kernel
    rw [hw'] at hw
    obtain rfl := Except.ok.inj hw
    have := hin _ hwl
    revert this
    decide
  refine ⟨fun order ho => ?_, never⟩
  have hub : ∀ a ∈ [exAcross].flatten,
      exScanner Polygon.SumTree.sequential [exAcross] a ≠ .error .ub := by decide +kernel
  rcases C94_generate [exAcross] (exScanner Polygon.SumTree.sequential [exAcross]) order ho
    (by decide) hub with ⟨_, g, h, _⟩ | ⟨_, h⟩
  · exact absurd h (never _ (exScanner_ok _ _) order ho g)
  · exact h

/-! ### Merging -/

open Graph in
/-- **C94** Merging never raises an exception.  Whatever has been done to the graphs, and in whatever
order the additions happen, it returns if all ends of edges are vertices of the graphs' polygons and
ends the process otherwise. -/
theorem C94_merge (gs : List Graph) (ps : List (List Coord)) (schedule : List Op → List Op)
    (hg : ∀ g ∈ gs, g.Shape) (hp : MergeOrder gs ps) (hsch : ∀ l, (schedule l).Perm l) :
    ((∀ g ∈ gs, ∀ a b, g.hasEdge a b = .ok true → a ∈ (gs.flatMap polygons).flatten ∧
          b ∈ (gs.flatMap polygons).flatten) ∧
        ∃ G, mergeP ps schedule gs = .done G ∧ G.polygons = ps) ∨
      ((∃ g ∈ gs, ∃ a b, g.hasEdge a b = .ok true ∧ (a ∉ (gs.flatMap polygons).flatten ∨
          b ∉ (gs.flatMap polygons).flatten)) ∧
        mergeP ps schedule gs = .aborted) := by
  obtain ⟨ops, h1, h2⟩ := mergeOps_ok gs hg
  have hmem : ∀ o, o ∈ schedule ops ↔ o ∈ ops := fun o => (hsch ops).mem_iff
  have hv : ∀ c, c ∈ (gs.flatMap polygons).flatten ↔ c ∈ (ofPolygons ps).verts := by
    intro c
    show _ ↔ c ∈ ps.flatten
    rw [List.mem_flatten, List.mem_flatten]
    constructor
    · rintro ⟨p, hpp, hc⟩
      obtain ⟨g, hgg, hgp⟩ := List.mem_flatMap.1 hpp
      exact ⟨p, (hp.2 p).2 ⟨g, hgg, hgp⟩, hc⟩
    · rintro ⟨p, hpp, hc⟩
      obtain ⟨g, hgg, hgp⟩ := (hp.2 p).1 hpp
      exact ⟨p, List.mem_flatMap.2 ⟨g, hgg, hgp⟩, hc⟩
  have hM : mergeP ps schedule gs = .region ((ofPolygons ps).run (schedule ops)) := by
    unfold mergeP merge; rw [h1]; rfl
  have hcr : ∀ g ∈ gs, ∀ a b, g.hasEdge a b = .ok true → ∃ m, .add a b m ∈ ops := by
    intro g hgg a b h
    obtain ⟨ha, hb, _⟩ := hasEdge_true_mem (hg g hgg) h
    exact ⟨_, (h2 _).2 ⟨g, hgg, a, b, _, rfl, h, isCrossing_ok (hg g hgg) ha hb⟩⟩
  rcases run_cases (schedule ops) (ofPolygons_shape ps) (fun o ho => by
      obtain ⟨g, hgg, a, b, m, rfl, h3, _⟩ := (h2 o).1 ((hmem o).1 ho)
      exact ⟨a, b, m, rfl, (hasEdge_true_mem (hg g hgg) h3).2.2.1⟩) with
    ⟨h3, G, h4, f⟩ | ⟨⟨a, b, m, h3, hn⟩, h4⟩
  · refine Or.inl ⟨fun g hgg a b h => ?_, G, by rw [hM, h4]; rfl, f.polygons⟩
    obtain ⟨m, hm⟩ := hcr g hgg a b h
    rw [hv, hv]
    exact h3 a b m ((hmem _).2 hm)
  · obtain ⟨g, hgg, a', b', m', e, h5, _⟩ := (h2 _).1 ((hmem _).1 h3)
    cases e
    exact Or.inr ⟨⟨g, hgg, a, b, h5, by rwa [hv, hv]⟩, by rw [hM, h4]; rfl⟩

/-- A graph to which a vertex has been added and linked. -/
def exGrown : Res Graph :=
  ((Graph.ofPolygons [[⟨0, 0⟩, ⟨1, 0⟩, ⟨0, 1⟩]]).addVertex ⟨5, 5⟩).addEdge ⟨0, 0⟩ ⟨5, 5⟩ false

/-- Non-vacuity of `C94_merge`, and (the claim that merging returns fails for graphs with added
vertices): merging a graph to which a vertex has been added with itself ends the process. -/
theorem C94_grown_false : ∃ g, exGrown = .ok g ∧ g.Shape ∧
    Graph.MergeOrder [g, g] [[⟨0, 0⟩, ⟨1, 0⟩, ⟨0, 1⟩]] ∧
    ∀ schedule : List Graph.Op → List Graph.Op, (∀ l, (schedule l).Perm l) →
      Graph.mergeP [[⟨0, 0⟩, ⟨1, 0⟩, ⟨0, 1⟩]] schedule [g, g] = .aborted := by
  have hs : ((Graph.ofPolygons [[⟨0, 0⟩, ⟨1, 0⟩, ⟨0, 1⟩]]).addVertex ⟨5, 5⟩).Shape :=
    Graph.addVertex_shape (Graph.ofPolygons_shape _) _
  rcases addEdge_cases hs (a := ⟨0, 0⟩) (b := ⟨5, 5⟩) false (by decide) with ⟨_, g, h1, f⟩ | ⟨h, _⟩
  · have hpoly : g.polygons = [[⟨0, 0⟩, ⟨1, 0⟩, ⟨0, 1⟩]] := f.polygons
    have hp : Graph.MergeOrder [g, g] [[⟨0, 0⟩, ⟨1, 0⟩, ⟨0, 1⟩]] :=
      ⟨by decide, by simp [hpoly]⟩
    refine ⟨g, h1, f.shape hs, hp, fun schedule hsch => ?_⟩
    rcases C94_merge [g, g] _ schedule (by simpa using f.shape hs) hp hsch with ⟨h, _⟩ | ⟨_, h⟩
    · exfalso
      have he : (exGrown.bind fun g => g.hasEdge ⟨0, 0⟩ ⟨5, 5⟩) = .ok true := by decide +kernel
      have h1' : exGrown = .ok g := h1
      rw [h1'] at he
      have := (h g List.mem_cons_self ⟨0, 0⟩ ⟨5, 5⟩ he).2
      simp [hpoly] at this
    · exact h
  · exact absurd (by decide) h

end Capi
