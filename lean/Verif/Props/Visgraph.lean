import Verif.Lemmas.Visgraph
import Verif.Props.Concurrency
import Verif.Props.Merge
import Verif.Props.Polygon

/-!
# C38–C41: generation of visibility graphs

`T` is the summation plan of the polygon constructor, `scanner` any behaviour of the visibility
scan on the periodic polygons, `order` any order in which the vertices are handled.
-/

namespace Capi

open Visgraph

/-! ### C38 -/

/-- **C38** Generation succeeds; the graph has the given polygons and vertices, two different
vertices are linked exactly if one of the two half scans reports the other, and the link counts
as crossing the meridian exactly if no scan reports it without crossing. -/
theorem C38_edges (T : ℕ → Polygon.SumTree) (ps : List (List Coord))
    (hg : ∀ v ∈ ps.flatten, v.Geo) (scanner : Coord → Res (List (Coord × Bool)))
    (hs : IsScanner T ps scanner) (order : List Coord → List Coord) (ho : ∀ l, (order l).Perm l) :
    ∃ (g : Graph) (f : Coord → List (Coord × Bool)), generate ps scanner order = .ok g ∧
      (∀ a ∈ ps.flatten, scanner a = .ok (f a)) ∧
      g.polygons = ps ∧ g.verts = ps.flatten ∧ UserGraph g ∧
      ∀ a b,
        (g.hasEdge a b = .ok true ↔ a ≠ b ∧ a ∈ ps.flatten ∧ b ∈ ps.flatten ∧
          ∃ m, (b, m) ∈ f a ∨ (a, m) ∈ f b) ∧
        (g.isCrossing a b = .ok true ↔
          g.hasEdge a b = .ok true ∧ (b, false) ∉ f a ∧ (a, false) ∉ f b) ∧
        g.hasEdge a b = g.hasEdge b a ∧ g.isCrossing a b = g.isCrossing b a := by
  obtain ⟨f, h1, h2, _⟩ := hs.answers hg
  have hmem : ∀ a, a ∈ order ps.flatten ↔ a ∈ ps.flatten := fun a => (ho _).mem_iff
  obtain ⟨g, h4, h5, h6, h7, h8⟩ := run_opsOf h2 (us := order ps.flatten) fun a ha => (hmem a).1 ha
  refine ⟨g, fun a => if a ∈ ps.flatten then f a else [], ?_, ?_, h6, h7, h5, fun a b => ?_⟩
  · unfold generate
    rw [polygonVertices_eq, sweepAll_run _ (fun a ha => h1 a ((hmem a).1 ha)), h4]
  · intro a ha; beta_reduce; rw [if_pos ha]; exact h1 a ha
  beta_reduce
  obtain ⟨r1, r2⟩ := h8 a b
  obtain ⟨r3, r4⟩ := h8 b a
  simp only [hmem] at r1 r2 r3 r4
  have e1 : g.hasEdge a b = .ok true ↔ a ≠ b ∧ a ∈ ps.flatten ∧ b ∈ ps.flatten ∧
      ∃ m, (b, m) ∈ (if a ∈ ps.flatten then f a else []) ∨
        (a, m) ∈ (if b ∈ ps.flatten then f b else []) := by
    rw [r1]
    constructor
    · rintro ⟨hab, m, ⟨ha, hb⟩ | ⟨hb, ha⟩⟩
      · exact ⟨hab, ha, h2 a ha _ hb, m, Or.inl (by rwa [if_pos ha])⟩
      · exact ⟨hab, h2 b hb _ ha, hb, m, Or.inr (by rwa [if_pos hb])⟩
    · rintro ⟨hab, ha, hb, m, h | h⟩
      · rw [if_pos ha] at h; exact ⟨hab, m, Or.inl ⟨ha, h⟩⟩
      · rw [if_pos hb] at h; exact ⟨hab, m, Or.inr ⟨hb, h⟩⟩
  have reg := h5.regular
  have e3 : g.hasEdge a b = g.hasEdge b a := by
    rw [Graph.hasEdge_eq reg.built.shape, Graph.hasEdge_eq reg.built.shape, reg.sym a b]
    simp only [eq_comm (a := b), and_comm (a := b ∈ g.verts)]
  have e4 : g.isCrossing a b = g.isCrossing b a := by
    rw [Graph.isCrossing_eq reg.built.shape, Graph.isCrossing_eq reg.built.shape, reg.sym a b]
    simp only [eq_comm (a := b), and_comm (a := b ∈ g.verts)]
  refine ⟨e1, ?_, e3, e4⟩
  rw [r2, r1]
  constructor
  · rintro ⟨hab, hm, hn⟩
    refine ⟨⟨hab, hm⟩, fun h => hn ?_, fun h => hn ?_⟩
    · split_ifs at h with ha
      · exact Or.inl ⟨ha, h⟩
      · simp at h
    · split_ifs at h with hb
      · exact Or.inr ⟨hb, h⟩
      · simp at h
  · rintro ⟨⟨hab, hm⟩, hn1, hn2⟩
    refine ⟨hab, hm, ?_⟩
    rintro (⟨ha, h⟩ | ⟨hb, h⟩)
    · exact hn1 (by rwa [if_pos ha])
    · exact hn2 (by rwa [if_pos hb])

/-- A scanner. -/
def exScanner (T : ℕ → Polygon.SumTree) (ps : List (List Coord)) :
    Coord → Res (List (Coord × Bool)) := fun obs =>
  let m := Vistree.ofPolygons (polygonsPeriodic T ps)
  Vistree.scanC exLook m obs (Vistree.vertices m) (Vistree.segments m) true

theorem exScanner_ok (T : ℕ → Polygon.SumTree) (ps : List (List Coord)) :
    IsScanner T ps (exScanner T ps) := fun _ =>
  ⟨_, _, _, List.Perm.refl _, List.Perm.refl _, exLook_ok, rfl⟩

/-- Non-vacuity of C38: two squares; their near corners are linked. -/
example : (generate [exSquare, [⟨20, 0⟩, ⟨30, 0⟩, ⟨30, 10⟩, ⟨20, 10⟩]]
      (exScanner Polygon.SumTree.sequential
        [exSquare, [⟨20, 0⟩, ⟨30, 0⟩, ⟨30, 10⟩, ⟨20, 10⟩]]) id).bind
      (fun g => g.hasEdge ⟨10, 10⟩ ⟨20, 0⟩) = .ok true := by decide +kernel

/-- **C38** Two vertices are linked whenever the line of sight from the southern one to one of the
three copies of the northern one has no point but its end in common with any copy of any edge not
ending at the observer and the observer's own corner is not in the way; the link is plain if the
copy is the vertex itself.  (For vertices of equal latitude either may be the observer.) -/
theorem C38_clear_linked (T : ℕ → Polygon.SumTree) (ps : List (List Coord))
    (hg : ∀ v ∈ ps.flatten, v.Geo) (hst : ∀ p ∈ ps, Stable T p)
    (scanner : Coord → Res (List (Coord × Bool))) (hs : IsScanner T ps scanner)
    (order : List Coord → List Coord) (ho : ∀ l, (order l).Perm l)
    (a b : Coord) (ha : a ∈ ps.flatten) (hb : b ∈ ps.flatten) (hab : a ≠ b) (hlat : a.lat ≤ b.lat)
    (k : ℤ) (hk : IsCopy k)
    (hclear : ∀ e, EdgeOf ps e → ∀ j, IsCopy j → a ≠ e.p.shift j → a ≠ e.q.shift j →
      Clear a (b.shift k) (e.shift j))
    (hcorner : CornerAllows ps a (b.shift k)) :
    ∃ g, generate ps scanner order = .ok g ∧ g.hasEdge a b = .ok true ∧ g.hasEdge b a = .ok true ∧
      (k = 0 → g.isCrossing a b = .ok false ∧ g.isCrossing b a = .ok false) := by
  obtain ⟨g, f, h1, h2, _, h3, h4, h5⟩ := C38_edges T ps hg scanner hs order ho
  obtain ⟨f', h6, _, h8⟩ := hs.answers hg
  obtain ⟨m, segs, look, hset, hf⟩ := h8 a ha
  have hff : f a = f' a := by
    have := h2 a ha
    rw [h6 a ha] at this
    exact (Except.ok.inj this).symm
  have hag := hg a ha
  have hne : b.shift k ≠ a := by
    intro e
    apply hab
    have hbg := hg b hb
    cases a; cases b
    simp only [Coord.shift, Coord.mk.injEq, Coord.Geo, IsCopy] at *
    omega
  obtain ⟨x, hx, hr⟩ := C34_clear_is_reported _ m segs look hset a (b.shift k) (geo_per hag)
    (stable_vertex hst hb hk) hne
    (fun s hse h9 h10 => by
      obtain ⟨e, he, j, hj, rfl⟩ := stable_edge hst hse
      exact hclear e he j hj h9 h10)
    (fun c d hcd => hcorner c d (stable_corner hst hg hag hcd)) true
    (fun _ => ⟨by simp only [Coord.Geo] at hag; omega, hlat⟩)
  obtain ⟨e1, e2⟩ := reportOf_shift (hg b hb) hr
  have hx' : (b, x.2) ∈ f a := by rw [hff, hf, ← e1]; exact hx
  have hE := (h5 a b).1.2 ⟨hab, ha, hb, x.2, Or.inl hx'⟩
  have hE' : g.hasEdge b a = .ok true := by rw [← (h5 a b).2.2.1]; exact hE
  refine ⟨g, h1, hE, hE', fun hk0 => ?_⟩
  have hf0 : x.2 = false := by
    cases hx2 : x.2 with
    | false => rfl
    | true => exact absurd hk0 (e2.1 hx2)
  have hva : a ∈ g.verts := h3 ▸ ha
  have hvb : b ∈ g.verts := h3 ▸ hb
  have hc : g.isCrossing a b = .ok false := by
    have hno : ¬ g.isCrossing a b = .ok true := fun h => ((h5 a b).2.1.1 h).2.1 (hf0 ▸ hx')
    rw [Graph.isCrossing_ok h4.regular.built.shape hva hvb] at hno ⊢
    cases hz : (a != b && g.bits a b == 2) with
    | false => rfl
    | true => rw [hz] at hno; exact absurd rfl hno
  exact ⟨hc, by rw [← (h5 a b).2.2.2]; exact hc⟩

/-- A triangle, for the examples. -/
def exTriangle : List Coord := [⟨0, 0⟩, ⟨1000, 0⟩, ⟨0, 1000⟩]

/-- Non-vacuity of `C38_clear_linked`: along an edge of a triangle. -/
example : (∀ v ∈ [exTriangle].flatten, v.Geo) ∧
    (∀ p ∈ [exTriangle], Stable Polygon.SumTree.sequential p) ∧
    (∀ e, EdgeOf [exTriangle] e → ∀ j, IsCopy j → (⟨0, 0⟩ : Coord) ≠ e.p.shift j →
      ⟨0, 0⟩ ≠ e.q.shift j → Clear ⟨0, 0⟩ (Coord.shift 0 ⟨1000, 0⟩) (e.shift j)) ∧
    CornerAllows [exTriangle] ⟨0, 0⟩ (Coord.shift 0 ⟨1000, 0⟩) := by
  have cases3 : ∀ i, i < exTriangle.length → i = 0 ∨ i = 1 ∨ i = 2 := by
    intro i hi
    have : exTriangle.length = 3 := rfl
    omega
  refine ⟨by decide, ?_, ?_, ?_⟩
  · intro p hp k hk
    rw [List.mem_singleton] at hp
    subst hp
    rcases hk with rfl | rfl | rfl <;> decide +kernel
  · rintro e ⟨p, hp, i, hi, rfl⟩ j hj h1 h2 x y ⟨t, t0, t1, hx, hy⟩ ⟨u, u0, u1, hx', hy'⟩
    rw [List.mem_singleton] at hp
    subst hp
    rcases hj with rfl | rfl | rfl <;> rcases cases3 i hi with rfl | rfl | rfl <;>
      norm_num [ringAt, exTriangle, Seg.shift, Coord.shift] at * <;>
      constructor <;> linarith
  · rintro a b ⟨p, hp, i, hi, rfl, hv, rfl⟩
    rw [List.mem_singleton] at hp
    subst hp
    rcases cases3 i hi with rfl | rfl | rfl
    · exact ⟨by decide, Or.inr ⟨1, by norm_num, by norm_num, Or.inr (by
        norm_num [OnRay, ringAt, exTriangle, Coord.shift])⟩⟩
    · exact absurd hv (by decide)
    · exact absurd hv (by decide)

/-- **C38** Polygons built by the constructor from rings without equal neighbours whose area
exceeds the rounding error meet the condition of `C38_clear_linked`. -/
theorem C38_stable (T : ℕ → Polygon.SumTree) (hT : Polygon.PlanOk T) (vs : List Coord)
    (hgeo : ∀ v ∈ vs, v.Geo) (hn : NoRepeat vs)
    (hd : (T (Polygon.removeCollinear vs).length).depth ≤ 2 ^ 40)
    (hA : (Polygon.removeCollinear vs).length *
        (156 + 44 * (T (Polygon.removeCollinear vs).length).depth) <
      |twiceArea (Polygon.removeCollinear vs)|) : Stable T (Polygon.mk T vs) := by
  intro k hk
  have hpos := C12_counter_clockwise_partial T hT vs (fun v hv => geo_per (hgeo v hv)) hd hA
  have hsame : Polygon.removeCollinear (Polygon.mk T vs) = Polygon.mk T vs := by
    rcases C12_same_vertices T vs with h | h
    · rw [h, removeCollinear_idem hn]
    · rw [h, removeCollinear_reverse, removeCollinear_idem hn]
  have hlen : (Polygon.mk T vs).length = (Polygon.removeCollinear vs).length := by
    rcases C12_same_vertices T vs with h | h <;> rw [h]; simp
  have harea : |twiceArea (Polygon.mk T vs)| = |twiceArea (Polygon.removeCollinear vs)| := by
    rcases C12_same_vertices T vs with h | h <;> rw [h]
    rw [twiceArea_reverse, abs_neg]
  have e : Polygon.mk T ((Polygon.mk T vs).map (Coord.shift k)) =
      Polygon.normalizeOrient
        (T (Polygon.removeCollinear ((Polygon.mk T vs).map (Coord.shift k))).length)
        (Polygon.removeCollinear ((Polygon.mk T vs).map (Coord.shift k))) := rfl
  rw [e, removeCollinear_shift, hsame, mk_of_resolved hT, if_pos (by rwa [twiceArea_shift])]
  · intro v hv
    obtain ⟨w, hw, rfl⟩ := List.mem_map.1 hv
    exact shift_per (hgeo w (mem_mk hw)) hk
  · rw [List.length_map, hlen]; exact hd
  · unfold AreaResolved; rw [List.length_map, hlen, twiceArea_shift, harea]; exact hA

/-! ### C39 -/

/-- **C39** The graph does not depend on the order in which the vertices are handled. -/
theorem C39_order (T : ℕ → Polygon.SumTree) (ps : List (List Coord))
    (hg : ∀ v ∈ ps.flatten, v.Geo) (scanner : Coord → Res (List (Coord × Bool)))
    (hs : IsScanner T ps scanner) (o1 o2 : List Coord → List Coord) (h1 : ∀ l, (o1 l).Perm l)
    (h2 : ∀ l, (o2 l).Perm l) :
    ∃ g, generate ps scanner o1 = .ok g ∧ generate ps scanner o2 = .ok g := by
  obtain ⟨f, hf, hon, _⟩ := hs.answers hg
  have hmem : ∀ o : List Coord → List Coord, (∀ l, (o l).Perm l) →
      ∀ a ∈ o ps.flatten, a ∈ ps.flatten := fun o h a ha => (h _).mem_iff.1 ha
  have hgen : ∀ o : List Coord → List Coord, (∀ l, (o l).Perm l) →
      generate ps scanner o = (Graph.ofPolygons ps).run (opsOf f (o ps.flatten)) := by
    intro o h
    unfold generate
    rw [polygonVertices_eq, sweepAll_run _ fun a ha => hf a (hmem o h a ha)]
  obtain ⟨g, hr, _⟩ := run_opsOf hon (hmem o1 h1)
  refine ⟨g, (hgen o1 h1).trans hr, (hgen o2 h2).trans ?_⟩
  rw [← hr]
  refine run_perm (Graph.ofPolygons_shape ps) ?_ ?_ (opsOn hon (hmem o2 h2))
  · exact ((h2 _).trans (h1 _).symm).flatMap_right _
  · intro o ho
    obtain ⟨_, _, _, _, rfl⟩ := mem_opsOf.1 ho
    trivial

/-- **C39** Nor does it depend on the number of threads, on which thread handles which vertices,
or on how their additions interleave: when all threads are finished the cells are those of the
sequential result. -/
theorem C39_schedule (T : ℕ → Polygon.SumTree) (ps : List (List Coord))
    (hg : ∀ v ∈ ps.flatten, v.Geo) (scanner : Coord → Res (List (Coord × Bool)))
    (hs : IsScanner T ps scanner) (N : ℕ) (share : Fin N → List Coord)
    (hshare : (List.ofFn share).flatten.Perm ps.flatten) :
    ∃ f : Coord → List (Coord × Bool), (∀ a ∈ ps.flatten, scanner a = .ok (f a)) ∧
      ∀ (refuse : Conc.State N → Fin N → Prop) (ts : List (Fin N)) (σ : Conc.State N),
        Conc.Exec ps.flatten.length refuse (Conc.start (Conc.memOf (Graph.ofPolygons ps)) fun t =>
          Conc.opsCalls (Graph.ofPolygons ps) (opsOf f (share t))) ts σ → σ.finished →
        generate ps scanner id = .ok (Conc.withMem (Graph.ofPolygons ps) σ.mem) := by
  obtain ⟨f, hf, hon, _⟩ := hs.answers hg
  refine ⟨f, hf, fun refuse ts σ hex hfin => ?_⟩
  have hin : ∀ t, ∀ a ∈ share t, a ∈ ps.flatten := fun t a ha =>
    hshare.mem_iff.1 (List.mem_flatten.2 ⟨_, (List.mem_ofFn' _ _).2 ⟨t, rfl⟩, ha⟩)
  unfold generate
  rw [polygonVertices_eq, id, sweepAll_run _ fun a ha => hf a ha]
  refine C23_schedule_independent N (Graph.ofPolygons ps) (Graph.ofPolygons_shape ps)
    (fun t => opsOf f (share t)) ?_ ?_ refuse ts σ hex hfin _ ?_
  · intro t o ho
    obtain ⟨_, _, _, _, rfl⟩ := mem_opsOf.1 ho
    trivial
  · exact fun t => opsOn hon (hin t)
  · refine (hshare.symm.flatMap_right _).trans (List.Perm.of_eq ?_)
    unfold opsOf
    rw [List.flatMap_def, List.map_flatten, List.flatten_flatten, List.map_ofFn, List.map_ofFn]
    rfl

/-- Non-vacuity of `C39_schedule`: two threads share the vertices of a triangle. -/
example : (List.ofFn (![[⟨0, 1000⟩], [⟨1000, 0⟩, ⟨0, 0⟩]] : Fin 2 → List Coord)).flatten.Perm
    [exTriangle].flatten := by decide +kernel

/-- The obstacles of `C39_segment_order_false`. -/
def exTie : List (List Coord) :=
  [[⟨0, 0⟩, ⟨-50, 40⟩, ⟨-50, -40⟩], [⟨100, -50⟩, ⟨300, 30⟩, ⟨101, 70⟩],
    [⟨95, -3⟩, ⟨100, -1⟩, ⟨100, 1⟩]]

/-- The same as `exScanner` with the candidate segments in the opposite order. -/
def exScannerRev (T : ℕ → Polygon.SumTree) (ps : List (List Coord)) :
    Coord → Res (List (Coord × Bool)) := fun obs =>
  let m := Vistree.ofPolygons (polygonsPeriodic T ps)
  Vistree.scanC exLook m obs (Vistree.vertices m) (Vistree.segments m).reverse true

/-- **C39** (false) The order of the candidate segments, which depends on memory addresses, does
matter: two edges crossing the initial scanline at distances that round to the same number cannot
both be stored, and which one is lost decides whether a vertex is linked. -/
theorem C39_segment_order_false :
    ¬ ∀ (T : ℕ → Polygon.SumTree) (ps : List (List Coord)), (∀ v ∈ ps.flatten, v.Geo) →
      ∀ s1 s2, IsScanner T ps s1 → IsScanner T ps s2 →
        generate ps s1 id = generate ps s2 id := by
  intro h
  have h1 := h Polygon.SumTree.sequential exTie (by decide) _ (exScannerRev _ exTie)
    (exScanner_ok Polygon.SumTree.sequential exTie)
    (fun _ => ⟨_, _, _, List.Perm.refl _, List.reverse_perm _, exLook_ok, rfl⟩)
  have h2 := congrArg (fun r : Res Graph => r.bind fun g => g.hasEdge ⟨0, 0⟩ ⟨300, 30⟩) h1
  revert h2
  decide +kernel

/-! ### C41 -/

/-- **C41** A range is rejected exactly when there are polygons and it is reversed or ends behind
the last vertex; otherwise generation succeeds, in particular it never reads outside the vertex
list. -/
theorem C41_ranges (T : ℕ → Polygon.SumTree) (ps : List (List Coord))
    (hg : ∀ v ∈ ps.flatten, v.Geo) (scanner : Coord → Res (List (Coord × Bool)))
    (hs : IsScanner T ps scanner) (order shuffle : List Coord → List Coord)
    (ho : ∀ l, (order l).Perm l) (hsh : ∀ l, (shuffle l).Perm l) (lo hi : ℕ) :
    (ps ≠ [] ∧ (hi < lo ∨ ps.flatten.length < hi) →
      generateRange ps scanner order shuffle lo hi = .error .exn) ∧
    (ps = [] ∨ (lo ≤ hi ∧ hi ≤ ps.flatten.length) →
      ∃ g, generateRange ps scanner order shuffle lo hi = .ok g ∧ g.polygons = ps) := by
  constructor
  · rintro ⟨hp, hr⟩
    unfold generateRange
    rw [polygonVertices_eq]
    have hp' : ps.isEmpty = false := by simpa using hp
    simp only [hp', Bool.false_eq_true, if_false]
    rw [if_pos (by omega)]
    rfl
  · intro h
    obtain ⟨f, hf, hon, _⟩ := hs.answers hg
    obtain ⟨g, us, h1, _, _, h2, _⟩ := generateRange_ok hf hon order shuffle ho hsh lo hi h
    exact ⟨g, h1, h2⟩

/-- **C41** An empty range gives the graph without edges. -/
theorem C41_empty (ps : List (List Coord)) (scanner : Coord → Res (List (Coord × Bool)))
    (order shuffle : List Coord → List Coord) (ho : ∀ l, (order l).Perm l) (lo : ℕ)
    (hl : lo ≤ ps.flatten.length) :
    generateRange ps scanner order shuffle lo lo = .ok (Graph.ofPolygons ps) ∧
    ∀ a b, (Graph.ofPolygons ps).hasEdge a b ≠ .ok true := by
  constructor
  · unfold generateRange
    rw [polygonVertices_eq]
    cases hp : ps.isEmpty with
    | true => rfl
    | false =>
      simp only [Bool.false_eq_true, if_false]
      rw [if_neg (by omega)]
      have e : order [] = [] := List.Perm.eq_nil (ho [])
      simp [slice, e, sweepAll]
  · intro a b h
    exact (Graph.hasEdge_true_mem (Graph.ofPolygons_shape ps) h).2.2.2 (Graph.ofPolygons_bits ps a b)

/-! ### C40 -/

/-- **C40** Shards over ranges that cover all positions of one common shuffle, merged in any way,
answer like the graph generated in one go. -/
theorem C40_shards (T : ℕ → Polygon.SumTree) (ps : List (List Coord))
    (hg : ∀ v ∈ ps.flatten, v.Geo) (scanner : Coord → Res (List (Coord × Bool)))
    (hs : IsScanner T ps scanner) (shuffle : List Coord → List Coord)
    (hsh : ∀ l, (shuffle l).Perm l) (ranges : List (ℕ × ℕ))
    (hr : ∀ r ∈ ranges, r.1 ≤ r.2 ∧ r.2 ≤ ps.flatten.length)
    (hcov : ∀ i < ps.flatten.length, ∃ r ∈ ranges, r.1 ≤ i ∧ i < r.2)
    (orders : ℕ × ℕ → List Coord → List Coord) (ho : ∀ r l, (orders r l).Perm l)
    (order : List Coord → List Coord) (ho' : ∀ l, (order l).Perm l) :
    ∃ gs g, ranges.mapM (fun r => generateRange ps scanner (orders r) shuffle r.1 r.2) = .ok gs ∧
      generate ps scanner order = .ok g ∧
      ∀ (ps' : List (List Coord)) (schedule : List Graph.Op → List Graph.Op),
        Graph.MergeOrder gs ps' → (∀ l, (schedule l).Perm l) →
        ∃ G, Graph.merge ps' schedule gs = .ok G ∧ SameAnswers G g := by
  obtain ⟨f, hf, hon, _⟩ := hs.answers hg
  have hmem : ∀ a, a ∈ order ps.flatten ↔ a ∈ ps.flatten := fun a => (ho' _).mem_iff
  obtain ⟨g, h1, h2, _, h3, h4⟩ := run_opsOf hon (us := order ps.flatten) fun a ha => (hmem a).1 ha
  have key := fun r hrr => generateRange_ok hf hon (orders r) shuffle (ho r) hsh r.1 r.2
    (Or.inr (hr r hrr))
  obtain ⟨gs, h5, h6⟩ := mapM_ok ranges fun r hrr => (key r hrr).imp fun g h => h.choose_spec.1
  refine ⟨gs, g, h5, ?_, fun ps' schedule hmo hsch => ?_⟩
  · unfold generate
    rw [polygonVertices_eq, sweepAll_run _ fun a ha => hf a ((hmem a).1 ha), h1]
  -- what is known of each shard
  have hshard : ∀ x ∈ gs, ∃ us : List Coord, (∀ v ∈ us, v ∈ ps.flatten) ∧ UserGraph x ∧
      x.verts = ps.flatten ∧ ∀ a b,
        (x.hasEdge a b = .ok true ↔ a ≠ b ∧
          ∃ m, (a ∈ us ∧ (b, m) ∈ f a) ∨ (b ∈ us ∧ (a, m) ∈ f b)) ∧
        (x.isCrossing a b = .ok true ↔ a ≠ b ∧
          (∃ m, (a ∈ us ∧ (b, m) ∈ f a) ∨ (b ∈ us ∧ (a, m) ∈ f b)) ∧
          ¬ ((a ∈ us ∧ (b, false) ∈ f a) ∨ (b ∈ us ∧ (a, false) ∈ f b))) := by
    intro x hx
    obtain ⟨r, hrr, he⟩ := (h6 x).1 hx
    obtain ⟨y, us, k1, k2, k3, _, k4, k5⟩ := key r hrr
    rw [he] at k1
    obtain rfl := Except.ok.inj k1
    refine ⟨us, fun v hv => ?_, k3, k4, k5⟩
    obtain ⟨i, _, _, hi⟩ := (k2 v).1 hv
    exact (hsh _).mem_iff.1 (List.mem_of_getElem? hi)
  -- every vertex is handled by some shard
  have hcover : ∀ v ∈ ps.flatten, ∃ x ∈ gs, x.verts = ps.flatten ∧ ∀ b m, v ≠ b → (b, m) ∈ f v →
      x.hasEdge v b = .ok true ∧ (m = false → x.isCrossing v b ≠ .ok true) := by
    intro v hv
    obtain ⟨i, hi⟩ := List.mem_iff_getElem?.1 ((hsh _).mem_iff.2 hv)
    have hil : i < ps.flatten.length := by
      have := (List.getElem?_eq_some_iff.1 hi).1
      rwa [(hsh _).length_eq] at this
    obtain ⟨r, hrr, h7, h8⟩ := hcov i hil
    obtain ⟨y, us, k1, k2, k3, _, k4, k5⟩ := key r hrr
    have hus : v ∈ us := (k2 v).2 ⟨i, h7, h8, hi⟩
    refine ⟨y, (h6 y).2 ⟨r, hrr, k1⟩, k4, fun b m hvb hb => ⟨?_, ?_⟩⟩
    · exact (k5 v b).1.2 ⟨hvb, m, Or.inl ⟨hus, hb⟩⟩
    · rintro rfl h9
      exact ((k5 v b).2.1 h9).2.2 (Or.inl ⟨hus, hb⟩)
  have hbuilt : ∀ x ∈ gs, x.Built := fun x hx => (hshard x hx).choose_spec.2.1.regular.built
  have hsymm : ∀ x ∈ gs, ∀ a b, (x.hasEdge a b = .ok true ↔ x.hasEdge b a = .ok true) := by
    intro x hx a b
    obtain ⟨us, _, _, _, hu⟩ := hshard x hx
    rw [(hu a b).1, (hu b a).1]
    simp only [ne_comm (a := a), or_comm]
  obtain ⟨G, m1, _, m2, m3⟩ := C24_union gs ps' schedule hbuilt hmo hsch
  obtain ⟨_, G', _, m1', _, hUG, _⟩ := Graph.merge_ok hbuilt hmo hsch
  rw [m1] at m1'
  obtain rfl := Except.ok.inj m1'
  refine ⟨G, m1, same_of_true hUG.regular.built.shape h2.regular.built.shape ?_ ?_⟩
  · intro c
    rw [m2, h3]
    constructor
    · rintro ⟨x, hx, hc⟩
      obtain ⟨us, _, _, hv, _⟩ := hshard x hx
      rwa [hv] at hc
    · intro hc
      obtain ⟨x, hx, hv, _⟩ := hcover c hc
      exact ⟨x, hx, by rwa [hv]⟩
  intro a b
  obtain ⟨g1, g2⟩ := h4 a b
  simp only [hmem] at g1 g2
  have hE : (∃ x ∈ gs, x.hasEdge a b = .ok true ∨ x.hasEdge b a = .ok true) ↔
      a ≠ b ∧ ∃ m, (a ∈ ps.flatten ∧ (b, m) ∈ f a) ∨ (b ∈ ps.flatten ∧ (a, m) ∈ f b) := by
    constructor
    · rintro ⟨x, hx, h⟩
      have h : x.hasEdge a b = .ok true := h.elim id (hsymm x hx a b).2
      obtain ⟨us, hin, _, _, hu⟩ := hshard x hx
      obtain ⟨hab, m, ⟨n1, n2⟩ | ⟨n1, n2⟩⟩ := (hu a b).1.1 h
      · exact ⟨hab, m, Or.inl ⟨hin a n1, n2⟩⟩
      · exact ⟨hab, m, Or.inr ⟨hin b n1, n2⟩⟩
    · rintro ⟨hab, m, ⟨n1, n2⟩ | ⟨n1, n2⟩⟩
      · obtain ⟨x, hx, _, hc⟩ := hcover a n1
        exact ⟨x, hx, Or.inl (hc b m hab n2).1⟩
      · obtain ⟨x, hx, _, hc⟩ := hcover b n1
        exact ⟨x, hx, Or.inr (hc a m hab.symm n2).1⟩
  refine ⟨by rw [(m3 a b).1, hE, g1], ?_⟩
  rw [(m3 a b).2, hE, g2, and_assoc]
  refine and_congr_right fun hab => and_congr_right fun _ => ?_
  constructor
  · rintro h (⟨n1, n2⟩ | ⟨n1, n2⟩)
    · obtain ⟨x, hx, _, hc⟩ := hcover a n1
      obtain ⟨c1, c2⟩ := hc b false hab n2
      exact c2 rfl ((h x hx).1 c1)
    · obtain ⟨x, hx, _, hc⟩ := hcover b n1
      obtain ⟨c1, c2⟩ := hc a false hab.symm n2
      exact c2 rfl ((h x hx).2 c1)
  · intro h x hx
    obtain ⟨us, hin, _, _, hu⟩ := hshard x hx
    constructor
    · intro he
      obtain ⟨_, hm⟩ := (hu a b).1.1 he
      exact (hu a b).2.2 ⟨hab, hm, fun hn => h (hn.imp (fun z => ⟨hin a z.1, z.2⟩)
        fun z => ⟨hin b z.1, z.2⟩)⟩
    · intro he
      obtain ⟨hba, hm⟩ := (hu b a).1.1 he
      exact (hu b a).2.2 ⟨hba, hm, fun hn => h (hn.symm.imp (fun z => ⟨hin a z.1, z.2⟩)
        fun z => ⟨hin b z.1, z.2⟩)⟩

/-- Non-vacuity of C40: three vertices in a shard of one and a shard of two. -/
example : (∀ r ∈ [(0, 1), (1, 3)], r.1 ≤ r.2 ∧ r.2 ≤ [exTriangle].flatten.length) ∧
    ∀ i < [exTriangle].flatten.length, ∃ r ∈ [(0, 1), (1, 3)], r.1 ≤ i ∧ i < r.2 := by decide

end Capi
