import Verif.Props.Graph
import Verif.Props.Query
import Verif.Props.Visgraph

/-!
# C61: from polygons to paths

Generation, endpoint scans and search together, against chains of clear sight lines.
-/

namespace Capi

open ShortestPath Visgraph

/-- The straight line from `a` to `b` has no point but `b` in common with any edge not ending at
`a`, and does not start into the obstacle `a` is a corner of. -/
def Sees (ps : List (List Coord)) (a b : Coord) : Prop :=
  (∀ e, EdgeOf ps e → a ≠ e.p → a ≠ e.q → Clear a b e) ∧ CornerAllows ps a b

/-- `a` and `b` are different, see each other, and at least one of them is an obstacle vertex. -/
def SightLeg (ps : List (List Coord)) (a b : Coord) : Prop :=
  a ≠ b ∧ Sees ps a b ∧ Sees ps b a ∧ (a ∈ ps.flatten ∨ b ∈ ps.flatten)

theorem SightLeg.symm {ps : List (List Coord)} {a b : Coord} (h : SightLeg ps a b) :
    SightLeg ps b a := ⟨h.1.symm, h.2.2.1, h.2.1, h.2.2.2.symm⟩

/-- The straight line from `a` to the copy of `b` that is `k` periods to the east has no point but
its end in common with any copy of any edge not ending at `a`, and does not start into the obstacle
`a` is a corner of. -/
def SeesCopy (ps : List (List Coord)) (a b : Coord) (k : ℤ) : Prop :=
  (∀ e, EdgeOf ps e → ∀ j, IsCopy j → a ≠ e.p.shift j → a ≠ e.q.shift j →
    Clear a (b.shift k) (e.shift j)) ∧ CornerAllows ps a (b.shift k)

/-- `a` and `b` are different obstacle vertices that see each other across the meridian. -/
def CopyLeg (ps : List (List Coord)) (a b : Coord) : Prop :=
  a ≠ b ∧ a ∈ ps.flatten ∧ b ∈ ps.flatten ∧
    ∃ k, (k = 1 ∨ k = -1) ∧ SeesCopy ps a b k ∧ SeesCopy ps b a (-k)

/-- The length of the longer of the ways between `a` and `b`, where across the meridian the shorter
one is taken. -/
noncomputable def longWay (a b : Coord) : ℝ :=
  max (planeDist a b 0) (min (planeDist a b 1) (planeDist a b (-1)))

/-- Copies of edges beyond the meridian are out of the way of lines between points this side. -/
theorem clear_copy {a b : Coord} (ha : a.Geo) (hb : b.Geo) {e : Seg} (hp : e.p.Geo) (hq : e.q.Geo)
    {j : ℤ} (hj : j = 1 ∨ j = -1) : Clear a b (e.shift j) := by
  rintro x y ⟨t, t0, t1, hx, -⟩ ⟨u, u0, u1, hx', -⟩
  exfalso
  obtain ⟨a1, a2, -, -⟩ := ha
  obtain ⟨b1, b2, -, -⟩ := hb
  obtain ⟨p1, p2, -, -⟩ := hp
  obtain ⟨q1, q2, -, -⟩ := hq
  have A1 : (-180000000 : ℚ) ≤ a.lon := by exact_mod_cast a1
  have A2 : (a.lon : ℚ) ≤ 180000000 := by exact_mod_cast a2
  have B1 : (-180000000 : ℚ) ≤ b.lon := by exact_mod_cast b1
  have B2 : (b.lon : ℚ) ≤ 180000000 := by exact_mod_cast b2
  have P1 : (-180000000 : ℚ) ≤ e.p.lon := by exact_mod_cast p1
  have P2 : (e.p.lon : ℚ) ≤ 180000000 := by exact_mod_cast p2
  have Q1 : (-180000000 : ℚ) ≤ e.q.lon := by exact_mod_cast q1
  have Q2 : (e.q.lon : ℚ) ≤ 180000000 := by exact_mod_cast q2
  simp only [Seg.shift, Coord.shift] at hx
  rcases hj with rfl | rfl <;> push_cast at hx <;> nlinarith

theorem edge_geo {ps : List (List Coord)} (hg : ∀ v ∈ ps.flatten, v.Geo) {e : Seg}
    (he : EdgeOf ps e) : e.p.Geo ∧ e.q.Geo := by
  have := Vistree.edge_mem he
  exact ⟨hg _ this.1, hg _ this.2⟩

/-- A line of sight between vertices is a plain edge of the generated graph. -/
theorem sight_edge (T : ℕ → Polygon.SumTree) (ps : List (List Coord))
    (hg : ∀ v ∈ ps.flatten, v.Geo) (hst : ∀ p ∈ ps, Stable T p)
    (scanner : Coord → Res (List (Coord × Bool))) (hs : IsScanner T ps scanner)
    (order : List Coord → List Coord) (ho : ∀ l, (order l).Perm l) (g : Graph)
    (hgen : generate ps scanner order = .ok g) (a b : Coord) (ha : a ∈ ps.flatten)
    (hb : b ∈ ps.flatten) (h : SightLeg ps a b) :
    g.hasEdge a b = .ok true ∧ g.isCrossing a b = .ok false := by
  have key : ∀ a b : Coord, a ∈ ps.flatten → b ∈ ps.flatten → a ≠ b → Sees ps a b →
      a.lat ≤ b.lat → (g.hasEdge a b = .ok true ∧ g.hasEdge b a = .ok true) ∧
        g.isCrossing a b = .ok false ∧ g.isCrossing b a = .ok false := by
    intro a b ha hb hne hsee hlat
    have hb0 : b.shift 0 = b := by cases b; simp [Coord.shift]
    obtain ⟨g', h1, h2, h3, h4⟩ := C38_clear_linked T ps hg hst scanner hs order ho a b ha hb hne hlat
      0 (Or.inl rfl) (by
        rw [hb0]
        intro e he j hj n1 n2
        rcases hj with rfl | hj
        · have : e.shift 0 = e := by
            obtain ⟨⟨_, _⟩, ⟨_, _⟩⟩ := e
            simp [Seg.shift, Coord.shift]
          rw [this]
          have p0 : e.p.shift 0 = e.p := by cases e.p; simp [Coord.shift]
          have q0 : e.q.shift 0 = e.q := by cases e.q; simp [Coord.shift]
          rw [p0] at n1
          rw [q0] at n2
          exact hsee.1 e he n1 n2
        · exact clear_copy (hg a ha) (hg b hb) (edge_geo hg he).1 (edge_geo hg he).2 hj)
      (by rw [hb0]; exact hsee.2)
    rw [hgen] at h1
    cases h1
    exact ⟨⟨h2, h3⟩, h4 rfl⟩
  rcases le_total a.lat b.lat with hl | hl
  · have := key a b ha hb h.1 h.2.1 hl
    exact ⟨this.1.1, this.2.1⟩
  · have := key b a hb ha h.1.symm h.2.2.1 hl
    exact ⟨this.1.2, this.2.2⟩

/-- A line of sight between vertices across the meridian is an edge of the generated graph. -/
theorem copy_edge (T : ℕ → Polygon.SumTree) (ps : List (List Coord))
    (hg : ∀ v ∈ ps.flatten, v.Geo) (hst : ∀ p ∈ ps, Stable T p)
    (scanner : Coord → Res (List (Coord × Bool))) (hs : IsScanner T ps scanner)
    (order : List Coord → List Coord) (ho : ∀ l, (order l).Perm l) (g : Graph)
    (hgen : generate ps scanner order = .ok g) (a b : Coord) (h : CopyLeg ps a b) :
    g.hasEdge a b = .ok true := by
  obtain ⟨hne, ha, hb, k, hk, h1, h2⟩ := h
  rcases le_total a.lat b.lat with hl | hl
  · obtain ⟨g', e1, e2, -⟩ := C38_clear_linked T ps hg hst scanner hs order ho a b ha hb hne hl k
      (by unfold IsCopy; tauto) h1.1 h1.2
    rw [hgen] at e1
    cases e1
    exact e2
  · obtain ⟨g', e1, -, e2, -⟩ := C38_clear_linked T ps hg hst scanner hs order ho b a hb ha
      hne.symm hl (-k) (by unfold IsCopy; omega) h2.1 h2.2
    rw [hgen] at e1
    cases e1
    exact e2

/-- A vertex seen from a point is in the answer of the endpoint scan. -/
theorem sight_reach {ps : List (List Coord)} (hg : ∀ v ∈ ps.flatten, v.Geo)
    {reach : Coord → Res (List (Coord × Bool))} (hr : IsReach ps reach) {e v : Coord} (he : e.Geo)
    (hv : v ∈ ps.flatten) (hne : v ≠ e) (hsee : Sees ps e v) :
    ∃ vis m, reach e = .ok vis ∧ (v, m) ∈ vis := by
  obtain ⟨m, segs, look, h1, h2, h3, h4⟩ := hr e
  have hs : Setup ps m segs look := ⟨h1, h2, h3, fun v hv => (hg v hv).per⟩
  rw [C37_safe ps m segs look hs e he.per false] at h4
  obtain ⟨x, hx, hrep⟩ := C34_clear_is_reported ps m segs look hs e v he.per hv hne hsee.1 hsee.2
    false (fun h => by cases h)
  have hv0 : v.shift 0 = v := by cases v; simp [Coord.shift]
  obtain ⟨e1, -⟩ := reportOf_shift (k := 0) (hg v hv) (hv0.symm ▸ hrep)
  exact ⟨_, x.2, h4, by rw [← e1]; exact hx⟩

/-- The setting of C61: a graph with the answers of a generated graph and the same polygons in any
order, as after generation in parts, merging, saving and loading; scans of these polygons; and
endpoints in range that are not on land. -/
structure Voyage (T : ℕ → Polygon.SumTree) (ps : List (List Coord))
    (scanner : Coord → Res (List (Coord × Bool))) (order : List Coord → List Coord) (E : Env)
    (s d : Coord) : Prop where
  geo : ∀ v ∈ ps.flatten, v.Geo
  stable : ∀ p ∈ ps, Stable T p
  scan : IsScanner T ps scanner
  perm : ∀ l, (order l).Perm l
  graph : ∃ g, generate ps scanner order = .ok g ∧ SameAnswers E.graph g
  made : UserGraph E.graph
  obstacles : ∀ p, p ∈ E.graph.polygons ↔ p ∈ ps
  reach : IsReach E.graph.polygons E.reach
  ord : ∀ l, (E.ord l).Perm l
  src : s.Geo
  dst : d.Geo
  atSea : E.onLand s = false ∧ E.onLand d = false

namespace Voyage

variable {T : ℕ → Polygon.SumTree} {ps : List (List Coord)}
  {scanner : Coord → Res (List (Coord × Bool))} {order : List Coord → List Coord} {E : Env}
  {s d : Coord}

/-- The setting with the generated graph itself. -/
theorem direct (geo : ∀ v ∈ ps.flatten, v.Geo) (stable : ∀ p ∈ ps, Stable T p)
    (scan : IsScanner T ps scanner) (perm : ∀ l, (order l).Perm l)
    (graph : generate ps scanner order = .ok E.graph) (reach : IsReach ps E.reach)
    (ord : ∀ l, (E.ord l).Perm l) (src : s.Geo) (dst : d.Geo)
    (atSea : E.onLand s = false ∧ E.onLand d = false) : Voyage T ps scanner order E s d := by
  obtain ⟨g, f, h1, -, h2, -, h4, -⟩ := C38_edges T ps geo scanner scan order perm
  rw [graph] at h1
  cases h1
  refine ⟨geo, stable, scan, perm, ⟨_, graph, fun _ => Iff.rfl, fun _ _ => ⟨rfl, rfl⟩⟩, h4, ?_, ?_,
    ord, src, dst, atSea⟩
  · intro p
    rw [h2]
  · rw [h2]
    exact reach

theorem verts (h : Voyage T ps scanner order E s d) :
    E.graph.verts = E.graph.polygons.flatten := h.made.regular.built.verts

theorem mem_flatten (h : Voyage T ps scanner order E s d) (v : Coord) :
    v ∈ E.graph.polygons.flatten ↔ v ∈ ps.flatten := by
  simp only [List.mem_flatten, h.obstacles]

theorem mem_verts (h : Voyage T ps scanner order E s d) (v : Coord) :
    v ∈ E.graph.verts ↔ v ∈ ps.flatten := by
  rw [h.verts, h.mem_flatten]

theorem geo' (h : Voyage T ps scanner order E s d) : ∀ v ∈ E.graph.polygons.flatten, v.Geo :=
  fun v hv => h.geo v ((h.mem_flatten v).1 hv)

theorem hasVertex (h : Voyage T ps scanner order E s d) (v : Coord) :
    E.graph.hasVertex v = true ↔ v ∈ ps.flatten := by
  rw [← h.mem_verts]
  exact h.made.regular.built.shape.dom v

theorem sees (h : Voyage T ps scanner order E s d) {a b : Coord} (hs : Sees ps a b) :
    Sees E.graph.polygons a b := by
  constructor
  · rintro e ⟨p, hp, he⟩
    exact hs.1 e ⟨p, (h.obstacles p).1 hp, he⟩
  · rintro x y ⟨p, hp, hc⟩
    exact hs.2 x y ⟨p, (h.obstacles p).1 hp, hc⟩

theorem sightEdge (h : Voyage T ps scanner order E s d) {a b : Coord} (ha : a ∈ ps.flatten)
    (hb : b ∈ ps.flatten) (hl : SightLeg ps a b) :
    E.graph.hasEdge a b = .ok true ∧ E.graph.isCrossing a b = .ok false := by
  obtain ⟨g, h1, -, h2⟩ := h.graph
  rw [(h2 a b).1, (h2 a b).2]
  exact sight_edge T ps h.geo h.stable scanner h.scan order h.perm g h1 a b ha hb hl

theorem copyEdge (h : Voyage T ps scanner order E s d) {a b : Coord} (hl : CopyLeg ps a b) :
    E.graph.hasEdge a b = .ok true := by
  obtain ⟨g, h1, -, h2⟩ := h.graph
  rw [(h2 a b).1]
  exact copy_edge T ps h.geo h.stable scanner h.scan order h.perm g h1 a b hl

theorem ready (h : Voyage T ps scanner order E s d) :
    (∃ N, net E ⟨s, d, none, none⟩ = .ok N) ∧ InRange E ⟨s, d, none, none⟩ :=
  C42_ready E E.graph.polygons h.geo' h.verts h.reach ⟨s, d, none, none⟩ h.src h.dst
    (fun e he => by cases he) (fun e he => by cases he)

/-- What precedes the search: an immediate answer or a search between the endpoints. -/
theorem prepared (h : Voyage T ps scanner order E s d) (allow : Bool) :
    prepare E s d allow = .ok (.inl [s, d]) ∨
      ∃ N, prepare E s d allow = .ok (.inr (N, ⟨s, d, none, none⟩)) := by
  have hc : correct E s d allow = .ok ⟨s, d, none, none⟩ := by
    unfold correct correctOne
    rw [h.atSea.1, h.atSea.2]
    simp only [Bool.or_self, Bool.and_false, Bool.false_eq_true, if_false]
    rfl
  obtain ⟨N, hN⟩ := h.ready.1
  have n1 : normalizeC s = .ok s := C01_normalize_id s h.src.1 h.src.2.1
  have n2 : normalizeC d = .ok d := C01_normalize_id d h.dst.1 h.dst.2.1
  unfold prepare
  rw [n1, Res.bind_ok, n2, Res.bind_ok, hc, Res.bind_ok]
  by_cases hb : (blocking E ⟨s, d, none, none⟩).length = 0
  · left
    rw [if_pos hb]
    rfl
  · right
    refine ⟨N, ?_⟩
    rw [if_neg hb, hN, Res.bind_ok]
    rfl

/-- If the index finds something in the way, there is a search. -/
theorem searched (h : Voyage T ps scanner order E s d) (hb : E.crossings ⟨s, d⟩ ≠ [])
    (allow : Bool) : ∃ N, prepare E s d allow = .ok (.inr (N, ⟨s, d, none, none⟩)) := by
  rcases h.prepared allow with hp | hp
  · obtain ⟨ns, nd, c, h1, h2, h3, h4, h5⟩ := prepare_inl hp
    have e1 : c.src = s := by injection h5 with h5 _; exact h5.symm
    have e2 : c.dst = d := by injection h5 with _ h5; injection h5 with h5 _; exact h5.symm
    rw [C01_normalize_id s h.src.1 h.src.2.1] at h1
    rw [C01_normalize_id d h.dst.1 h.dst.2.1] at h2
    cases h1
    cases h2
    unfold correct correctOne at h3
    rw [h.atSea.1, h.atSea.2] at h3
    simp only [Bool.or_self, Bool.and_false, Bool.false_eq_true, if_false] at h3
    cases h3
    exfalso
    apply hb
    unfold blocking at h4
    simpa [notEdge] using h4
  · exact hp

/-- The legs of a chain of sight lines are legs of a route, of the right length. -/
theorem leg (h : Voyage T ps scanner order E s d) {u v : Coord} (hl : SightLeg ps u v)
    (hu : u = s ∨ u = d ∨ u ∈ ps.flatten) (hv : v = s ∨ v = d ∨ v ∈ ps.flatten) :
    RouteEdge E ⟨s, d, none, none⟩ u v ∧ legLength E u v = planeDist u v 0 := by
  have plain : ∀ u v, ¬ (u ∈ ps.flatten ∧ v ∈ ps.flatten) → legLength E u v = planeDist u v 0 := by
    intro u v hn
    unfold legLength CrossesMeridian
    rw [if_neg]
    intro hc
    apply hn
    by_cases huv : u = v
    · rw [huv] at hc
      unfold Graph.isCrossing at hc
      rw [if_pos rfl] at hc
      cases hc
    · by_contra hcon
      rw [← h.mem_verts, ← h.mem_verts, not_and_or] at hcon
      rw [(C20_unknown E.graph h.made.regular.built.shape u v false huv hcon).2.2.2.2.2.1] at hc
      cases hc
  have one : ∀ u v, SightLeg ps u v → u ∉ ps.flatten → (u = s ∨ u = d) →
      v ∈ ps.flatten ∧ (u = s ∧ Linked E s none v ∨ u = d ∧ Linked E d none v) := by
    intro u v hl hu hus
    have hv : v ∈ ps.flatten := hl.2.2.2.resolve_left hu
    have hug : u.Geo := by
      rcases hus with rfl | rfl
      · exact h.src
      · exact h.dst
    have hlink : Linked E u none v := by
      refine ⟨?_, hl.1.symm, sight_reach h.geo' h.reach hug ((h.mem_flatten v).2 hv) hl.1.symm
        (h.sees hl.2.1), fun s hs => by cases hs⟩
      rw [← Bool.not_eq_true]
      exact fun hh => hu ((h.hasVertex u).1 hh)
    refine ⟨hv, ?_⟩
    rcases hus with rfl | rfl
    · exact Or.inl ⟨rfl, hlink⟩
    · exact Or.inr ⟨rfl, hlink⟩
  by_cases hup : u ∈ ps.flatten
  · by_cases hvp : v ∈ ps.flatten
    · obtain ⟨h1, h2⟩ := h.sightEdge hup hvp hl
      refine ⟨Or.inl h1, ?_⟩
      unfold legLength CrossesMeridian
      rw [if_neg]
      rw [h2]
      simp
    · obtain ⟨-, h1⟩ := one v u hl.symm hvp (by tauto)
      refine ⟨?_, plain u v fun hh => hvp hh.2⟩
      rcases h1 with ⟨rfl, h1⟩ | ⟨rfl, h1⟩
      · exact Or.inr (Or.inr (Or.inl ⟨rfl, h1⟩))
      · exact Or.inr (Or.inr (Or.inr (Or.inr ⟨rfl, h1⟩)))
  · obtain ⟨-, h1⟩ := one u v hl hup (by tauto)
    refine ⟨?_, plain u v fun hh => hup hh.1⟩
    rcases h1 with ⟨rfl, h1⟩ | ⟨rfl, h1⟩
    · exact Or.inr (Or.inl ⟨rfl, h1⟩)
    · exact Or.inr (Or.inr (Or.inr (Or.inl ⟨rfl, h1⟩)))

/-- A chain of sight lines is a route of the same length. -/
theorem route (h : Voyage T ps scanner order E s d) {l : List Coord}
    (hw : IsWalk (SightLeg ps) s d l) (hin : ∀ v ∈ l, v = s ∨ v = d ∨ v ∈ ps.flatten) :
    IsWalk (RouteEdge E ⟨s, d, none, none⟩) s d l ∧
      walkLength (legLength E) l = walkLength (fun u v => planeDist u v 0) l := by
  have key : ∀ l : List Coord, l.IsChain (SightLeg ps) →
      (∀ v ∈ l, v = s ∨ v = d ∨ v ∈ ps.flatten) →
      l.IsChain (RouteEdge E ⟨s, d, none, none⟩) ∧
        walkLength (legLength E) l = walkLength (fun u v => planeDist u v 0) l := by
    intro l
    induction l with
    | nil => exact fun _ _ => ⟨List.IsChain.nil, rfl⟩
    | cons a r ih =>
      cases r with
      | nil => exact fun _ _ => ⟨List.IsChain.singleton a, rfl⟩
      | cons b t =>
        intro hc hin
        rw [List.isChain_cons_cons] at hc
        obtain ⟨h1, h2⟩ := ih hc.2 fun v hv => hin v (List.mem_cons_of_mem _ hv)
        obtain ⟨h3, h4⟩ := h.leg hc.1 (hin a (by simp)) (hin b (by simp))
        exact ⟨List.isChain_cons_cons.2 ⟨h3, h1⟩, by simp only [walkLength, h4, h2]⟩
  exact ⟨⟨hw.1, hw.2.1, (key l hw.2.2 hin).1⟩, (key l hw.2.2 hin).2⟩

theorem legLength_le (E : Env) (u v : Coord) : legLength E u v ≤ longWay u v := by
  unfold legLength longWay
  split_ifs
  · exact le_max_right _ _
  · exact le_max_left _ _

/-- A chain of sight lines of both kinds is a route. -/
theorem mixed (h : Voyage T ps scanner order E s d) {l : List Coord}
    (hw : IsWalk (fun u v => SightLeg ps u v ∨ CopyLeg ps u v) s d l)
    (hin : ∀ v ∈ l, v = s ∨ v = d ∨ v ∈ ps.flatten) :
    IsWalk (RouteEdge E ⟨s, d, none, none⟩) s d l := by
  refine ⟨hw.1, hw.2.1, ?_⟩
  have key : ∀ l : List Coord, l.IsChain (fun u v => SightLeg ps u v ∨ CopyLeg ps u v) →
      (∀ v ∈ l, v = s ∨ v = d ∨ v ∈ ps.flatten) →
      l.IsChain (RouteEdge E ⟨s, d, none, none⟩) := by
    intro l
    induction l with
    | nil => exact fun _ _ => List.IsChain.nil
    | cons a r ih =>
      cases r with
      | nil => exact fun _ _ => List.IsChain.singleton a
      | cons b t =>
        intro hc hin
        rw [List.isChain_cons_cons] at hc
        refine List.isChain_cons_cons.2 ⟨?_, ih hc.2 fun v hv => hin v (List.mem_cons_of_mem _ hv)⟩
        rcases hc.1 with h1 | h1
        · exact (h.leg h1 (hin a (by simp)) (hin b (by simp))).1
        · exact Or.inl (h.copyEdge h1)
  exact key l hw.2.2 hin

end Voyage

/-- **C61** If some chain of sight lines through obstacle vertices, also across the meridian, leads
from the source to the destination, a query without limit on the generated graph never fails, in any arithmetic. -/
theorem C61_found {D : Type} [LinearOrder D] (A : Arith D) (hA : A.Sound)
    (hno : ∀ d, A.over d = false) (T : ℕ → Polygon.SumTree) (ps : List (List Coord))
    (scanner : Coord → Res (List (Coord × Bool))) (order : List Coord → List Coord) (E : Env)
    (s d : Coord) (h : Voyage T ps scanner order E s d) (chain : List Coord)
    (hw : IsWalk (fun u v => SightLeg ps u v ∨ CopyLeg ps u v) s d chain)
    (hin : ∀ v ∈ chain, v = s ∨ v = d ∨ v ∈ ps.flatten) (allow : Bool) (r : Res (List Coord)) (hq : Query A E s d allow r) : ∃ path, r = .ok path := by
  rcases h.prepared allow with hp | ⟨N, hp⟩
  · unfold Query at hq
    rw [hp] at hq
    exact ⟨_, hq⟩
  · exact (C46_failure A hA E h.made h.ord s d allow N _ hp).1
      ⟨chain, h.mixed hw hin, fun _ _ => hno _⟩ r hq

/-- **C61** The path returned is the straight line between the endpoints or is, up to the greediness
weighting, at most as long as every chain of sight lines through obstacle vertices on this side of
the meridian (in exact arithmetic). -/
theorem C61_optimal (T : ℕ → Polygon.SumTree) (ps : List (List Coord))
    (scanner : Coord → Res (List (Coord × Bool))) (order : List Coord → List Coord) (E : Env)
    (s d : Coord) (h : Voyage T ps scanner order E s d) (chain : List Coord)
    (hw : IsWalk (SightLeg ps) s d chain) (hin : ∀ v ∈ chain, v = s ∨ v = d ∨ v ∈ ps.flatten)
    (w : ℝ) (h0 : 0 ≤ w) (allow : Bool) (path : List Coord)
    (hq : Query (exactArith w none) E s d allow (.ok path)) :
    path = [s, d] ∨ walkLength (legLength E) path ≤
      max 1 w * walkLength (fun u v => planeDist u v 0) chain := by
  rcases h.prepared allow with hp | ⟨N, hp⟩
  · unfold Query at hq
    rw [hp] at hq
    exact Or.inl (Except.ok.inj hq)
  · right
    have hr := h.ready.2
    obtain ⟨h1, h2⟩ := h.route hw hin
    rw [← h2]
    rcases le_total w 1 with hw1 | hw1
    · rw [max_eq_left hw1, one_mul]
      exact C44_shortest E h.made h.ord s d allow N _ hp hr w h0 hw1 path hq chain h1
    · rw [max_eq_right hw1]
      exact C45_bounded E h.made h.ord s d allow N _ hp hr w hw1 path hq chain h1

open Classical in
/-- **C61** (partial) Chains that cross the meridian bound the path only if their crossing legs are
counted by the longer of the two ways round.  Missing: the shorter way, for which it is false. -/
theorem C61_across_partial (T : ℕ → Polygon.SumTree) (ps : List (List Coord))
    (scanner : Coord → Res (List (Coord × Bool))) (order : List Coord → List Coord) (E : Env)
    (s d : Coord) (h : Voyage T ps scanner order E s d) (chain : List Coord)
    (hw : IsWalk (fun u v => SightLeg ps u v ∨ CopyLeg ps u v) s d chain)
    (hin : ∀ v ∈ chain, v = s ∨ v = d ∨ v ∈ ps.flatten)
    (w : ℝ) (h0 : 0 ≤ w) (allow : Bool) (path : List Coord)
    (hq : Query (exactArith w none) E s d allow (.ok path)) :
    path = [s, d] ∨ walkLength (legLength E) path ≤ max 1 w *
      walkLength (fun u v => if SightLeg ps u v then planeDist u v 0 else longWay u v) chain := by
  rcases h.prepared allow with hp | ⟨N, hp⟩
  · unfold Query at hq
    rw [hp] at hq
    exact Or.inl (Except.ok.inj hq)
  · right
    have hr := h.ready.2
    have h1 := h.mixed hw hin
    have h2 : walkLength (legLength E) chain ≤
        walkLength (fun u v => if SightLeg ps u v then planeDist u v 0 else longWay u v) chain := by
      clear hw h1
      induction chain with
      | nil => exact le_refl _
      | cons a r ih =>
        cases r with
        | nil => exact le_refl _
        | cons b t =>
          have := ih fun v hv => hin v (List.mem_cons_of_mem _ hv)
          have hl : legLength E a b ≤ if SightLeg ps a b then planeDist a b 0 else longWay a b := by
            split_ifs with hs
            · exact le_of_eq (h.leg hs (hin a (by simp)) (hin b (by simp))).2
            · exact Voyage.legLength_le E a b
          simp only [walkLength] at this ⊢
          linarith
    have h3 : (0 : ℝ) ≤ max 1 w := le_trans zero_le_one (le_max_left _ _)
    refine le_trans ?_ (mul_le_mul_of_nonneg_left h2 h3)
    rcases le_total w 1 with hw1 | hw1
    · rw [max_eq_left hw1, one_mul]
      exact C44_shortest E h.made h.ord s d allow N _ hp hr w h0 hw1 path hq chain h1
    · rw [max_eq_right hw1]
      exact C45_bounded E h.made h.ord s d allow N _ hp hr w hw1 path hq chain h1

/-! ### Checking sight lines of concrete obstacles -/

/-- Sufficient for `Clear`. -/
def clearB (a b : Coord) (e : Seg) : Bool :=
  decide (0 < area2 a b e.p * area2 a b e.q) || decide (0 < area2 e.p e.q a * area2 e.p e.q b) ||
    (decide (area2 e.p e.q a ≠ 0) && decide (area2 e.p e.q b = 0))

theorem same_side {P Q t : ℚ} (t0 : 0 ≤ t) (t1 : t ≤ 1) (h : 0 < P * Q)
    (hz : (1 - t) * P + t * Q = 0) : False := by
  have h1 : (1 - t) * (P * P) + t * (P * Q) = 0 := by linear_combination P * hz
  have h2 : 0 ≤ (1 - t) * (P * P) := mul_nonneg (by linarith) (mul_self_nonneg P)
  rcases t0.eq_or_lt with rfl | h3
  · have : P = 0 := by simpa using hz
    rw [this] at h
    simp at h
  · have := mul_pos h3 h
    linarith

theorem clearB_sound {a b : Coord} {e : Seg} (h : clearB a b e = true) : Clear a b e := by
  obtain ⟨⟨px, py⟩, ⟨qx, qy⟩⟩ := e
  obtain ⟨ax, ay⟩ := a
  obtain ⟨bx, by'⟩ := b
  rintro x y ⟨t, t0, t1, hx, hy⟩ ⟨u, u0, u1, hx', hy'⟩
  simp only [clearB, area2, Bool.or_eq_true, Bool.and_eq_true] at h
  dsimp only at hx hy hx' hy' ⊢
  rcases h with (h | h) | ⟨h1, h2⟩
  · exfalso
    replace h := of_decide_eq_true h
    have hq : (0 : ℚ) < (((bx - ax) * (py - ay) - (by' - ay) * (px - ax) : ℤ) : ℚ) *
      (((bx - ax) * (qy - ay) - (by' - ay) * (qx - ax) : ℤ) : ℚ) := by exact_mod_cast h
    push_cast at hq
    set P : ℚ := (bx - ax) * (py - ay) - (by' - ay) * (px - ax) with hP
    set Q : ℚ := (bx - ax) * (qy - ay) - (by' - ay) * (qx - ax) with hQ
    have hz : (1 - t) * P + t * Q = 0 := by
      have : (1 - t) * P + t * Q = (bx - ax) * (y - ay) - (by' - ay) * (x - ax) := by
        rw [hx, hy, hP, hQ]; ring
      rw [this, hx', hy']; ring
    exact same_side t0 t1 hq hz
  · exfalso
    replace h := of_decide_eq_true h
    have hq : (0 : ℚ) < (((qx - px) * (ay - py) - (qy - py) * (ax - px) : ℤ) : ℚ) *
      (((qx - px) * (by' - py) - (qy - py) * (bx - px) : ℤ) : ℚ) := by exact_mod_cast h
    push_cast at hq
    set P : ℚ := (qx - px) * (ay - py) - (qy - py) * (ax - px) with hP
    set Q : ℚ := (qx - px) * (by' - py) - (qy - py) * (bx - px) with hQ
    have hz : (1 - u) * P + u * Q = 0 := by
      have : (1 - u) * P + u * Q = (qx - px) * (y - py) - (qy - py) * (x - px) := by
        rw [hx', hy', hP, hQ]; ring
      rw [this, hx, hy]; ring
    exact same_side u0 u1 hq hz
  · replace h1 := of_decide_eq_true h1
    replace h2 := of_decide_eq_true h2
    have g1 : ((qx : ℚ) - px) * (ay - py) - (qy - py) * (ax - px) ≠ 0 := by exact_mod_cast h1
    have g2 : ((qx : ℚ) - px) * (by' - py) - (qy - py) * (bx - px) = 0 := by exact_mod_cast h2
    have hz : (1 - u) * (((qx : ℚ) - px) * (ay - py) - (qy - py) * (ax - px)) = 0 := by
      have : ((qx : ℚ) - px) * (y - py) - (qy - py) * (x - px) = 0 := by rw [hx, hy]; ring
      rw [hx', hy'] at this
      linear_combination this - u * g2
    have hu : u = 1 := by
      rcases mul_eq_zero.1 hz with h | h
      · linarith
      · exact absurd h g1
    subst hu
    exact ⟨by rw [hx']; ring, by rw [hy']; ring⟩

/-- Sufficient for a corner not to hide `v`, if it is convex. -/
def cornerB (a o b v : Coord) : Bool :=
  decide (CornerResolved a o b) && (decide (v = a) || decide (v = b) ||
    decide (0 < area2 a o b) && (decide (area2 o b v < 0) || decide (area2 a o v < 0)))

theorem cornerB_sound {a o b v : Coord} (h : cornerB a o b v = true) :
    CornerResolved a o b ∧
    (OutsideCorner a o b v ∨ ∃ k : ℚ, 0 < k ∧ k ≤ 1 ∧ (OnRay o a v k ∨ OnRay o b v k)) := by
  simp only [cornerB, Bool.and_eq_true, Bool.or_eq_true, decide_eq_true_eq] at h
  refine ⟨h.1, ?_⟩
  rcases h.2 with (rfl | rfl) | ⟨h1, h2⟩
  · exact Or.inr ⟨1, by norm_num, le_refl _, Or.inl ⟨by ring, by ring⟩⟩
  · exact Or.inr ⟨1, by norm_num, le_refl _, Or.inr ⟨by ring, by ring⟩⟩
  · left
    left
    refine ⟨h1, ?_⟩
    rintro ⟨x, y, hx, hy, e1, e2⟩
    have hA : (0 : ℚ) < (o.lon - a.lon) * (b.lat - a.lat) - (o.lat - a.lat) * (b.lon - a.lon) := by
      exact_mod_cast h1
    rcases h2 with h2 | h2
    · have g : ((b.lon : ℚ) - o.lon) * (v.lat - o.lat) - (b.lat - o.lat) * (v.lon - o.lon) < 0 := by
        exact_mod_cast h2
      rw [e1, e2] at g
      nlinarith
    · have g : ((o.lon : ℚ) - a.lon) * (v.lat - a.lat) - (o.lat - a.lat) * (v.lon - a.lon) < 0 := by
        exact_mod_cast h2
      have e1' : (v.lon : ℚ) = o.lon + (x * (a.lon - o.lon) + y * (b.lon - o.lon)) := by linarith
      have e2' : (v.lat : ℚ) = o.lat + (x * (a.lat - o.lat) + y * (b.lat - o.lat)) := by linarith
      rw [e1', e2'] at g
      nlinarith

/-- Sufficient for `Sees`, among convex corners. -/
def seesB (ps : List (List Coord)) (a b : Coord) : Bool :=
  ps.all fun p => (List.range p.length).all fun i =>
    (decide (a = ringAt p i) || decide (a = ringAt p (i + 1)) ||
      clearB a b ⟨ringAt p i, ringAt p (i + 1)⟩) &&
    (decide (a ≠ ringAt p i) ||
      cornerB (ringAt p (i + p.length - 1)) a (ringAt p (i + 1)) b)

theorem seesB_sound {ps : List (List Coord)} {a b : Coord} (h : seesB ps a b = true) :
    Sees ps a b := by
  simp only [seesB, List.all_eq_true, List.mem_range, Bool.and_eq_true, Bool.or_eq_true,
    decide_eq_true_eq] at h
  constructor
  · rintro e ⟨p, hp, i, hi, rfl⟩ h1 h2
    rcases (h p hp i hi).1 with (h3 | h3) | h3
    · exact absurd h3 h1
    · exact absurd h3 h2
    · exact clearB_sound h3
  · rintro c d ⟨p, hp, i, hi, rfl, rfl, rfl⟩
    rcases (h p hp i hi).2 with h3 | h3
    · exact absurd rfl h3
    · exact cornerB_sound h3

/-- A square island with its generated graph; the straight line past it is blocked. -/
def exTour : Env where
  graph := (generate [exSquare] (exScanner Polygon.SumTree.sequential [exSquare]) id).toOption.getD
    Graph.empty
  onLand _ := false
  closest _ := .error .exn
  project _ c := .ok c
  crossings _ := [⟨⟨0, 0⟩, ⟨0, 10⟩⟩]
  reach := exIsland.reach
  ord l := l

theorem exTour_voyage : Voyage Polygon.SumTree.sequential [exSquare]
    (exScanner Polygon.SumTree.sequential [exSquare]) id exTour ⟨-5, 5⟩ ⟨15, 5⟩ := by
  refine .direct (by decide) ?_ (exScanner_ok _ _) (fun l => List.Perm.refl l) ?_
    (fun _ => ⟨_, _, _, List.Perm.refl _, List.Perm.refl _, exLook_ok, rfl⟩)
    (fun l => List.Perm.refl l) (by decide) (by decide) ⟨rfl, rfl⟩
  · intro p hp k hk
    rw [List.mem_singleton] at hp
    subst hp
    rcases hk with rfl | rfl | rfl <;> decide +kernel
  · obtain ⟨g, f, h1, -⟩ := C38_edges Polygon.SumTree.sequential [exSquare] (by decide) _
      (exScanner_ok _ _) id fun l => List.Perm.refl l
    unfold exTour
    dsimp only
    rw [h1]
    rfl

theorem exTour_chain :
    IsWalk (SightLeg [exSquare]) ⟨-5, 5⟩ ⟨15, 5⟩ [⟨-5, 5⟩, ⟨0, 10⟩, ⟨10, 10⟩, ⟨15, 5⟩] := by
  refine ⟨rfl, rfl, ?_⟩
  simp only [List.isChain_cons_cons, List.isChain_singleton, and_true]
  refine ⟨⟨by decide, seesB_sound ?_, seesB_sound ?_, by decide⟩,
    ⟨by decide, seesB_sound ?_, seesB_sound ?_, by decide⟩,
    ⟨by decide, seesB_sound ?_, seesB_sound ?_, by decide⟩⟩ <;> decide +kernel

/-- Non-vacuity of C61: round the island by its two northern corners.  There is a search, it
succeeds, and its path is at most as long as that chain. -/
example : ∃ N path, prepare exTour ⟨-5, 5⟩ ⟨15, 5⟩ false = .ok (.inr (N, ⟨⟨-5, 5⟩, ⟨15, 5⟩, none, none⟩)) ∧
    Query (exactArith 1 none) exTour ⟨-5, 5⟩ ⟨15, 5⟩ false (.ok path) ∧
    (path = [⟨-5, 5⟩, ⟨15, 5⟩] ∨ walkLength (legLength exTour) path ≤ max 1 1 *
      walkLength (fun u v => planeDist u v 0) [⟨-5, 5⟩, ⟨0, 10⟩, ⟨10, 10⟩, ⟨15, 5⟩]) := by
  have hV := exTour_voyage
  obtain ⟨N, hN⟩ := hV.searched (by simp [exTour]) false
  have hA := exact_sound 1 none
  obtain ⟨⟨r, hq⟩, -⟩ := C43_outcome _ hA exTour hV.made hV.ord ⟨-5, 5⟩ ⟨15, 5⟩ false
  obtain ⟨path, rfl⟩ := C61_found _ hA (fun _ => rfl) _ _ _ _ _ _ _ hV _
    ⟨exTour_chain.1, exTour_chain.2.1, exTour_chain.2.2.imp fun _ _ h => Or.inl h⟩
    (by decide) false r hq
  exact ⟨N, path, hN, hq, C61_optimal _ _ _ _ _ _ _ hV _ exTour_chain (by decide) 1 zero_le_one
    false path hq⟩

/-- Sufficient for `SeesCopy`, among convex corners. -/
def seesCopyB (ps : List (List Coord)) (a b : Coord) (k : ℤ) : Bool :=
  ps.all fun p => (List.range p.length).all fun i =>
    ([0, 1, -1].all fun j => decide (a = (ringAt p i).shift j) ||
      decide (a = (ringAt p (i + 1)).shift j) ||
      clearB a (b.shift k) (Seg.shift j ⟨ringAt p i, ringAt p (i + 1)⟩)) &&
    (decide (a ≠ ringAt p i) ||
      cornerB (ringAt p (i + p.length - 1)) a (ringAt p (i + 1)) (b.shift k))

theorem seesCopyB_sound {ps : List (List Coord)} {a b : Coord} {k : ℤ}
    (h : seesCopyB ps a b k = true) : SeesCopy ps a b k := by
  simp only [seesCopyB, List.all_eq_true, List.mem_range, Bool.and_eq_true, Bool.or_eq_true,
    decide_eq_true_eq] at h
  constructor
  · rintro e ⟨p, hp, i, hi, rfl⟩ j hj h1 h2
    rcases (h p hp i hi).1 j (by rcases hj with rfl | rfl | rfl <;> decide) with (h3 | h3) | h3
    · exact absurd h3 h1
    · exact absurd h3 h2
    · exact clearB_sound h3
  · rintro c d ⟨p, hp, i, hi, rfl, rfl, rfl⟩
    rcases (h p hp i hi).2 with h3 | h3
    · exact absurd rfl h3
    · exact cornerB_sound h3

/-- The northern tips of two islands two degrees apart, on different sides of the meridian. -/
def exTipA : Coord := ⟨179000000, 0⟩
@[inherit_doc exTipA] def exTipB : Coord := ⟨-179000000, 0⟩

/-- The two islands. -/
def exStrait : List (List Coord) :=
  [[exTipA, ⟨178500000, -2000000⟩, ⟨179500000, -2000000⟩],
    [exTipB, ⟨-179500000, -2000000⟩, ⟨-178500000, -2000000⟩]]

/-- The islands with their generated graph.  Lines between vertices touch edges. -/
def exStraitEnv : Env where
  graph := (generate exStrait (exScanner Polygon.SumTree.sequential exStrait) id).toOption.getD
    Graph.empty
  onLand _ := false
  closest _ := .error .exn
  project _ c := .ok c
  crossings _ := [⟨exTipA, ⟨178500000, -2000000⟩⟩]
  reach obs := Vistree.scanC exLook (Vistree.ofPolygons exStrait) obs
    (Vistree.vertices (Vistree.ofPolygons exStrait))
    (Vistree.segments (Vistree.ofPolygons exStrait)) false
  ord l := l

theorem exStrait_voyage : Voyage Polygon.SumTree.sequential exStrait
    (exScanner Polygon.SumTree.sequential exStrait) id exStraitEnv exTipA exTipB := by
  refine .direct (by decide) ?_ (exScanner_ok _ _) (fun l => List.Perm.refl l) ?_
    (fun _ => ⟨_, _, _, List.Perm.refl _, List.Perm.refl _, exLook_ok, rfl⟩)
    (fun l => List.Perm.refl l) (by decide) (by decide) ⟨rfl, rfl⟩
  · intro p hp k hk
    simp only [exStrait, List.mem_cons, List.not_mem_nil, or_false] at hp
    rcases hp with rfl | rfl <;> rcases hk with rfl | rfl | rfl <;> decide +kernel
  · obtain ⟨g, f, h1, -⟩ := C38_edges Polygon.SumTree.sequential exStrait (by decide) _
      (exScanner_ok _ _) id fun l => List.Perm.refl l
    unfold exStraitEnv
    dsimp only
    rw [h1]
    rfl

theorem exStrait_copyLeg : CopyLeg exStrait exTipA exTipB :=
  ⟨by decide, by decide, by decide, 1, Or.inl rfl, seesCopyB_sound (by decide +kernel),
    seesCopyB_sound (by decide +kernel)⟩

theorem exStrait_sightLeg : SightLeg exStrait exTipA exTipB :=
  ⟨by decide, seesB_sound (by decide +kernel), seesB_sound (by decide +kernel), by decide⟩

theorem lat_le_planeDist (a b : Coord) (k : ℤ) :
    |((a.lat - b.lat : ℤ) : ℝ)| / 1000000 ≤ planeDist a b k := by
  unfold planeDist
  apply div_le_div_of_nonneg_right _ (by norm_num)
  apply Real.le_sqrt_of_sq_le
  rw [sq_abs]
  have := sq_nonneg (((a.lon + k * 360000001 - b.lon : ℤ)) : ℝ)
  linarith

theorem lat_le_leg (E : Env) (a b : Coord) :
    |((a.lat - b.lat : ℤ) : ℝ)| / 1000000 ≤ legLength E a b := by
  unfold legLength
  split_ifs
  · exact le_min (lat_le_planeDist a b 1) (lat_le_planeDist a b (-1))
  · exact lat_le_planeDist a b 0

theorem lat_le_walk (E : Env) : ∀ (l : List Coord) (a b : Coord), (a :: l).getLast? = some b →
    |((a.lat - b.lat : ℤ) : ℝ)| / 1000000 ≤ walkLength (legLength E) (a :: l)
  | [], a, b, h => by
    simp only [List.getLast?_singleton, Option.some.injEq] at h
    subst h
    simp [walkLength]
  | c :: l, a, b, h => by
    have h1 := lat_le_walk E l c b (by simpa using h)
    have h2 := lat_le_leg E a c
    have h3 : |((a.lat - b.lat : ℤ) : ℝ)| ≤ |((a.lat - c.lat : ℤ) : ℝ)| + |((c.lat - b.lat : ℤ) : ℝ)| := by
      have := abs_add_le ((a.lat - c.lat : ℤ) : ℝ) ((c.lat - b.lat : ℤ) : ℝ)
      refine le_trans (le_of_eq ?_) this
      push_cast
      ring_nf
    simp only [walkLength]
    linarith [h1, h2, div_le_div_of_nonneg_right h3 (by norm_num : (0 : ℝ) ≤ 1000000),
      add_div |((a.lat - c.lat : ℤ) : ℝ)| |((c.lat - b.lat : ℤ) : ℝ)| 1000000]

/-- **C61** is false across the meridian: two vertices 2° apart that see each other across it, but
also the other way round the world, are joined by an edge 358° long, and the path between them is at
least 4° long. -/
theorem C61_across_false :
    ¬ ∀ (T : ℕ → Polygon.SumTree) (ps : List (List Coord))
      (scanner : Coord → Res (List (Coord × Bool))) (order : List Coord → List Coord) (E : Env)
      (s d : Coord) (_ : Voyage T ps scanner order E s d) (_ : CopyLeg ps s d) (allow : Bool)
      (N : Net) (c : Correction) (_ : prepare E s d allow = .ok (.inr (N, c)))
      (path : List Coord) (_ : Query (exactArith 1 none) E s d allow (.ok path)),
      walkLength (legLength E) path ≤ min (planeDist s d 1) (planeDist s d (-1)) := by
  intro hall
  have hV := exStrait_voyage
  obtain ⟨hedge, hplain⟩ := hV.sightEdge (by decide) (by decide) exStrait_sightLeg
  obtain ⟨N, hp⟩ : ∃ N, prepare exStraitEnv exTipA exTipB false =
      .ok (.inr (N, ⟨exTipA, exTipB, none, none⟩)) := 
    hV.searched (by simp [exStraitEnv]) false
  have hA := exact_sound 1 none
  obtain ⟨⟨r, hq⟩, -⟩ := C43_outcome _ hA exStraitEnv hV.made hV.ord exTipA exTipB false
  obtain ⟨path, rfl⟩ := C61_found _ hA (fun _ => rfl) _ _ _ _ _ _ _ hV [exTipA, exTipB]
    ⟨rfl, rfl, by
      rw [List.isChain_cons_cons]
      exact ⟨Or.inl exStrait_sightLeg, List.IsChain.singleton _⟩⟩ (by simp) false r hq
  have hle := hall _ _ _ _ _ _ _ hV exStrait_copyLeg false N _ hp path hq
  have hshort : min (planeDist exTipA exTipB 1) (planeDist exTipA exTipB (-1)) ≤ 3 := by
    refine le_trans (min_le_right _ _) ?_
    unfold planeDist
    rw [div_le_iff₀ (by norm_num), Real.sqrt_le_left (by norm_num)]
    norm_num [exTipA, exTipB]
  have hwalk : IsWalk (RouteEdge exStraitEnv ⟨exTipA, exTipB, none, none⟩) exTipA exTipB path := by
    obtain ⟨ns, nd, h1, h2, h3, h4, -⟩ := prepare_inr hp
    obtain ⟨ns', nd', c, k1, k2, k3, k4⟩ := C42_paths _ hA exStraitEnv hV.made hV.ord exTipA exTipB
      false path hq
    rw [h1] at k1
    rw [h2] at k2
    cases k1
    cases k2
    rw [h3] at k3
    cases k3
    rcases k4 with ⟨k4, -⟩ | ⟨-, k4⟩
    · exact absurd k4 h4
    · exact k4
  obtain ⟨rest, rfl, hl, hc⟩ := isWalk_cons.1 hwalk
  cases rest with
  | nil => exact absurd hl (by decide)
  | cons x t =>
    rw [List.isChain_cons_cons] at hc
    have hs := hV.made.regular.built.shape
    have hx : x ≠ exTipA ∧ x ∈ exStrait.flatten := by
      have hn : ∀ y, exStraitEnv.graph.hasEdge exTipA y = .ok true →
          y ≠ exTipA ∧ y ∈ exStrait.flatten := by
        intro y hy
        have hne : y ≠ exTipA := by
          rintro rfl
          unfold Graph.hasEdge at hy
          rw [if_pos rfl] at hy
          cases hy
        refine ⟨hne, ?_⟩
        by_contra hcon
        rw [← hV.mem_verts] at hcon
        rw [(C20_unknown _ hs _ _ false hne.symm (Or.inr hcon)).2.2.2.2.1] at hy
        cases hy
      have hvA : exStraitEnv.graph.hasVertex exTipA = true := (hV.hasVertex _).2 (by decide)
      have hvB : exStraitEnv.graph.hasVertex exTipB = true := (hV.hasVertex _).2 (by decide)
      rcases hc.1 with h | ⟨-, h⟩ | ⟨-, h⟩ | ⟨h, -⟩ | ⟨-, h⟩
      · exact hn x h
      · exact absurd (hvA.symm.trans h.1) (by decide)
      · exact absurd (hvA.symm.trans h.1) (by decide)
      · exact absurd h (by decide)
      · exact absurd (hvB.symm.trans h.1) (by decide)
    have hlast : (x :: t).getLast? = some exTipB := by
      have := hwalk.2.1
      rwa [List.getLast?_cons_cons] at this
    have h1 := lat_le_walk exStraitEnv t x exTipB hlast
    have h2 := lat_le_leg exStraitEnv exTipA x
    replace hle : legLength exStraitEnv exTipA x + walkLength (legLength exStraitEnv) (x :: t) ≤ 3 :=
      le_trans hle hshort
    have hlat : x = exTipB ∨ x.lat = -2000000 := by
      obtain ⟨hxa, hxm⟩ := hx
      simp only [exStrait, List.flatten_cons, List.flatten_nil, List.append_nil, List.cons_append,
        List.nil_append, List.mem_cons, List.not_mem_nil, or_false] at hxm
      rcases hxm with h | rfl | rfl | h | rfl | rfl
      · exact absurd h hxa
      · exact Or.inr rfl
      · exact Or.inr rfl
      · exact Or.inl h
      · exact Or.inr rfl
      · exact Or.inr rfl
    rcases hlat with rfl | hlat
    · have hleg : legLength exStraitEnv exTipA exTipB = planeDist exTipA exTipB 0 := by
        unfold legLength CrossesMeridian
        rw [if_neg]
        rw [hplain]
        simp
      have hv := planeDist_val exTipA exTipB 0 358 (by decide)
      have h0 : (0 : ℝ) ≤ |((exTipB.lat - exTipB.lat : ℤ) : ℝ)| / 1000000 := by positivity
      rw [hleg, hv] at hle
      push_cast at hle
      linarith
    · rw [hlat] at h1 h2
      have e1 : |((-2000000 - exTipB.lat : ℤ) : ℝ)| / 1000000 = 2 := by norm_num [exTipB]
      have e2 : |((exTipA.lat - -2000000 : ℤ) : ℝ)| / 1000000 = 2 := by norm_num [exTipA]
      rw [e1] at h1
      rw [e2] at h2
      linarith

end Capi
