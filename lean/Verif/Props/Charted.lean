import Verif.Lemmas.Charted
import Verif.Lemmas.LegibleCheck

/-!
# C90: maps of polygons of any form

The scan, the graph and the path against lines over the sea, for polygons without self-contact and
legible positions.
-/

namespace Capi

open ShortestPath Vistree Visgraph

section

variable {ps : List (List Coord)} {obs : Coord}

/-- What the sweep reports has passed the test of the observer's corner. -/
theorem barrier_of_scan {look : Seg → Seg → Bool} {m : VisMap} {verts : List Coord}
    {segs : List Seg} {half : Bool} {v : Coord} (h : v ∈ scanRaw look m obs verts segs half) :
    barrier m obs v = true := by
  by_contra hb
  rw [Bool.not_eq_true] at hb
  unfold scanRaw at h
  split_ifs at h with hm
  · simp at h
  · exact loop_barrier hb _ _ h

theorem reportOf_unique {w : Coord} {x y : Coord × Bool} (hx : ReportOf w x) (hy : ReportOf w y) :
    x = y := by
  obtain ⟨⟨h1, j, h2⟩, h3, h4, h5⟩ := hx
  obtain ⟨⟨k1, i, k2⟩, k3, k4, k5⟩ := hy
  refine Prod.ext (Coord.ext' (by omega) (by omega)) ?_
  rw [Bool.eq_iff_iff, h5, k5]

theorem half_of_scan {m : VisMap} {segs : List Seg} {look : Seg → Seg → Bool}
    (h : Setup ps m segs look) (ho : obs.Per) (hlon : obs.lon < 540000001) {v : Coord}
    (hv : v ∈ scanRaw look m obs (vertices m) segs true) : obs.lat ≤ v.lat := by
  unfold scanRaw at hv
  split_ifs at hv with hm
  · simp at hv
  · rw [loop_half _ _ _ _ (sorted_below ho hlon h.per h.mapOf.nodup), List.mem_filter] at hv
    have := hv.2
    rw [Bool.not_eq_true', ← Bool.not_eq_true, below_iff hlon] at this
    omega

/-- **C90** From a legible position the scan reports exactly the vertices that are seen, whatever the
form of the polygons. -/
theorem C90_exact (m : VisMap) (segs : List Seg) (look : Seg → Seg → Bool)
    (hnd : ps.flatten.Nodup) (hlen : ∀ p ∈ ps, 3 ≤ p.length) {half : Bool}
    (hO : Legible half ps obs) (h : Setup ps m segs look) (ho : obs.Per)
    (hlon : obs.lon < 540000001) (hres : ∀ a b, CornerOf ps a obs b → CornerResolved a obs b)
    (x : Coord × Bool) :
    x ∈ visible look m segs obs half ↔
      ∃ w ∈ ps.flatten, w ≠ obs ∧ ReportOf w x ∧ Sees ps obs w ∧ (half = true → obs.lat ≤ w.lat) := by
  constructor
  · intro hx
    unfold visible scan at hx
    obtain ⟨w, hw, rfl⟩ := List.mem_map.1 hx
    have hmem : w ∈ ps.flatten ∧ w ≠ obs := by
      have hw' := hw
      unfold scanRaw at hw'
      split_ifs at hw' with hm
      · simp at hw'
      · have hsl := loop_sublist look m obs half (AngleSorter.sort obs (vertices m))
          (initialOpen look obs segs)
        exact ⟨(h.mapOf.keys w).1 ((sort_perm obs _).subset (hsl.1.subset hw')),
          fun e => hsl.2 (e ▸ hw')⟩
    have hsw : Swept half obs w := by
      rintro rfl
      exact half_of_scan h ho hlon hw
    have hno : ∀ s, EdgeOf ps s → ¬ Crosses obs w s :=
      fun s hs hc => hO.hidden ⟨hnd, hlen⟩ h ho hlon hres hmem.1 hs hc hsw hw
    refine ⟨w, hmem.1, hmem.2, reportOf_report w, ⟨?_, ?_⟩, hsw⟩
    · exact fun e he n1 n2 => hO.clear hmem.1 hmem.2 hsw
        (not_inward ⟨hnd, hlen⟩ hres h.mapOf (barrier_of_scan hw)) hno e he n1 n2
    · exact hO.allows ⟨hnd, hlen⟩ hres hmem.1 hmem.2 hsw hno h.mapOf (barrier_of_scan hw)
  · rintro ⟨w, hw, hne, hR, hsee, hhalf⟩
    obtain ⟨y, hy, hRy⟩ := C34_clear_is_reported ps m segs look h obs w ho hw hne hsee.1 hsee.2 half
      (fun e => ⟨hlon, hhalf e⟩)
    rwa [reportOf_unique hR hRy]

theorem reportOf_copy {b : Coord} (hb : b.Geo) {k : ℤ} (m : Bool) :
    ReportOf (b.shift k) (b, m) ↔ (m = true ↔ k ≠ 0) := by
  cases b
  unfold ReportOf SamePeriodicPoint
  simp only [Coord.shift, Coord.Geo] at *
  constructor
  · rintro ⟨-, -, -, h⟩
    rw [h]
    omega
  · intro h
    refine ⟨⟨trivial, -k, by ring⟩, hb.1, hb.2.1, ?_⟩
    rw [h]
    omega

/-- The hypotheses on the map for the following: polygons without self-contact, counter-clockwise,
with resolved corners and no vertices in common, no vertex inside one of them, and all copies that
are not south of it legible from every vertex. -/
structure Charted (T : ℕ → Polygon.SumTree) (ps : List (List Coord)) : Prop where
  simple : ∀ p ∈ ps, SimpleRing p
  left : ∀ p ∈ ps, 0 < twiceArea p
  nodup : ps.flatten.Nodup
  off : ∀ p ∈ ps, ∀ v ∈ ps.flatten, v.pt ∉ Interior p
  geo : ∀ v ∈ ps.flatten, v.Geo
  stable : ∀ p ∈ ps, Stable T p
  legible : ∀ v ∈ ps.flatten, Legible true (polygonsPeriodic T ps) v
  corners : ∀ a v b, CornerOf ps a v b → CornerResolved a v b

/-- A vertex, or a legible position off the land. -/
def Position (ps : List (List Coord)) (c : Coord) : Prop :=
  c ∈ ps.flatten ∨ Legible false ps c ∧ ∀ p ∈ ps, c.pt ∉ Interior p

variable {T : ℕ → Polygon.SumTree}

theorem Charted.corners' (h : Charted T ps) :
    ∀ a v b, CornerOf (polygonsPeriodic T ps) a v b → CornerResolved a v b := by
  rintro a v b ⟨q, hq, i, hi, rfl, rfl, rfl⟩
  obtain ⟨p, hp, k, hk, rfl⟩ := mem_polygonsPeriodic.1 hq
  rw [h.stable p hp k hk] at hi ⊢
  rw [List.length_map] at hi ⊢
  have hp0 : p ≠ [] := by rintro rfl; simp at hi
  rw [ringAt_map hp0, ringAt_map hp0, ringAt_map hp0, resolved_shift]
  exact h.corners _ _ _ ⟨p, hp, i, hi, rfl, rfl, rfl⟩

theorem Charted.copy (h : Charted T ps) {q : List Coord} :
    q ∈ polygonsPeriodic T ps ↔ ∃ p ∈ ps, ∃ k, IsCopy k ∧ q = p.map (Coord.shift k) := by
  rw [mem_polygonsPeriodic]
  refine exists_congr fun p => and_congr_right fun hp => exists_congr fun k =>
    and_congr_right fun hk => ?_
  rw [h.stable p hp k hk]

theorem Charted.encloses (h : Charted T ps) {p : List Coord} (hp : p ∈ ps) :
    Encloses p (Interior p) := simple_encloses (h.simple p hp) (h.left p hp)

theorem Charted.encloses' (h : Charted T ps) {q : List Coord} (hq : q ∈ polygonsPeriodic T ps) :
    Encloses q (Interior q) := by
  obtain ⟨p, hp, k, -, rfl⟩ := h.copy.1 hq
  exact simple_encloses (simple_shift k (h.simple p hp)) (by rw [twiceArea_shift]; exact h.left p hp)

/-- No vertex is inside a copy. -/
theorem Charted.off' (h : Charted T ps) {v : Coord} (hv : v ∈ ps.flatten) {q : List Coord}
    (hq : q ∈ polygonsPeriodic T ps) : v.pt ∉ Interior q := by
  intro hin
  obtain ⟨p, hp, k, -, rfl⟩ := h.copy.1 hq
  obtain ⟨⟨a, ha, h1⟩, b, hb, h2⟩ := interior_extent (simple_shift k (h.simple p hp))
    (by rw [twiceArea_shift]; exact h.left p hp) hin
  obtain ⟨a, ha', rfl⟩ := List.mem_map.1 ha
  obtain ⟨b, hb', rfl⟩ := List.mem_map.1 hb
  simp only [Coord.pt, Int.cast_le] at h1 h2
  have k0 : k = 0 := by
    have g1 := h.geo v hv
    have g2 := h.geo a (mem_flat hp ha')
    have g3 := h.geo b (mem_flat hp hb')
    simp only [Coord.shift, Coord.Geo] at *
    omega
  rw [k0, map_shift_zero] at hin
  exact h.off p hp v hv hin

/-- A copy of a vertex not farther south is seen just if the line to it is over the sea. -/
theorem Charted.sees_iff (h : Charted T ps) {a b : Coord} (ha : a ∈ ps.flatten) (hb : b ∈ ps.flatten)
    (hl : a.lat ≤ b.lat) {k : ℤ} (hk : IsCopy k) (hne : b.shift k ≠ a) :
    Sees (polygonsPeriodic T ps) a (b.shift k) ↔ AtSea (Ashore ps) a.pt (b.shift k).pt := by
  rw [Legible.sees_iff (fun q hq => h.encloses' hq) (h.legible a ha) (fun q hq => h.off' ha hq) h.corners'
    (stable_vertex h.stable hb hk) (fun _ => hl) hne]
  constructor
  · intro hs
    have hag := h.geo a ha
    have hbg := h.geo b hb
    refine ashore_near (K := 1) h.simple h.left h.geo ?_ ?_ fun p hp j hj => ?_
    · unfold Coord.Geo at hag
      rw [abs_le]; omega
    · simp only [Coord.Geo, Coord.shift, IsCopy] at *
      rw [abs_le]; omega
    · have hj' : IsCopy j := by
        rw [abs_le] at hj
        unfold IsCopy
        omega
      exact hs _ (mem_polygonsPeriodic.2 ⟨p, hp, j, hj', (h.stable p hp j hj').symm⟩)
  · intro hs q hq z hz hl
    obtain ⟨p, hp, j, hj, rfl⟩ := mem_polygonsPeriodic.1 hq
    rw [h.stable p hp j hj] at hl
    exact hs z hz (mem_ashore.2 ⟨p, hp, j, hl⟩)

theorem Charted.size' (h : Charted T ps) : ∀ q ∈ polygonsPeriodic T ps, 3 ≤ q.length := by
  intro q hq
  obtain ⟨p, hp, k, -, rfl⟩ := h.copy.1 hq
  rw [List.length_map]
  exact (h.simple p hp).size

/-- What the scan from a vertex reports about another one. -/
theorem Charted.scan_iff (h : Charted T ps) {m : VisMap} {segs : List Seg} {look : Seg → Seg → Bool}
    (hs : Setup (polygonsPeriodic T ps) m segs look) {a b : Coord} (ha : a ∈ ps.flatten)
    (hab : a ≠ b) (o : Bool) :
    (b, o) ∈ visible look m segs a true ↔ b ∈ ps.flatten ∧ a.lat ≤ b.lat ∧
      ∃ k, IsCopy k ∧ (o = true ↔ k ≠ 0) ∧ AtSea (Ashore ps) a.pt (b.shift k).pt := by
  have hag := h.geo a ha
  have hres : ∀ x y, CornerOf (polygonsPeriodic T ps) x a y → CornerResolved x a y :=
    fun x y => h.corners' x a y
  rw [C90_exact m segs look (periodic_nodup h.nodup h.geo h.stable) h.size' (h.legible a ha) hs (geo_per hag)
    (by unfold Coord.Geo at hag; omega) hres]
  have hne : ∀ (b : Coord) (k : ℤ), b ∈ ps.flatten → a ≠ b → b.shift k ≠ a := by
    intro b k hb hab e
    apply hab
    have hbg := h.geo b hb
    cases a; cases b
    simp only [Coord.shift, Coord.Geo, Coord.mk.injEq] at *
    omega
  constructor
  · rintro ⟨w, hw, h1, h2, h3, h4⟩
    obtain ⟨v, hv, k, hk, rfl⟩ := periodic_vertex hw
    obtain ⟨rfl, e⟩ := reportOf_shift (h.geo v hv) h2
    exact ⟨hv, h4 rfl, k, hk, e, (h.sees_iff ha hv (h4 rfl) hk h1).1 h3⟩
  · rintro ⟨hb, hl, k, hk, ho, hsea⟩
    exact ⟨b.shift k, stable_vertex h.stable hb hk, hne b k hb hab, (reportOf_copy (h.geo b hb) o).2 ho,
      (h.sees_iff ha hb hl hk (hne b k hb hab)).2 hsea, fun _ => hl⟩

/-- **C90** The generated graph joins just the vertices with a straight line over the sea between
them, directly or across the meridian, and marks those that have no direct one. -/
theorem C90_graph (h : Charted T ps) (scanner : Coord → Res (List (Coord × Bool)))
    (hs : IsScanner T ps scanner) (order : List Coord → List Coord) (ho : ∀ l, (order l).Perm l) :
    ∃ g, generate ps scanner order = .ok g ∧ ∀ a b,
      (g.hasEdge a b = .ok true ↔ a ≠ b ∧ a ∈ ps.flatten ∧ b ∈ ps.flatten ∧
        ∃ k, IsCopy k ∧ AtSea (Ashore ps) a.pt (b.shift k).pt) ∧
      (g.isCrossing a b = .ok true ↔ a ≠ b ∧ a ∈ ps.flatten ∧ b ∈ ps.flatten ∧
        ¬ AtSea (Ashore ps) a.pt b.pt ∧
        ∃ k, (k = 1 ∨ k = -1) ∧ AtSea (Ashore ps) a.pt (b.shift k).pt) := by
  obtain ⟨g, f, h1, h2, -, -, -, h3⟩ := C38_edges T ps h.geo scanner hs order ho
  obtain ⟨f', h4, -, h5⟩ := hs.answers h.geo
  have hf : ∀ a ∈ ps.flatten, ∀ b, a ≠ b → ∀ o, (b, o) ∈ f a ↔ b ∈ ps.flatten ∧ a.lat ≤ b.lat ∧
      ∃ k, IsCopy k ∧ (o = true ↔ k ≠ 0) ∧ AtSea (Ashore ps) a.pt (b.shift k).pt := by
    intro a ha b hab o
    have e : f a = f' a := by
      have := h2 a ha
      rw [h4 a ha] at this
      exact (Except.ok.inj this).symm
    obtain ⟨m, segs, look, hset, hv⟩ := h5 a ha
    rw [e, hv]
    exact h.scan_iff hset ha hab o
  have flip : ∀ {a b : Coord} {k : ℤ}, AtSea (Ashore ps) b.pt (a.shift k).pt →
      AtSea (Ashore ps) a.pt (b.shift (-k)).pt := by
    intro a b k hs
    have := (ashore_shift (-k)).2 hs
    rw [shift_shift, add_neg_cancel, shift_zero] at this
    exact atSea_symm this
  have neg : ∀ {k : ℤ}, IsCopy k → IsCopy (-k) := by unfold IsCopy; omega
  have edge : ∀ a b, (g.hasEdge a b = .ok true ↔ a ≠ b ∧ a ∈ ps.flatten ∧ b ∈ ps.flatten ∧
      ∃ k, IsCopy k ∧ AtSea (Ashore ps) a.pt (b.shift k).pt) := by
    intro a b
    rw [(h3 a b).1]
    refine and_congr_right fun hab => and_congr_right fun ha => and_congr_right fun hb => ?_
    constructor
    · rintro ⟨o, ho | ho⟩
      · obtain ⟨-, -, k, hk, -, hsea⟩ := (hf a ha b hab o).1 ho
        exact ⟨k, hk, hsea⟩
      · obtain ⟨-, -, k, hk, -, hsea⟩ := (hf b hb a hab.symm o).1 ho
        exact ⟨-k, neg hk, flip hsea⟩
    · rintro ⟨k, hk, hsea⟩
      refine ⟨decide (k ≠ 0), ?_⟩
      rcases le_total a.lat b.lat with hl | hl
      · exact Or.inl ((hf a ha b hab _).2 ⟨hb, hl, k, hk, by simp, hsea⟩)
      · refine Or.inr ((hf b hb a hab.symm _).2 ⟨ha, hl, -k, neg hk, by simp, flip ?_⟩)
        exact hsea
  refine ⟨g, h1, fun a b => ⟨edge a b, ?_⟩⟩
  have plain : ∀ {a b : Coord}, a ≠ b → a ∈ ps.flatten → b ∈ ps.flatten → a.lat ≤ b.lat →
      ((b, false) ∈ f a ↔ AtSea (Ashore ps) a.pt b.pt) := by
    intro a b hab ha hb hl
    rw [hf a ha b hab false]
    constructor
    · rintro ⟨-, -, k, -, hk, hsea⟩
      obtain rfl : k = 0 := by simpa using hk
      rwa [shift_zero] at hsea
    · intro hsea
      exact ⟨hb, hl, 0, Or.inl rfl, by simp, by rwa [shift_zero]⟩
  rw [(h3 a b).2.1, edge]
  constructor
  · rintro ⟨⟨hab, ha, hb, k, hk, hsea⟩, n1, n2⟩
    have hno : ¬ AtSea (Ashore ps) a.pt b.pt := by
      rcases le_total a.lat b.lat with hl | hl
      · exact fun hs => n1 ((plain hab ha hb hl).2 hs)
      · exact fun hs => n2 ((plain hab.symm hb ha hl).2 (atSea_symm hs))
    refine ⟨hab, ha, hb, hno, k, ?_, hsea⟩
    rcases hk with rfl | hk
    · rw [shift_zero] at hsea
      exact absurd hsea hno
    · exact hk
  · rintro ⟨hab, ha, hb, hno, k, hk, hsea⟩
    refine ⟨⟨hab, ha, hb, k, Or.inr hk, hsea⟩, fun hm => ?_, fun hm => ?_⟩
    · have hl := ((hf a ha b hab false).1 hm).2.1
      exact hno ((plain hab ha hb hl).1 hm)
    · have hl := ((hf b hb a hab.symm false).1 hm).2.1
      exact hno (atSea_symm ((plain hab.symm hb ha hl).1 hm))

variable {scanner : Coord → Res (List (Coord × Bool))} {order : List Coord → List Coord} {E : Env}
  {s d : Coord}

theorem Legible.congr {half : Bool} {qs : List (List Coord)} (h : ∀ p, p ∈ qs ↔ p ∈ ps)
    (hO : Legible half ps obs) : Legible half qs obs := by
  have edges : ∀ {e}, EdgeOf qs e ↔ EdgeOf ps e := by
    intro e
    unfold EdgeOf
    simp only [h]
  have corners : ∀ {a v b}, CornerOf qs a v b ↔ CornerOf ps a v b := by
    intro a v b
    unfold CornerOf
    simp only [h]
  have flat : ∀ {v}, v ∈ qs.flatten ↔ v ∈ ps.flatten := by
    intro v
    simp only [List.mem_flatten, h]
  obtain ⟨h1, h2, h3⟩ := hO
  refine ⟨fun s hs => h1 s (edges.1 hs), fun v hv hsw w hw hne hl hd => ?_,
    fun v hv hsw s hs hc => ?_⟩
  · rcases h2 v (flat.1 hv) hsw w (flat.1 hw) hne hl hd with ⟨a, b, hcor, hin⟩ | ⟨s, hs, hc⟩
    · exact Or.inl ⟨a, b, corners.2 hcor, hin⟩
    · exact Or.inr ⟨s, edges.2 hs, hc⟩
  rcases h3 v (flat.1 hv) hsw s (edges.1 hs) hc with ⟨a, b, hcor, hin⟩ | ⟨e, he, hce, ⟨d1, d2, d3⟩, hall⟩
  · exact Or.inl ⟨a, b, corners.2 hcor, hin⟩
  · exact Or.inr ⟨e, edges.2 he, hce, ⟨fun s d hs => d1 s d (edges.1 hs), fun s hs => d2 s (edges.1 hs),
      fun s hs => d3 s (edges.1 hs)⟩, fun s k K hs => hall s k K (edges.1 hs)⟩

/-- A connection of an endpoint is over the sea. -/
theorem link_ashore (h : Charted T ps) (hv : Voyage T ps scanner order E s d)
    (hdup : E.graph.polygons.flatten.Nodup) {u x : Coord} (hu : u.Geo)
    (hO : Position ps u) (hl : Linked E u none x) :
    AtSea (Ashore ps) u.pt x.pt ∧ u ∉ ps.flatten := by
  obtain ⟨h1, h2, ⟨vis, o, h3, h4⟩, -⟩ := hl
  have hun : u ∉ ps.flatten := by
    rw [← hv.hasVertex u, h1]
    simp
  refine ⟨?_, hun⟩
  have hO := hO.resolve_left hun
  obtain ⟨hO, hoff⟩ := hO
  have corners : ∀ {a v b}, CornerOf E.graph.polygons a v b ↔ CornerOf ps a v b := by
    intro a v b
    unfold CornerOf
    simp only [hv.obstacles]
  have hO' : Legible false E.graph.polygons u := hO.congr hv.obstacles
  obtain ⟨m, segs, look, r1, r2, r3, r4⟩ := hv.reach u
  have hset : Setup E.graph.polygons m segs look := ⟨r1, r2, r3, fun v hm => (hv.geo' v hm).per⟩
  rw [C37_safe _ m segs look hset u hu.per false, h3] at r4
  have r4 := Except.ok.inj r4
  rw [r4, C90_exact m segs look hdup
    (fun p hp => (h.simple p ((hv.obstacles p).1 hp)).size) hO' hset hu.per (by unfold Coord.Geo at hu; omega)
    (fun a b hc => h.corners _ _ _ (corners.1 hc))] at h4
  obtain ⟨w, hw, hne, hR, hsee, -⟩ := h4
  have hwg := hv.geo' w hw
  obtain rfl : x = w := by
    have := reportOf_shift hwg (k := 0) (x := (x, o)) (by rwa [shift_zero])
    exact this.1
  have hsea := (Legible.sees_iff (fun p hp => h.encloses ((hv.obstacles p).1 hp)) hO'
    (fun p hp => hoff p ((hv.obstacles p).1 hp)) (fun a v b hc => h.corners _ _ _ (corners.1 hc)) hw
    (fun e => by cases e) hne).1 hsee
  refine ashore_near (K := 0) h.simple h.left h.geo ?_ ?_ fun p hp j hj => ?_
  · unfold Coord.Geo at hu
    rw [abs_le]; omega
  · unfold Coord.Geo at hwg
    rw [abs_le]; omega
  · have : j = 0 := by rw [abs_le] at hj; omega
    rw [this, map_shift_zero]
    exact hsea p ((hv.obstacles p).2 hp)

theorem crossing_verts (hv : Voyage T ps scanner order E s d) {u v : Coord}
    (h : CrossesMeridian E u v) : u ∈ ps.flatten ∧ v ∈ ps.flatten := by
  unfold CrossesMeridian at h
  by_cases huv : u = v
  · rw [huv] at h
    unfold Graph.isCrossing at h
    rw [if_pos rfl] at h
    cases h
  · by_contra hcon
    rw [← hv.mem_verts, ← hv.mem_verts, not_and_or] at hcon
    rw [(C20_unknown E.graph hv.made.regular.built.shape u v false huv hcon).2.2.2.2.2.1] at h
    cases h

/-- Every leg a route may have is over the sea. -/
theorem route_ashore (h : Charted T ps) (hv : Voyage T ps scanner order E s d)
    (hdup : E.graph.polygons.flatten.Nodup) (hs : Position ps s)
    (hd : Position ps d) {u v : Coord} (he : RouteEdge E ⟨s, d, none, none⟩ u v) :
    LegOver (Ashore ps) E u v := by
  have link : ∀ u v : Coord, AtSea (Ashore ps) u.pt v.pt ∧ u ∉ ps.flatten →
      LegOver (Ashore ps) E u v ∧ LegOver (Ashore ps) E v u := fun u v hl =>
    ⟨Or.inl ⟨fun hc => hl.2 (crossing_verts hv hc).1, hl.1⟩,
      Or.inl ⟨fun hc => hl.2 (crossing_verts hv hc).2, atSea_symm hl.1⟩⟩
  rcases he with he | ⟨rfl, he⟩ | ⟨rfl, he⟩ | ⟨rfl, he⟩ | ⟨rfl, he⟩
  · obtain ⟨g, g1, -, g2⟩ := hv.graph
    obtain ⟨g', g3, g4⟩ := C90_graph h scanner hv.scan order hv.perm
    rw [g1] at g3
    cases g3
    obtain ⟨e1, e2⟩ := g4 u v
    rw [(g2 u v).1, e1] at he
    obtain ⟨huv, hu, hv', k, hk, hsea⟩ := he
    have hcr : CrossesMeridian E u v ↔ g.isCrossing u v = .ok true := by
      unfold CrossesMeridian
      rw [(g2 u v).2]
    unfold LegOver
    rw [hcr, e2]
    by_cases hp : AtSea (Ashore ps) u.pt v.pt
    · exact Or.inl ⟨fun hc => hc.2.2.2.1 hp, hp⟩
    · have hk' : k = 1 ∨ k = -1 := by
        rcases hk with rfl | hk
        · rw [shift_zero] at hsea
          exact absurd hsea hp
        · exact hk
      exact Or.inr ⟨⟨huv, hu, hv', hp, k, hk', hsea⟩, k, hk', hsea⟩
  · exact (link _ _ (link_ashore h hv hdup hv.src hs he)).1
  · exact (link _ _ (link_ashore h hv hdup hv.src hs he)).2
  · exact (link _ _ (link_ashore h hv hdup hv.dst hd he)).1
  · exact (link _ _ (link_ashore h hv hdup hv.dst hd he)).2

/-- **C90** Between points at sea in legible positions every path returned keeps to the sea, whatever
the arithmetic of the search, unless the index finds nothing in the way of the straight line. -/
theorem C90_path_sea {D : Type} [LinearOrder D] (A : Arith D) (hA : A.Sound) (h : Charted T ps)
    (hv : Voyage T ps scanner order E s d) (hdup : E.graph.polygons.flatten.Nodup)
    (hs : Position ps s) (hd : Position ps d) (allow : Bool)
    (path : List Coord) (hq : Query A E s d allow (.ok path)) :
    E.crossings ⟨s, d⟩ = [] ∧ path = [s, d] ∨ IsWalk (LegOver (Ashore ps) E) s d path := by
  obtain ⟨ns, nd, c, h1, h2, h3, h4⟩ := C42_paths A hA E hv.made hv.ord s d allow path hq
  rw [C01_normalize_id s hv.src.1 hv.src.2.1] at h1
  rw [C01_normalize_id d hv.dst.1 hv.dst.2.1] at h2
  cases h1
  cases h2
  have hc : correct E s d allow = .ok ⟨s, d, none, none⟩ := by
    unfold correct correctOne
    rw [hv.atSea.1, hv.atSea.2]
    simp only [Bool.or_self, Bool.and_false, Bool.false_eq_true, if_false]
    rfl
  rw [hc] at h3
  cases h3
  rcases h4 with ⟨h5, h4⟩ | ⟨-, h4, h5, h6⟩
  · unfold blocking at h5
    exact Or.inl ⟨by simpa [notEdge] using h5, h4⟩
  · exact Or.inr ⟨h4, h5, h6.imp fun _ _ he => route_ashore h hv hdup hs hd he⟩

/-- **C90** Between points at sea in legible positions that are not joined by a straight line over
the sea, whenever there is a course over the sea this side of the meridian, a path is returned; it
is the straight line if the index finds nothing in its way, or keeps to the sea and is, up to
rounding and the greediness weighting, at most as long as that course. -/
theorem C90_path {A : Arith Dbl} {w : Dbl} (hA : A.DoubleLike w none) (h0 : 0 ≤ w.1)
    (h : Charted T ps) (hv : Voyage T ps scanner order E s d) (hsize : ps.flatten.length ≤ 499998)
    (hdup : E.graph.polygons.flatten.Nodup) (hs : Position ps s)
    (hd : Position ps d) (hne : s ≠ d)
    (hblock : ¬ AtSea (Ashore ps) s.pt d.pt)
    (course : List ℂ) (hc : IsWalk (AtSea (⋃ p ∈ ps, Interior p)) s.pt d.pt course)
    (allow : Bool) (r : Res (List Coord)) (hq : Query A E s d allow r) :
    ∃ path, r = .ok path ∧ (E.crossings ⟨s, d⟩ = [] ∧ path = [s, d] ∨ IsWalk (LegOver (Ashore ps) E) s d path ∧
      walkLength (legLength E) path ≤ (1 + 1 / 10 ^ 8) *
        (max 1 ((w.1 : ℚ) : ℝ) * walkLength lineLength course)) := by
  have hE : ∀ p ∈ ps, Encloses p (Interior p) := fun p hp => h.encloses hp
  have up : ∀ {e}, EdgeOf ps e → EdgeOf (polygonsPeriodic T ps) e := by
    rintro e ⟨p, hp, he⟩
    exact ⟨p, h.copy.2 ⟨p, hp, 0, Or.inl rfl, (map_shift_zero p).symm⟩, he⟩
  have hin : ∀ e, EdgeOf ps e → ∀ v, v = s ∨ v = d ∨ v ∈ ps.flatten → OnSeg e v.lon v.lat →
      v = e.p ∨ v = e.q := by
    intro e he v hvs hon
    by_contra hno
    push Not at hno
    have hvs : Position ps v := by
      rcases hvs with rfl | rfl | hm
      · exact hs
      · exact hd
      · exact Or.inl hm
    rcases hvs with hm | hO
    · exact (h.legible v hm).off e (up he) hno.1 hno.2 hon
    · exact hO.1.off e he hno.1 hno.2 hon
  have hsee : ¬ (Sees ps s d ∧ Sees ps d s) := by
    rintro ⟨hsee, -⟩
    refine hblock (ashore_near (K := 0) h.simple h.left h.geo ?_ ?_ fun p hp j hj => ?_)
    · have := hv.src
      unfold Coord.Geo at this
      rw [abs_le]; omega
    · have := hv.dst
      unfold Coord.Geo at this
      rw [abs_le]; omega
    · have : j = 0 := by rw [abs_le] at hj; omega
      rw [this, map_shift_zero]
      refine sea_of_sees hE h.corners hne hsee hp ?_
      rcases hs with hm | hO
      · exact h.off p hp s hm
      · exact hO.2 p hp
  obtain ⟨path, rfl, hp⟩ := C74_path hA h0 T ps scanner order E s d hv hsize Interior hE h.corners hne hin
    hsee course hc allow r hq
  refine ⟨path, rfl, ?_⟩
  rcases C90_path_sea A hA.sound h hv hdup hs hd allow path hq with h1 | h1
  · exact Or.inl h1
  · exact hp.imp id fun h2 => ⟨h1, h2⟩

end

/-! ### A criterion -/

/-- All the hypotheses on the map, in a form that can be computed. -/
def ChartedBy (T : ℕ → Polygon.SumTree) (ps : List (List Coord)) : Prop :=
  (∀ p ∈ ps, SimpleRing p) ∧ (∀ p ∈ ps, 0 < twiceArea p) ∧ ps.flatten.Nodup ∧
  (∀ p ∈ ps, ∀ v ∈ ps.flatten, v ∈ p ∨ offB p v = true ∧ passes p v = 0) ∧
  (∀ v ∈ ps.flatten, v.Geo) ∧
  (∀ p ∈ ps, ∀ k ∈ [(0 : ℤ), 1, -1], Polygon.mk T (p.map (Coord.shift k)) = p.map (Coord.shift k)) ∧
  (∀ v ∈ ps.flatten, LegibleBy true (polygonsPeriodic T ps) v) ∧
  ∀ p ∈ ps, ∀ i < p.length,
    CornerResolved (ringAt p (i + p.length - 1)) (ringAt p i) (ringAt p (i + 1))

instance (T : ℕ → Polygon.SumTree) (ps : List (List Coord)) : Decidable (ChartedBy T ps) := by
  unfold ChartedBy; infer_instance

/-- The criterion is sufficient. -/
theorem ChartedBy.charted {T : ℕ → Polygon.SumTree} {ps : List (List Coord)} (h : ChartedBy T ps) :
    Charted T ps := by
  obtain ⟨h1, h2, h3, h4, h5, h6, h7, h8⟩ := h
  refine ⟨h1, h2, h3, fun p hp v hv hin => ?_, h5, fun p hp k hk => h6 p hp k ?_,
    fun v hv => (h7 v hv).legible, ?_⟩
  · rcases h4 p hp v hv with hm | ⟨g1, g2⟩
    · obtain ⟨i, hi, rfl⟩ := List.mem_iff_getElem.1 hm
      refine hin.1 ⟨i, hi, ?_⟩
      have : ringAt p i = p[i] := by
        unfold ringAt
        rw [Nat.mod_eq_of_lt hi]
        simp [hi]
      rw [this]
      exact left_mem_segment ℝ _ _
    · exact ((C89_count p v (offB_sound g1)).2.1 hin) g2
  · unfold IsCopy at hk
    simpa using hk
  · rintro a v b ⟨p, hp, i, hi, rfl, rfl, rfl⟩
    exact h8 p hp i hi

/-! ### A harbour -/

/-- An island with a bay to the east, and a rock in the mouth of the bay. -/
def exHarbour : List (List Coord) :=
  [[⟨0, -100000⟩, ⟨3050000, -1000000⟩, ⟨900000, 260000⟩, ⟨2900000, 1900000⟩],
    [⟨2300000, 300000⟩, ⟨2850000, 350000⟩, ⟨2650000, 650000⟩]]

/-- In the bay, and west of the island. -/
def exMooring : Coord := ⟨1700000, 350000⟩
def exLanding : Coord := ⟨-1500000, -500000⟩

theorem exHarbour_off {c : Coord} (h : ∀ p ∈ exHarbour, offB p c = true ∧ passes p c = 0) :
    ∀ p ∈ exHarbour, c.pt ∉ Interior p := fun p hp hin =>
  ((C89_count p c (offB_sound (h p hp).1)).2.1 hin) (h p hp).2

theorem exHarbour_charted : Charted Polygon.SumTree.sequential exHarbour :=
  ChartedBy.charted (by decide +kernel)

theorem exHarbour_position : Position exHarbour exMooring ∧ Position exHarbour exLanding := by
  have key : ∀ v ∈ [exMooring, exLanding], LegibleBy false exHarbour v ∧
      ∀ p ∈ exHarbour, offB p v = true ∧ passes p v = 0 := by decide +kernel
  have := fun v hv => (⟨(key v hv).1.legible, exHarbour_off (key v hv).2⟩ :
    Legible false exHarbour v ∧ ∀ p ∈ exHarbour, v.pt ∉ Interior p)
  exact ⟨Or.inr (this _ (by simp)), Or.inr (this _ (by simp))⟩

/-- The harbour with its generated graph; the straight line out of the bay is blocked. -/
def exHarbourEnv : Env where
  graph := (generate exHarbour (exScanner Polygon.SumTree.sequential exHarbour) id).toOption.getD
    Graph.empty
  onLand _ := false
  closest _ := .error .exn
  project _ c := .ok c
  crossings _ := [⟨⟨3050000, -1000000⟩, ⟨900000, 260000⟩⟩]
  reach e := scanC exLook (ofPolygons exHarbour) e (vertices (ofPolygons exHarbour))
    (segments (ofPolygons exHarbour)) false
  ord l := l

theorem exHarbour_graph : generate exHarbour (exScanner Polygon.SumTree.sequential exHarbour) id =
    .ok exHarbourEnv.graph := by
  obtain ⟨g, f, h1, -⟩ := C38_edges Polygon.SumTree.sequential exHarbour (by decide) _
    (exScanner_ok _ _) id fun l => List.Perm.refl l
  unfold exHarbourEnv
  dsimp only
  rw [h1]
  rfl

theorem exHarbour_voyage : Voyage Polygon.SumTree.sequential exHarbour
    (exScanner Polygon.SumTree.sequential exHarbour) id exHarbourEnv exMooring exLanding :=
  .direct (by decide) exHarbour_charted.stable (exScanner_ok _ _) (fun l => List.Perm.refl l)
    exHarbour_graph (fun _ => ⟨_, _, _, List.Perm.refl _, List.Perm.refl _, exLook_ok, rfl⟩)
    (fun l => List.Perm.refl l) (by decide) (by decide) ⟨rfl, rfl⟩

theorem exHarbour_nodup : exHarbourEnv.graph.polygons.flatten.Nodup := by
  obtain ⟨g, f, h1, -, h2, -⟩ := C38_edges Polygon.SumTree.sequential exHarbour (by decide) _
    (exScanner_ok _ _) id fun l => List.Perm.refl l
  rw [exHarbour_graph] at h1
  cases h1
  rw [h2]
  decide

/-- The line out of the bay goes over the island. -/
theorem exHarbour_blocked : ¬ AtSea (Ashore exHarbour) exMooring.pt exLanding.pt := by
  intro h
  refine h (⟨500000, 31250⟩ : Coord).pt ⟨5 / 8, 3 / 8, by norm_num, by norm_num, by norm_num, ?_⟩ ?_
  · apply Complex.ext <;> simp [exMooring, exLanding, Coord.pt] <;> norm_num
  · refine mem_ashore.2 ⟨_, List.mem_cons_self, 0, ?_⟩
    rw [map_shift_zero]
    exact (C89_count _ _ (offB_sound (by decide +kernel))).2.2 (by decide +kernel)

/-- Out of the bay between the rock and the northern arm, and round the north of the island. -/
def exHarbourCourse : List Coord := [exMooring, ⟨2500000, 1200000⟩, ⟨3500000, 2500000⟩,
  ⟨-1500000, 2500000⟩, exLanding]

theorem exHarbour_course : IsWalk (AtSea (⋃ p ∈ exHarbour, Interior p)) exMooring.pt exLanding.pt
    (exHarbourCourse.map Coord.pt) := by
  have hleg : ∀ a b : Coord, (∀ p ∈ exHarbour, (∀ i < p.length,
      EdgesApart a b (ringAt p i) (ringAt p (i + 1))) ∧ offB p b = true ∧ passes p b = 0) →
      AtSea (⋃ p ∈ exHarbour, Interior p) a.pt b.pt := by
    intro a b h z hz hin
    obtain ⟨p, hp, hin⟩ := Set.mem_iUnion₂.1 hin
    obtain ⟨h1, h2, h3⟩ := h p hp
    have hb := offB_sound h2
    exact outside_line (simple_noRepeat (exHarbour_charted.simple p hp)) h1 hb
      (fun k => ((C89_count _ _ hb).2.1 k) h3) z hz hin
  refine ⟨rfl, rfl, ?_⟩
  simp only [exHarbourCourse, List.map_cons, List.map_nil, List.isChain_cons_cons,
    List.isChain_singleton, and_true]
  refine ⟨hleg _ _ ?_, hleg _ _ ?_, hleg _ _ ?_, hleg _ _ ?_⟩ <;> decide +kernel

/-- Positions may be legible with vertices in line: here both are behind an edge. -/
example : InLine ⟨0, 0⟩ ⟨30000, 30000⟩ ⟨9000, 9000⟩ ∧
    Legible false [[⟨9000, 9000⟩, ⟨11000, 7000⟩, ⟨12000, 9100⟩],
      [⟨2500, 1000⟩, ⟨2600, 2100⟩, ⟨1110, 2500⟩],
      [⟨30000, 30000⟩, ⟨34000, 29000⟩, ⟨33000, 35000⟩]] ⟨0, 0⟩ :=
  ⟨by decide, LegibleBy.legible (by decide +kernel)⟩

/-- Non-vacuity of `C90_exact`: from the mooring the scan reports the two arms of the bay, its head
and two vertices of the rock; the others are hidden. -/
example : Legible false exHarbour exMooring ∧
    Setup exHarbour (ofPolygons exHarbour) (segments (ofPolygons exHarbour)) exLook ∧
    (visible exLook (ofPolygons exHarbour) (segments (ofPolygons exHarbour)) exMooring false).map
      Prod.fst ⊆ [⟨3050000, -1000000⟩, ⟨900000, 260000⟩, ⟨2900000, 1900000⟩, ⟨2300000, 300000⟩,
        ⟨2650000, 650000⟩] ∧
    ¬ Sees exHarbour exMooring ⟨0, -100000⟩ ∧ Sees exHarbour exMooring ⟨2900000, 1900000⟩ := by
  have hO : Legible false exHarbour exMooring :=
    LegibleBy.legible (by decide +kernel)
  have hset : Setup exHarbour (ofPolygons exHarbour) (segments (ofPolygons exHarbour)) exLook :=
    ⟨List.Perm.refl _, List.Perm.refl _, exLook_ok, by decide⟩
  have key := C90_exact _ _ _ (by decide) (by decide) hO hset (by decide) (by decide)
    (fun a b hc => by
      obtain ⟨p, hp, i, hi, -, e, -⟩ := hc
      have : ∀ p ∈ exHarbour, ∀ i < p.length, exMooring ≠ ringAt p i := by decide
      exact absurd e (this p hp i hi))
  refine ⟨hO, hset, by decide +kernel, ?_, ?_⟩
  · intro hs
    have := (key (⟨0, -100000⟩, false)).2 ⟨⟨0, -100000⟩, by decide, by decide,
      reportOf_report _, hs, by decide⟩
    exact absurd this (by decide +kernel)
  · obtain ⟨w, hw, -, hr, hs, -⟩ := (key (⟨2900000, 1900000⟩, false)).1 (by decide +kernel)
    have : ∀ w ∈ exHarbour.flatten, report w = (⟨2900000, 1900000⟩, false) →
        w = ⟨2900000, 1900000⟩ := by decide +kernel
    rw [this w hw (reportOf_unique (reportOf_report w) hr)] at hs
    exact hs

/-- Non-vacuity of `C90_path_sea` and `C90_path`: from the mooring to the landing a path over the sea
is returned, no longer than the course round the north. -/
example (sq : ℚ → Dbl) (hsq : SqrtOk fun q => (sq q).1) (hsq0 : ∀ x, 0 ≤ (sq x).1) (w : Dbl)
    (hw : w.1 = 1) :
    ∃ path, Query (doubleArith sq w none) exHarbourEnv exMooring exLanding false (.ok path) ∧
    IsWalk (LegOver (Ashore exHarbour) exHarbourEnv) exMooring exLanding path ∧
    walkLength (legLength exHarbourEnv) path ≤ (1 + 1 / 10 ^ 8) * (max 1 ((w.1 : ℚ) : ℝ) *
      walkLength lineLength (exHarbourCourse.map Coord.pt)) := by
  have hV := exHarbour_voyage
  have h0 : 0 ≤ w.1 := by rw [hw]; norm_num
  have hl := double_like sq hsq hsq0 w h0 none
  obtain ⟨⟨r, hq⟩, -⟩ := C43_outcome _ hl.sound exHarbourEnv hV.made hV.ord exMooring exLanding false
  obtain ⟨path, rfl, ⟨hp, -⟩ | hp⟩ := C90_path hl h0 exHarbour_charted hV (by decide) exHarbour_nodup
    exHarbour_position.1 exHarbour_position.2 (by decide) exHarbour_blocked _ exHarbour_course
    false r hq
  · cases hp
  · exact ⟨path, hq, hp⟩

/-- Non-vacuity of `C90_graph`: the arms of the bay are joined directly, the head of the bay and the
far end of the rock not at all, the rock and the west of the island only the other way round the
globe. -/
example : Charted Polygon.SumTree.sequential exHarbour ∧
    (generate exHarbour (exScanner Polygon.SumTree.sequential exHarbour) id).bind
      (fun g => do return (← g.hasEdge ⟨3050000, -1000000⟩ ⟨2900000, 1900000⟩,
        ← g.isCrossing ⟨3050000, -1000000⟩ ⟨2900000, 1900000⟩,
        ← g.hasEdge ⟨900000, 260000⟩ ⟨2850000, 350000⟩,
        ← g.isCrossing ⟨0, -100000⟩ ⟨2850000, 350000⟩)) = .ok (true, false, false, true) :=
  ⟨exHarbour_charted, by decide +kernel⟩

end Capi
