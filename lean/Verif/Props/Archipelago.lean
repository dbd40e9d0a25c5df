import Verif.Lemmas.OrderlyCheck
import Verif.Props.Charted

/-!
# C75: maps of convex islands

The scan, the graph and the path against lines over the sea: C90 for polygons whose inside is what is
to the left of all edges, and positions described without the order of the sweep.
-/

namespace Capi

open ShortestPath Vistree Visgraph

section

variable {ps : List (List Coord)} {obs : Coord}

/-- **C75** From a place in an orderly position to a map of convex islands, the scan reports exactly
the vertices that are seen: the others lie behind an island. -/
theorem C75_exact (m : VisMap) (segs : List Seg) (look : Seg → Seg → Bool)
    (hI : Islands ps) (hO : Orderly ps obs) (h : Setup ps m segs look) (ho : obs.Per)
    (hlon : obs.lon < 540000001) (hres : ∀ a b, CornerOf ps a obs b → CornerResolved a obs b)
    (half : Bool) (x : Coord × Bool) :
    x ∈ visible look m segs obs half ↔
      ∃ w ∈ ps.flatten, w ≠ obs ∧ ReportOf w x ∧ Sees ps obs w ∧ (half = true → obs.lat ≤ w.lat) :=
  C90_exact m segs look hI.nodup hI.size ((hI.legible hO).of_full half) h ho hlon hres x

/-- The hypotheses on the map for the following: convex islands with resolved corners, and every
vertex in an orderly position to all copies of the islands. -/
structure Chart (T : ℕ → Polygon.SumTree) (ps : List (List Coord)) : Prop where
  islands : Islands ps
  geo : ∀ v ∈ ps.flatten, v.Geo
  stable : ∀ p ∈ ps, Stable T p
  orderly : ∀ v ∈ ps.flatten, Orderly (polygonsPeriodic T ps) v
  corners : ∀ a v b, CornerOf ps a v b → CornerResolved a v b

variable {T : ℕ → Polygon.SumTree}

/-- The inside of a convex island. -/
theorem convex_interior {p : List Coord} (hc : Convex p) (hnd : p.Nodup) (hlen : 3 ≤ p.length) :
    Inland p = Interior p :=
  (C89_encloses p (convex_simple hc hnd hlen) (convex_left hc hnd hlen) _).1
    (convex_encloses hc hnd hlen)

theorem Islands.inland (h : Islands ps) {p : List Coord} (hp : p ∈ ps) : Inland p = Interior p :=
  convex_interior (h.convex p hp) ((List.nodup_flatten.1 h.nodup).1 p hp) (h.size p hp)

theorem Islands.land (h : Islands ps) : Land ps = Ashore ps := by
  unfold Land Ashore
  refine Set.iUnion₂_congr fun p hp => Set.iUnion_congr fun j => ?_
  exact convex_interior (convex_shift j (h.convex p hp))
    (((List.nodup_flatten.1 h.nodup).1 p hp).map fun a b h => shift_inj h)
    (by rw [List.length_map]; exact h.size p hp)

theorem Chart.charted (h : Chart T ps) : Charted T ps where
  simple p hp := convex_simple (h.islands.convex p hp) ((List.nodup_flatten.1 h.islands.nodup).1 p hp)
    (h.islands.size p hp)
  left p hp := convex_left (h.islands.convex p hp) ((List.nodup_flatten.1 h.islands.nodup).1 p hp)
    (h.islands.size p hp)
  nodup := h.islands.nodup
  off _ hp _ hv := h.islands.inland hp ▸ h.islands.off hp hv
  geo := h.geo
  stable := h.stable
  legible v hv := (h.islands.periodic h.geo h.stable).legible (h.orderly v hv) |>.of_full true
  corners := h.corners

theorem Islands.position (h : Islands ps) {c : Coord} (hc : c ∈ ps.flatten ∨ Orderly ps c) :
    Position ps c :=
  hc.imp id fun hO => ⟨h.legible hO, fun _ hp => h.inland hp ▸ orderly_off hO hp⟩

/-- **C75** The generated graph joins just the vertices with a straight line over the sea between
them, directly or across the meridian, and marks those that have no direct one. -/
theorem C75_graph (h : Chart T ps) (scanner : Coord → Res (List (Coord × Bool)))
    (hs : IsScanner T ps scanner) (order : List Coord → List Coord) (ho : ∀ l, (order l).Perm l) :
    ∃ g, generate ps scanner order = .ok g ∧ ∀ a b,
      (g.hasEdge a b = .ok true ↔ a ≠ b ∧ a ∈ ps.flatten ∧ b ∈ ps.flatten ∧
        ∃ k, IsCopy k ∧ AtSea (Land ps) a.pt (b.shift k).pt) ∧
      (g.isCrossing a b = .ok true ↔ a ≠ b ∧ a ∈ ps.flatten ∧ b ∈ ps.flatten ∧
        ¬ AtSea (Land ps) a.pt b.pt ∧
        ∃ k, (k = 1 ∨ k = -1) ∧ AtSea (Land ps) a.pt (b.shift k).pt) := by
  rw [h.islands.land]
  exact C90_graph h.charted scanner hs order ho

variable {scanner : Coord → Res (List (Coord × Bool))} {order : List Coord → List Coord} {E : Env}
  {s d : Coord}

/-- The straight line from `u` to `v`, or to a copy of `v` if the leg crosses the meridian, is over
the sea. -/
abbrev SeaLeg (ps : List (List Coord)) (E : Env) (u v : Coord) : Prop := LegOver (Land ps) E u v

/-- **C75** Between points at sea in orderly positions every path returned keeps to the sea, whatever
the arithmetic of the search, unless the index finds nothing in the way of the straight line. -/
theorem C75_path_sea {D : Type} [LinearOrder D] (A : Arith D) (hA : A.Sound) (h : Chart T ps)
    (hv : Voyage T ps scanner order E s d) (hdup : E.graph.polygons.flatten.Nodup)
    (hs : s ∈ ps.flatten ∨ Orderly ps s) (hd : d ∈ ps.flatten ∨ Orderly ps d) (allow : Bool)
    (path : List Coord) (hq : Query A E s d allow (.ok path)) :
    E.crossings ⟨s, d⟩ = [] ∧ path = [s, d] ∨ IsWalk (SeaLeg ps E) s d path := by
  unfold SeaLeg
  rw [h.islands.land]
  exact C90_path_sea A hA h.charted hv hdup (h.islands.position hs) (h.islands.position hd) allow path hq

/-- **C75** Between points at sea in orderly positions that are not joined by a straight line over
the sea, whenever there is a course over the sea this side of the meridian, a path is returned; it
is the straight line if the index finds nothing in its way, or keeps to the sea and is, up to
rounding and the greediness weighting, at most as long as that course. -/
theorem C75_path {A : Arith Dbl} {w : Dbl} (hA : A.DoubleLike w none) (h0 : 0 ≤ w.1)
    (h : Chart T ps) (hv : Voyage T ps scanner order E s d) (hsize : ps.flatten.length ≤ 499998)
    (hdup : E.graph.polygons.flatten.Nodup) (hs : s ∈ ps.flatten ∨ Orderly ps s)
    (hd : d ∈ ps.flatten ∨ Orderly ps d) (hne : s ≠ d)
    (hblock : ¬ AtSea (Land ps) s.pt d.pt)
    (course : List ℂ) (hc : IsWalk (AtSea (⋃ p ∈ ps, Inland p)) s.pt d.pt course)
    (allow : Bool) (r : Res (List Coord)) (hq : Query A E s d allow r) :
    ∃ path, r = .ok path ∧ (E.crossings ⟨s, d⟩ = [] ∧ path = [s, d] ∨ IsWalk (SeaLeg ps E) s d path ∧
      walkLength (legLength E) path ≤ (1 + 1 / 10 ^ 8) *
        (max 1 ((w.1 : ℚ) : ℝ) * walkLength lineLength course)) := by
  unfold SeaLeg
  rw [h.islands.land] at hblock ⊢
  have e : (⋃ p ∈ ps, Inland p) = ⋃ p ∈ ps, Interior p :=
    Set.iUnion₂_congr fun p hp => h.islands.inland hp
  rw [e] at hc
  exact C90_path hA h0 h.charted hv hsize hdup (h.islands.position hs) (h.islands.position hd) hne hblock
    course hc allow r hq

end

/-! ### Two islands -/

theorem mem_land {ps : List (List Coord)} {x : ℂ} :
    x ∈ Land ps ↔ ∃ p ∈ ps, ∃ j : ℤ, x ∈ Inland (p.map (Coord.shift j)) := by
  unfold Land
  simp only [Set.mem_iUnion, exists_prop]

/-- Two triangular islands of two degrees each. -/
def exIsles : List (List Coord) :=
  [[⟨0, 0⟩, ⟨2000000, 300000⟩, ⟨1000000, 1900000⟩],
    [⟨5000000, -200000⟩, ⟨7000000, 500000⟩, ⟨5900000, 1700000⟩]]

/-- Lines and circles that separate the islands and their copies. -/
def exDirs : List Coord := [⟨1, 0⟩, ⟨-1, 0⟩, ⟨0, 1⟩, ⟨0, -1⟩]

def exRadii : List ℤ := [4060789, 4148494, 5003999, 6140033, 6161169, 7017835, 355000058, 356006195,
  356102754, 357000352, 360000002, 360905003, 361003547, 362000126, 362000678]

theorem exIsles_chart : Chart Polygon.SumTree.sequential exIsles := by
  have key : ∀ v ∈ exIsles.flatten,
      OrderlyBy exDirs exRadii (polygonsPeriodic Polygon.SumTree.sequential exIsles) v := by
    decide +kernel
  refine ⟨⟨by decide, by decide, by decide, by decide⟩, by decide, ?_, fun v hv => (key v hv).orderly, ?_⟩
  · intro p hp k hk
    simp only [exIsles, List.mem_cons, List.not_mem_nil, or_false] at hp
    rcases hp with rfl | rfl <;> rcases hk with rfl | rfl | rfl <;> decide +kernel
  · rintro a v b ⟨p, hp, i, hi, rfl, rfl, rfl⟩
    simp only [exIsles, List.mem_cons, List.not_mem_nil, or_false] at hp
    rcases hp with rfl | rfl <;> (simp only [List.length_cons, List.length_nil] at hi) <;>
      interval_cases i <;> decide +kernel

def exWestOf : Coord := ⟨-2000000, 1000000⟩
def exEastOf : Coord := ⟨9000000, 900000⟩

theorem exIsles_orderly : Orderly exIsles exWestOf ∧ Orderly exIsles exEastOf := by
  have key : ∀ v ∈ [exWestOf, exEastOf], OrderlyBy exDirs exRadii exIsles v := by decide +kernel
  exact ⟨(key _ (by simp)).orderly, (key _ (by simp)).orderly⟩

/-- The islands with their generated graph; the straight line past them is blocked. -/
def exIslesEnv : Env where
  graph := (generate exIsles (exScanner Polygon.SumTree.sequential exIsles) id).toOption.getD
    Graph.empty
  onLand _ := false
  closest _ := .error .exn
  project _ c := .ok c
  crossings _ := [⟨⟨1000000, 1900000⟩, ⟨0, 0⟩⟩]
  reach e := scanC exLook (ofPolygons exIsles) e (vertices (ofPolygons exIsles))
    (segments (ofPolygons exIsles)) false
  ord l := l

theorem exIsles_graph : generate exIsles (exScanner Polygon.SumTree.sequential exIsles) id =
    .ok exIslesEnv.graph := by
  obtain ⟨g, f, h1, -⟩ := C38_edges Polygon.SumTree.sequential exIsles (by decide) _
    (exScanner_ok _ _) id fun l => List.Perm.refl l
  unfold exIslesEnv
  dsimp only
  rw [h1]
  rfl

theorem exIsles_voyage : Voyage Polygon.SumTree.sequential exIsles
    (exScanner Polygon.SumTree.sequential exIsles) id exIslesEnv exWestOf exEastOf :=
  .direct (by decide) exIsles_chart.stable (exScanner_ok _ _) (fun l => List.Perm.refl l)
    exIsles_graph (fun _ => ⟨_, _, _, List.Perm.refl _, List.Perm.refl _, exLook_ok, rfl⟩)
    (fun l => List.Perm.refl l) (by decide) (by decide) ⟨rfl, rfl⟩

/-- The line between the two places goes over the first island. -/
theorem exIsles_blocked : ¬ AtSea (Land exIsles) exWestOf.pt exEastOf.pt := by
  intro h
  refine h ⟨1000000, 10700000 / 11 ⟩ ⟨8 / 11, 3 / 11, by norm_num, by norm_num, by norm_num, ?_⟩ ?_
  · apply Complex.ext <;> simp [exWestOf, exEastOf, Coord.pt] <;> norm_num
  · refine mem_land.2 ⟨_, List.mem_cons_self, 0, ?_⟩
    rw [map_shift_zero]
    rintro e ⟨p, hp, i, hi, rfl⟩
    obtain rfl := List.mem_singleton.1 hp
    simp only [List.length_cons, List.length_nil] at hi
    interval_cases i <;> simp [turn, Coord.pt, ringAt] <;> norm_num

/-- A course round the north of both islands. -/
theorem exIsles_course : IsWalk (AtSea (⋃ p ∈ exIsles, Inland p)) exWestOf.pt exEastOf.pt
    [⟨-2000000, 1000000⟩, ⟨-2000000, 3000000⟩, ⟨1000000, 3000000⟩, ⟨5900000, 3000000⟩,
      ⟨9000000, 3000000⟩, ⟨9000000, 900000⟩] := by
  have hsea : ∀ i < 3, ∀ j < 3, ∀ u w : ℂ,
      (∀ x ∈ [u, w], turn (ringAt (exIsles.getD 0 []) i).pt (ringAt (exIsles.getD 0 []) (i + 1)).pt x ≤ 0 ∧
        turn (ringAt (exIsles.getD 1 []) j).pt (ringAt (exIsles.getD 1 []) (j + 1)).pt x ≤ 0) →
      AtSea (⋃ p ∈ exIsles, Inland p) u w := by
    intro i hi j hj u w h z hz hl
    obtain ⟨p, hp, hl⟩ := Set.mem_iUnion₂.1 hl
    simp only [exIsles, List.mem_cons, List.not_mem_nil, or_false] at hp
    have h1 := h u (by simp)
    have h2 := h w (by simp)
    rcases hp with rfl | rfl
    · exact beside_sea ⟨exIsles.getD 0 [], List.mem_singleton_self _, i, hi, rfl⟩ h1.1 h2.1 z hz hl
    · exact beside_sea ⟨exIsles.getD 1 [], List.mem_singleton_self _, j, hj, rfl⟩ h1.2 h2.2 z hz hl
  refine ⟨by simp [exWestOf, Coord.pt], by simp [exEastOf, Coord.pt], ?_⟩
  simp only [List.isChain_cons_cons, List.isChain_singleton, and_true]
  refine ⟨hsea 2 (by norm_num) 2 (by norm_num) _ _ ?_, hsea 2 (by norm_num) 2 (by norm_num) _ _ ?_,
    hsea 1 (by norm_num) 2 (by norm_num) _ _ ?_, hsea 1 (by norm_num) 1 (by norm_num) _ _ ?_,
    hsea 1 (by norm_num) 1 (by norm_num) _ _ ?_⟩ <;>
    simp only [List.mem_cons, List.not_mem_nil, or_false, forall_eq_or_imp, forall_eq] <;>
    simp [turn, Coord.pt, ringAt, exIsles] <;> norm_num

/-- Non-vacuity of C75: between two places with both islands in the way a path over the sea is
returned, no longer than a course round the north. -/
example (sq : ℚ → Dbl) (hsq : SqrtOk fun q => (sq q).1) (hsq0 : ∀ x, 0 ≤ (sq x).1) (w : Dbl)
    (hw : w.1 = 1) : ∃ path, Query (doubleArith sq w none) exIslesEnv exWestOf exEastOf false (.ok path) ∧
    IsWalk (SeaLeg exIsles exIslesEnv) exWestOf exEastOf path ∧
    walkLength (legLength exIslesEnv) path ≤ (1 + 1 / 10 ^ 8) * (max 1 ((w.1 : ℚ) : ℝ) *
      walkLength lineLength [⟨-2000000, 1000000⟩, ⟨-2000000, 3000000⟩, ⟨1000000, 3000000⟩,
        ⟨5900000, 3000000⟩, ⟨9000000, 3000000⟩, ⟨9000000, 900000⟩]) := by
  have hV := exIsles_voyage
  have h0 : 0 ≤ w.1 := by rw [hw]; norm_num
  have hl := double_like sq hsq hsq0 w h0 none
  obtain ⟨⟨r, hq⟩, -⟩ := C43_outcome _ hl.sound exIslesEnv hV.made hV.ord exWestOf exEastOf false
  have hdup : exIslesEnv.graph.polygons.flatten.Nodup := by
    obtain ⟨g, f, h1, -, h2, -⟩ := C38_edges Polygon.SumTree.sequential exIsles (by decide) _
      (exScanner_ok _ _) id fun l => List.Perm.refl l
    rw [exIsles_graph] at h1
    cases h1
    rw [h2]
    decide
  obtain ⟨path, rfl, ⟨hp, -⟩ | hp⟩ := C75_path hl h0 exIsles_chart hV (by decide) hdup
    (Or.inr exIsles_orderly.1) (Or.inr exIsles_orderly.2) (by decide) exIsles_blocked _ exIsles_course
    false r hq
  · cases hp
  · exact ⟨path, hq, hp⟩

/-- Non-vacuity of `C75_graph`: two vertices are joined directly, two others only the other way
round the globe. -/
example : (generate exIsles (exScanner Polygon.SumTree.sequential exIsles) id).bind
      (fun g => do return (← g.isCrossing ⟨2000000, 300000⟩ ⟨5000000, -200000⟩,
        ← g.isCrossing ⟨0, 0⟩ ⟨5900000, 1700000⟩)) = .ok (false, true) := by decide +kernel

end Capi
