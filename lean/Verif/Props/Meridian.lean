import Verif.Lemmas.AStarRounded
import Verif.Props.Endpoint

/-!
# C82: endpoints near the meridian
-/

namespace Capi

open ShortestPath Visgraph

theorem legLength_nonneg (E : Env) (u v : Coord) : 0 ≤ legLength E u v := by
  unfold legLength
  split_ifs
  · exact le_min (planeDist_nonneg _ _ _) (planeDist_nonneg _ _ _)
  · exact planeDist_nonneg _ _ _

theorem legLength_new {E : Env} {ps : List (List Coord)} (hg : UserGraph E.graph)
    (hv : E.graph.verts = ps.flatten) {u v : Coord} (hn : u ∉ ps.flatten ∨ v ∉ ps.flatten) :
    legLength E u v = planeDist u v 0 := by
  unfold legLength
  rw [if_neg (new_not_crossing hg hv hn)]

/-- **C82** A path found by a search from a source that is not a vertex of the graph is at least as
long as the distance from the source to its nearest vertex, where the distance is the one on the map,
not across the meridian. -/
theorem C82_first {D : Type} [LinearOrder D] (A : Arith D) (hA : A.Sound)
    (E : Env) (ps : List (List Coord)) (hps : ∀ v ∈ ps.flatten, v.Geo) (hg : UserGraph E.graph)
    (hv : E.graph.verts = ps.flatten) (hr : IsReach ps E.reach) (hord : ∀ l, (E.ord l).Perm l)
    (s d : Coord) (allow : Bool) (N : Net) (c : Correction)
    (hp : prepare E s d allow = .ok (.inr (N, c))) (hsrc : c.src.Geo) (hdst : c.dst.Geo)
    (hnew : c.src ∉ ps.flatten) (hne : c.src ≠ c.dst) (K : ℝ)
    (hK : ∀ v ∈ ps.flatten, K ≤ planeDist c.src v 0)
    (path : List Coord) (h : Query A E s d allow (.ok path)) :
    K ≤ walkLength (legLength E) path := by
  obtain ⟨v, rest, rfl, h1, -⟩ := C62_first_leg A hA E ps hps hg hv hr hord s d allow N c hp hsrc
    hdst hnew hne path h
  have h2 := AStar.walkLength_nonneg (legLength_nonneg E) (v :: rest)
  rw [walkLength, legLength_new hg hv (Or.inl hnew)]
  linarith [hK v h1]

/-- **C82** The same for the destination. -/
theorem C82_last {D : Type} [LinearOrder D] (A : Arith D) (hA : A.Sound)
    (E : Env) (ps : List (List Coord)) (hps : ∀ v ∈ ps.flatten, v.Geo) (hg : UserGraph E.graph)
    (hv : E.graph.verts = ps.flatten) (hr : IsReach ps E.reach) (hord : ∀ l, (E.ord l).Perm l)
    (s d : Coord) (allow : Bool) (N : Net) (c : Correction)
    (hp : prepare E s d allow = .ok (.inr (N, c))) (hsrc : c.src.Geo) (hdst : c.dst.Geo)
    (hnew : c.dst ∉ ps.flatten) (hne : c.src ≠ c.dst) (K : ℝ)
    (hK : ∀ v ∈ ps.flatten, K ≤ planeDist v c.dst 0)
    (path : List Coord) (h : Query A E s d allow (.ok path)) :
    K ≤ walkLength (legLength E) path := by
  obtain ⟨v, rest, rfl, h1, -⟩ := C62_last_leg A hA E ps hps hg hv hr hord s d allow N c hp hsrc
    hdst hnew hne path h
  have h2 := AStar.walkLength_nonneg (legLength_nonneg E) (rest ++ [v])
  rw [walkLength_append, legLength_new hg hv (Or.inr hnew)]
  linarith [hK v h1]

/-- **C82** If both endpoints are new, the two bounds add up. -/
theorem C82_both {D : Type} [LinearOrder D] (A : Arith D) (hA : A.Sound)
    (E : Env) (ps : List (List Coord)) (hps : ∀ v ∈ ps.flatten, v.Geo) (hg : UserGraph E.graph)
    (hv : E.graph.verts = ps.flatten) (hr : IsReach ps E.reach) (hord : ∀ l, (E.ord l).Perm l)
    (s d : Coord) (allow : Bool) (N : Net) (c : Correction)
    (hp : prepare E s d allow = .ok (.inr (N, c))) (hsrc : c.src.Geo) (hdst : c.dst.Geo)
    (hnew : c.src ∉ ps.flatten) (hnew' : c.dst ∉ ps.flatten) (hne : c.src ≠ c.dst) (K K' : ℝ)
    (hK : ∀ v ∈ ps.flatten, K ≤ planeDist c.src v 0)
    (hK' : ∀ v ∈ ps.flatten, K' ≤ planeDist v c.dst 0)
    (path : List Coord) (h : Query A E s d allow (.ok path)) :
    K + K' ≤ walkLength (legLength E) path := by
  obtain ⟨v, rest, rfl, h1, -⟩ := C62_first_leg A hA E ps hps hg hv hr hord s d allow N c hp hsrc
    hdst hnew hne path h
  obtain ⟨u, init, h2, h3, -⟩ := C62_last_leg A hA E ps hps hg hv hr hord s d allow N c hp hsrc
    hdst hnew' hne _ h
  rw [walkLength, legLength_new hg hv (Or.inl hnew)]
  cases init with
  | nil =>
    simp only [List.nil_append, List.cons.injEq] at h2
    exact absurd (h2.1 ▸ h3) hnew
  | cons x t =>
    rw [List.cons_append, List.cons.injEq] at h2
    have h4 := AStar.walkLength_nonneg (legLength_nonneg E) (t ++ [u])
    rw [h2.2, walkLength_append, legLength_new hg hv (Or.inr hnew')]
    linarith [hK v h1, hK' u h3]

/-- The tip of a small island just east of the meridian. -/
def exNearTip : Coord := ⟨-179800000, 0⟩

/-- The small island, and a long coast 30° to the west of the meridian. -/
def exCoast : List (List Coord) :=
  [[⟨150000000, 30000000⟩, ⟨149000000, -30000000⟩, ⟨151000000, -30000000⟩],
    [exNearTip, ⟨-179900000, -2000000⟩, ⟨-179700000, -2000000⟩]]

/-- A ship just west of the meridian, and where it is going. -/
def exShip : Coord := ⟨179900000, -100000⟩
@[inherit_doc exShip] def exPort : Coord := ⟨-179600000, -100000⟩

/-- The generated graph.  The straight line meets the island. -/
def exCoastEnv : Env where
  graph := (generate exCoast (exScanner Polygon.SumTree.sequential exCoast) id).toOption.getD
    Graph.empty
  onLand _ := false
  closest _ := .error .exn
  project _ c := .ok c
  crossings _ := [⟨exNearTip, ⟨-179900000, -2000000⟩⟩]
  reach obs := Vistree.scanC exLook (Vistree.ofPolygons exCoast) obs
    (Vistree.vertices (Vistree.ofPolygons exCoast))
    (Vistree.segments (Vistree.ofPolygons exCoast)) false
  ord l := l

theorem exCoast_voyage : Voyage Polygon.SumTree.sequential exCoast
    (exScanner Polygon.SumTree.sequential exCoast) id exCoastEnv exShip exPort := by
  refine .direct (by decide) ?_ (exScanner_ok _ _) (fun l => List.Perm.refl l) ?_
    (fun _ => ⟨_, _, _, List.Perm.refl _, List.Perm.refl _, exLook_ok, rfl⟩)
    (fun l => List.Perm.refl l) (by decide) (by decide) ⟨rfl, rfl⟩
  · intro p hp k hk
    simp only [exCoast, List.mem_cons, List.not_mem_nil, or_false] at hp
    rcases hp with rfl | rfl <;> rcases hk with rfl | rfl | rfl <;> decide +kernel
  · obtain ⟨g, f, h1, -⟩ := C38_edges Polygon.SumTree.sequential exCoast (by decide) _
      (exScanner_ok _ _) id fun l => List.Perm.refl l
    unfold exCoastEnv
    dsimp only
    rw [h1]
    rfl

/-- The ship can reach its port by the coast and the tip of the island. -/
theorem exCoast_chain : IsWalk (SightLeg exCoast) exShip exPort
    [exShip, ⟨150000000, 30000000⟩, exNearTip, exPort] := by
  refine ⟨rfl, rfl, ?_⟩
  simp only [List.isChain_cons_cons, List.isChain_singleton, and_true]
  refine ⟨⟨by decide, seesB_sound ?_, seesB_sound ?_, by decide⟩,
    ⟨by decide, seesB_sound ?_, seesB_sound ?_, by decide⟩,
    ⟨by decide, seesB_sound ?_, seesB_sound ?_, by decide⟩⟩ <;> decide +kernel

/-- All the ship sees on its side of the map is the coast. -/
theorem exCoast_reach : ∀ vis, exCoastEnv.reach exShip = .ok vis → ∀ x ∈ vis,
    149000000 ≤ x.1.lon ∧ x.1.lon ≤ 151000000 := by
  have h : (match exCoastEnv.reach exShip with
      | .ok vis => vis.all fun x => decide (149000000 ≤ x.1.lon ∧ x.1.lon ≤ 151000000)
      | .error _ => true) = true := by decide +kernel
  intro vis hv x hx
  rw [hv] at h
  simpa using List.all_eq_true.1 h x hx

/-- **C82** (false) Crossing the meridian where that is short.  From a ship 0.3° from the tip of an
island beyond the meridian, with open water in between, and a port 0.3° behind that tip, every route
first goes 28° or more the other way. -/
theorem C82_hop_false :
    ∃ (T : ℕ → Polygon.SumTree) (ps : List (List Coord))
      (scanner : Coord → Res (List (Coord × Bool))) (order : List Coord → List Coord) (E : Env)
      (s d v : Coord), Voyage T ps scanner order E s d ∧ v ∈ ps.flatten ∧ SeesCopy ps s v 1 ∧
      SightLeg ps v d ∧ planeDist v s 1 + planeDist v d 0 < 0.6 ∧
      (∃ path, Query (exactArith 1 none) E s d false (.ok path)) ∧
      ∀ (D : Type) (_ : LinearOrder D) (A : Arith D) (_ : A.Sound) (allow : Bool)
        (path : List Coord) (_ : Query A E s d allow (.ok path)),
        28 ≤ walkLength (legLength E) path ∧ ∃ x ∈ path, 28 ≤ wrapDist s x := by
  have hV := exCoast_voyage
  refine ⟨_, _, _, _, _, _, _, exNearTip, hV, by decide, seesCopyB_sound (by decide +kernel),
    ⟨by decide, seesB_sound (by decide +kernel), seesB_sound (by decide +kernel), by decide⟩, ?_, ?_,
    ?_⟩
  · have h1 : planeDist exNearTip exShip 1 < 0.35 := by
      unfold planeDist
      rw [div_lt_iff₀ (by norm_num), Real.sqrt_lt' (by norm_num)]
      norm_num [exNearTip, exShip]
    have h2 : planeDist exNearTip exPort 0 < 0.25 := by
      unfold planeDist
      rw [div_lt_iff₀ (by norm_num), Real.sqrt_lt' (by norm_num)]
      norm_num [exNearTip, exPort]
    linarith
  · have hA := exact_sound 1 none
    obtain ⟨⟨r, hq⟩, -⟩ := C43_outcome _ hA exCoastEnv hV.made hV.ord exShip exPort false
    obtain ⟨path, rfl⟩ := C61_found _ hA (fun _ => rfl) _ _ _ _ _ _ _ hV _
      ⟨exCoast_chain.1, exCoast_chain.2.1, exCoast_chain.2.2.imp fun _ _ h => Or.inl h⟩
      (by decide) false r hq
    exact ⟨path, hq⟩
  · intro D _ A hA allow path hq
    obtain ⟨N, hN⟩ := hV.searched (by simp [exCoastEnv]) allow
    have hnew : exShip ∉ exCoastEnv.graph.polygons.flatten :=
      fun h => absurd ((hV.mem_flatten _).1 h) (by decide)
    obtain ⟨x, rest, rfl, -, ⟨vis, m, h1, h2⟩, -⟩ := C62_first_leg A hA exCoastEnv
      exCoastEnv.graph.polygons hV.geo' hV.made hV.verts hV.reach hV.ord _ _ allow N _ hN hV.src hV.dst
      hnew (by decide) path hq
    obtain ⟨hx1, hx2⟩ := exCoast_reach vis h1 _ h2
    dsimp only at hx1 hx2
    have key : ∀ (k : ℤ) (K : ℝ), 0 ≤ K →
        K * 1000000 ≤ |((exShip.lon + k * 360000001 - x.lon : ℤ) : ℝ)| → K ≤ planeDist exShip x k := by
      intro k K h0 h
      unfold planeDist
      rw [le_div_iff₀ (by norm_num)]
      refine h.trans ?_
      rw [← Real.sqrt_sq_eq_abs]
      exact Real.sqrt_le_sqrt (le_add_of_nonneg_right (sq_nonneg _))
    have e1 : (149000000 : ℝ) ≤ (x.lon : ℝ) := by exact_mod_cast hx1
    have e2 : (x.lon : ℝ) ≤ 151000000 := by exact_mod_cast hx2
    have k0 : 28.9 ≤ planeDist exShip x 0 := key 0 28.9 (by norm_num) (by
      refine le_trans ?_ (le_abs_self _)
      push_cast [exShip]
      linarith)
    have k1 : 28 ≤ planeDist exShip x 1 := key 1 28 (by norm_num) (by
      refine le_trans ?_ (le_abs_self _)
      push_cast [exShip]
      linarith)
    have k2 : 28 ≤ planeDist exShip x (-1) := key (-1) 28 (by norm_num) (by
      refine le_trans ?_ (neg_le_abs _)
      push_cast [exShip]
      linarith)
    refine ⟨?_, x, by simp, ?_⟩
    · rw [walkLength, legLength_new hV.made hV.verts (Or.inl hnew)]
      have := AStar.walkLength_nonneg (legLength_nonneg exCoastEnv) (x :: rest)
      linarith
    · exact le_min (by linarith) (le_min k1 k2)

theorem planeDist_ge_lon (a b : Coord) (K : ℤ) (h0 : 0 ≤ K) (h : K ≤ |a.lon - b.lon|) :
    (K : ℝ) / 1000000 ≤ planeDist a b 0 := by
  unfold planeDist
  refine div_le_div_of_nonneg_right ?_ (by norm_num)
  rw [zero_mul, add_zero]
  refine Real.le_sqrt_of_sq_le ?_
  have h1 : (K : ℝ) ^ 2 ≤ ((a.lon - b.lon : ℤ) : ℝ) ^ 2 := by
    rw [← sq_abs (((a.lon - b.lon : ℤ) : ℝ)), ← Int.cast_abs]
    have h2 : (K : ℝ) ≤ ((|a.lon - b.lon| : ℤ) : ℝ) := by exact_mod_cast h
    have h3 : (0 : ℝ) ≤ K := by exact_mod_cast h0
    exact pow_le_pow_left₀ h3 h2 2
  linarith [sq_nonneg (((a.lat - b.lat : ℤ) : ℝ))]

/-- Non-vacuity of C82: the ship and its port are both new. -/
example (path : List Coord)
    (hq : Query (exactArith 1 none) exCoastEnv exShip exPort false (.ok path)) :
    28.9 + 0.1 ≤ walkLength (legLength exCoastEnv) path := by
  have hV := exCoast_voyage
  obtain ⟨N, hN⟩ := hV.searched (by simp [exCoastEnv]) false
  refine C82_both _ (exact_sound 1 none) exCoastEnv exCoastEnv.graph.polygons hV.geo' hV.made hV.verts
    hV.reach hV.ord _ _ false N _ hN hV.src hV.dst
    (fun h => absurd ((hV.mem_flatten _).1 h) (by decide))
    (fun h => absurd ((hV.mem_flatten _).1 h) (by decide)) (by decide) _ _ ?_ ?_ path hq
  · intro v hv
    have h := planeDist_ge_lon exShip v 28900000 (by norm_num) (by
      rw [hV.mem_flatten] at hv
      revert v
      decide)
    norm_num at h ⊢
    exact h
  · intro v hv
    have h := planeDist_ge_lon v exPort 100000 (by norm_num) (by
      rw [hV.mem_flatten] at hv
      revert v
      decide)
    norm_num at h ⊢
    exact h

end Capi
