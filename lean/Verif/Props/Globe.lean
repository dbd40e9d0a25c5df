import Verif.Lemmas.Globe
import Verif.Props.Haversine
import Verif.Props.Meridian
import Verif.Props.EndToEnd
import Verif.Lemmas.DoubleLike

/-!
# C87: routes on the globe
-/

namespace Capi

open ShortestPath Visgraph Sphere

theorem arcLength_self (a : Coord) : arcLength a a = 0 := by
  unfold arcLength
  rw [norm_onSphere, Real.arccos_one]

theorem arcLength_nonneg (a b : Coord) : 0 ≤ arcLength a b := Real.arccos_nonneg _

/-- **C87** Whatever the way, it is on the globe at least as long as the straight line between its
ends.  In particular direct answers are the shortest of all. -/
theorem C87_direct (R : Coord → Coord → Prop) (a b : Coord) (way : List Coord)
    (h : IsWalk R a b way) : walkLength arcLength [a, b] ≤ walkLength arcLength way := by
  obtain ⟨h1, h2, -⟩ := h
  simp only [walkLength, add_zero]
  induction way generalizing a with
  | nil => simp at h1
  | cons x t ih =>
    obtain rfl : x = a := by simpa using h1
    cases t with
    | nil =>
      obtain rfl : x = b := by simpa using h2
      rw [arcLength_self]
      exact le_rfl
    | cons y r =>
      rw [walkLength]
      have := ih y rfl (by simpa using h2)
      linarith [arcLength_triangle x y b]

/-- **C87** On the globe a route is at most as long as for the search, up to a microdegree for each
of its vertices. -/
theorem C87_cost (E : Env) (route : List Coord) :
    walkLength arcLength route ≤
      (walkLength (legLength E) route + route.length / 1000000) * (Real.pi / 180) := by
  induction route with
  | nil => simp [walkLength]
  | cons x t ih =>
    cases t with
    | nil => simp only [walkLength]; positivity
    | cons y r =>
      rw [walkLength, walkLength]
      have h := C86_leg E x y
      simp only [List.length_cons] at ih ⊢
      push_cast at ih ⊢
      have hpi : (0 : ℝ) < Real.pi / 180 := by positivity
      calc _ ≤ (legLength E x y + 1 / 1000000) * (Real.pi / 180) + _ := add_le_add h ih
        _ = _ := by ring

/-- On the globe a route that does not leave a band around the equator is at least a part as long as
for the search. -/
theorem route_band (E : Env) (φ : ℤ) (hφ : φ ≤ 90000000) (route : List Coord)
    (hgeo : ∀ v ∈ route, v.Geo) (hlat : ∀ v ∈ route, |v.lat| ≤ φ)
    (hshort : route.IsChain fun u v => legLength E u v = wrapDist u v) :
    Real.cos (rad φ) * walkLength (legLength E) route ≤
      90 * walkLength arcLength route + route.length / 1000000 := by
  induction route with
  | nil => simp [walkLength]
  | cons x t ih =>
    cases t with
    | nil => simp [walkLength]
    | cons y r =>
      rw [List.isChain_cons_cons] at hshort
      rw [walkLength, walkLength]
      have h := arcLength_wrap (hgeo x (by simp)) (hgeo y (by simp)) hφ (hlat x (by simp))
        (hlat y (by simp))
      have h' := ih (fun v hv => hgeo v (List.mem_cons_of_mem _ hv))
        (fun v hv => hlat v (List.mem_cons_of_mem _ hv)) hshort.2
      rw [hshort.1]
      have hc := Real.cos_le_one (rad φ)
      simp only [List.length_cons] at h' ⊢
      push_cast at h' ⊢
      rw [mul_add, mul_add]
      nlinarith

/-- **C87** A path found by a search is on the globe at most `π / (2 cos φ)` times as long as every
route that does not leave the latitudes up to `φ` and whose legs take the short way round the globe,
up to the weighting and rounding. -/
theorem C87_bounded {A : Arith Dbl} {w : Dbl} {limit : Option Dbl} (hA : A.DoubleLike w limit)
    (hw : 0 ≤ w.1) (E : Env) (hg : UserGraph E.graph) (hord : ∀ l, (E.ord l).Perm l)
    (s d : Coord) (allow : Bool) (N : Net) (c : Correction)
    (hp : prepare E s d allow = .ok (.inr (N, c))) (hr : InRange E c) (path : List Coord)
    (h : Query A E s d allow (.ok path))
    (places : Finset Coord) (hsrc : c.src ∈ places)
    (hplaces : ∀ u ∈ places, ∀ v, RouteEdge E c u v → v ∈ places) (hcard : places.card ≤ 500000)
    (route : List Coord) (hroute : IsWalk (RouteEdge E c) c.src c.dst route)
    (hfar : ∀ v ∈ route.tail, exceeds limit (heuristic A c.src v) = false)
    (φ : ℤ) (hφ : φ ≤ 90000000) (hgeo : ∀ v ∈ route, v.Geo) (hlat : ∀ v ∈ route, |v.lat| ≤ φ)
    (hshort : route.IsChain fun u v => legLength E u v = wrapDist u v) :
    Real.cos (rad φ) * walkLength arcLength path ≤
      (1 + 1 / 10 ^ 8) * (max 1 ((w.1 : ℚ) : ℝ) * (Real.pi / 2 * walkLength arcLength route)) +
        (2 * max 1 ((w.1 : ℚ) : ℝ) * route.length + path.length) / 10 ^ 6 * (Real.pi / 180) := by
  have h1 := bounded_of hA hw E hg hord s d allow N c hp hr path h places hsrc hplaces hcard route
    hroute hfar
  have hne : c.src ∈ route := List.mem_of_head? hroute.1
  have c0 : 0 ≤ Real.cos (rad φ) := by
    have h0 : (0 : ℤ) ≤ φ := (abs_nonneg _).trans (hlat _ hne)
    have hpi := Real.pi_pos
    apply Real.cos_nonneg_of_neg_pi_div_two_le_of_le
    · have := rad_le h0; rw [rad_0] at this; linarith
    · have := rad_le hφ; rwa [rad_90] at this
  have h2 := C87_cost E path
  have h3 := route_band E φ hφ route hgeo hlat hshort
  have c1 := Real.cos_le_one (rad φ)
  set C := Real.cos (rad φ)
  set m : ℝ := max 1 ((w.1 : ℚ) : ℝ)
  have hm : 1 ≤ m := le_max_left _ _
  have hpi : (0 : ℝ) < Real.pi / 180 := by positivity
  set P := walkLength (legLength E) path
  set R := walkLength (legLength E) route
  set r := walkLength arcLength route
  have hpl : (0 : ℝ) ≤ (path.length : ℝ) / 1000000 := by positivity
  have hrl : (0 : ℝ) ≤ (route.length : ℝ) / 1000000 := by positivity
  have k1 : C * P ≤ (1 + 1 / 10 ^ 8) * (m * (90 * r + route.length / 1000000)) := by
    calc C * P ≤ C * ((1 + 1 / 10 ^ 8) * (m * R)) := by gcongr
      _ = (1 + 1 / 10 ^ 8) * (m * (C * R)) := by ring
      _ ≤ _ := by gcongr
  have k2 : (1 + 1 / 10 ^ 8) * (m * (route.length / 1000000)) ≤ 2 * (m * (route.length / 1000000)) := by
    have : 0 ≤ m * ((route.length : ℝ) / 1000000) := by positivity
    linarith
  calc C * walkLength arcLength path ≤ C * ((P + path.length / 1000000) * (Real.pi / 180)) := by gcongr
    _ = (C * P + C * (path.length / 1000000)) * (Real.pi / 180) := by ring
    _ ≤ ((1 + 1 / 10 ^ 8) * (m * (90 * r + route.length / 1000000)) + 1 * (path.length / 1000000)) *
        (Real.pi / 180) := by gcongr
    _ ≤ ((1 + 1 / 10 ^ 8) * (m * (90 * r)) + 2 * (m * (route.length / 1000000)) +
        1 * (path.length / 1000000)) * (Real.pi / 180) := by
      gcongr
      nlinarith
    _ = _ := by ring

theorem wrapDist_near {a b : Coord} (h : |a.lon - b.lon| ≤ 180000000) :
    wrapDist a b = planeDist a b 0 := by
  rw [abs_le] at h
  have key : ∀ k : ℤ, k = 1 ∨ k = -1 → planeDist a b 0 ≤ planeDist a b k := by
    intro k hk
    unfold planeDist
    refine div_le_div_of_nonneg_right (Real.sqrt_le_sqrt (add_le_add ?_ le_rfl)) (by norm_num)
    have : (a.lon + 0 * 360000001 - b.lon) ^ 2 ≤ (a.lon + k * 360000001 - b.lon) ^ 2 := by
      rw [sq_le_sq, abs_le']
      rcases hk with rfl | rfl
      · rw [abs_of_nonneg (a := a.lon + 1 * 360000001 - b.lon) (by omega)]; omega
      · rw [abs_of_nonpos (a := a.lon + -1 * 360000001 - b.lon) (by omega)]; omega
    exact_mod_cast this
  unfold wrapDist
  exact min_eq_left (le_min (key 1 (Or.inl rfl)) (key (-1) (Or.inr rfl)))

/-- **C87** From obstacles to the globe: the path returned is on the globe at most `π / (2 cos φ)`
times as long as every chain of sight lines through obstacle vertices that does not leave the
latitudes up to `φ` and whose legs span at most 180 degrees, up to the weighting and rounding. -/
theorem C87_chain {A : Arith Dbl} {w : Dbl} (hA : A.DoubleLike w none) (h0 : 0 ≤ w.1)
    (T : ℕ → Polygon.SumTree) (ps : List (List Coord))
    (scanner : Coord → Res (List (Coord × Bool))) (order : List Coord → List Coord) (E : Env)
    (s d : Coord) (h : Voyage T ps scanner order E s d) (hsize : ps.flatten.length ≤ 499998)
    (chain : List Coord) (hw : IsWalk (SightLeg ps) s d chain)
    (hin : ∀ v ∈ chain, v = s ∨ v = d ∨ v ∈ ps.flatten)
    (φ : ℤ) (hφ : φ ≤ 90000000) (hlat : ∀ v ∈ chain, |v.lat| ≤ φ)
    (hspan : chain.IsChain fun u v => |u.lon - v.lon| ≤ 180000000) (allow : Bool)
    (r : Res (List Coord)) (hq : Query A E s d allow r) :
    ∃ path, r = .ok path ∧ Real.cos (rad φ) * walkLength arcLength path ≤
      (1 + 1 / 10 ^ 8) * (max 1 ((w.1 : ℚ) : ℝ) * (Real.pi / 2 * walkLength arcLength chain)) +
        (2 * max 1 ((w.1 : ℚ) : ℝ) * chain.length + path.length) / 10 ^ 6 * (Real.pi / 180) := by
  obtain ⟨path, rfl⟩ := C61_found _ hA.sound (fun d => by rw [hA.over]; rfl) T ps scanner order
    E s d h chain ⟨hw.1, hw.2.1, hw.2.2.imp fun _ _ h => Or.inl h⟩ hin allow r hq
  refine ⟨path, rfl, ?_⟩
  have hgeo : ∀ v ∈ chain, v.Geo := by
    intro v hv
    rcases hin v hv with rfl | rfl | h1
    · exact h.src
    · exact h.dst
    · exact h.geo v h1
  have hn : 0 ≤ walkLength arcLength chain := AStar.walkLength_nonneg arcLength_nonneg chain
  rcases h.prepared allow with hp | ⟨N, hp⟩
  · unfold Query at hq
    rw [hp] at hq
    obtain rfl := Except.ok.inj hq
    have h1 := C87_direct _ s d chain hw
    have hm : (1 : ℝ) ≤ max 1 ((w.1 : ℚ) : ℝ) := le_max_left _ _
    have hc := Real.cos_le_one (rad φ)
    have hpi := Real.pi_gt_three
    have hd : 0 ≤ walkLength arcLength [s, d] := AStar.walkLength_nonneg arcLength_nonneg _
    have e1 : (0 : ℝ) ≤ (2 * max 1 ((w.1 : ℚ) : ℝ) * chain.length + ([s, d] : List Coord).length) /
        10 ^ 6 * (Real.pi / 180) := by positivity
    calc _ ≤ 1 * walkLength arcLength [s, d] := by gcongr
      _ ≤ 1 * (1 * (1 * walkLength arcLength chain)) := by linarith
      _ ≤ (1 + 1 / 10 ^ 8) * (max 1 ((w.1 : ℚ) : ℝ) * (Real.pi / 2 * walkLength arcLength chain)) := by
        gcongr
        · norm_num
        · linarith
      _ ≤ _ := le_add_of_nonneg_right e1
  · obtain ⟨h1, -⟩ := h.route hw hin
    classical
    refine C87_bounded hA h0 E h.made h.ord s d allow N _ hp h.ready.2 path hq
      ({s, d} ∪ ps.flatten.toFinset) (by simp) ?_ ?_ chain h1 (fun _ _ => rfl) φ hφ hgeo hlat ?_
    · intro u _ v he
      simp only [Finset.mem_union, Finset.mem_insert, Finset.mem_singleton, List.mem_toFinset]
      have := h.target he
      tauto
    · have a1 := Finset.card_union_le {s, d} ps.flatten.toFinset
      have a2 := List.toFinset_card_le ps.flatten
      have a3 : ({s, d} : Finset Coord).card ≤ 2 := Finset.card_le_two
      omega
    · have key : ∀ l : List Coord, (∀ v ∈ l, v = s ∨ v = d ∨ v ∈ ps.flatten) →
          l.IsChain (SightLeg ps) → (l.IsChain fun u v => |u.lon - v.lon| ≤ 180000000) →
          l.IsChain fun u v => legLength E u v = wrapDist u v := by
        intro l
        induction l with
        | nil => intros; exact List.IsChain.nil
        | cons a t ih =>
          cases t with
          | nil => intros; exact List.IsChain.singleton _
          | cons b t =>
            intro g1 g2 g3
            rw [List.isChain_cons_cons] at g2 g3 ⊢
            refine ⟨?_, ih (fun v hv => g1 v (List.mem_cons_of_mem _ hv)) g2.2 g3.2⟩
            rw [wrapDist_near g3.1]
            exact (h.leg g2.1 (g1 a (by simp)) (g1 b (by simp))).2
      exact key chain hin hw.2.2 hspan

/-! ### A hook at the pole -/

/-- An island like a hook: a pier along the pole, from 170 degrees west to 1 degree east, and a wall
from its end down to the 29th parallel. -/
def exHook : List (List Coord) :=
  [[⟨-170000000, 90000000⟩, ⟨-170000000, 89999998⟩, ⟨0, 89999998⟩, ⟨0, 29000000⟩,
    ⟨1000000, 29000000⟩, ⟨1000000, 90000000⟩]]

/-- Two places at most half a metre from the pole. -/
def exHookFrom : Coord := ⟨-60000000, 89999996⟩
@[inherit_doc exHookFrom] def exHookTo : Coord := ⟨60000000, 89999998⟩

/-- The generated graph.  The straight line meets the island. -/
def exHookEnv : Env where
  graph := (generate exHook (exScanner Polygon.SumTree.sequential exHook) id).toOption.getD
    Graph.empty
  onLand _ := false
  closest _ := .error .exn
  project _ c := .ok c
  crossings _ := [⟨⟨0, 89999998⟩, ⟨0, 29000000⟩⟩]
  reach obs := Vistree.scanC exLook (Vistree.ofPolygons exHook) obs
    (Vistree.vertices (Vistree.ofPolygons exHook))
    (Vistree.segments (Vistree.ofPolygons exHook)) false
  ord l := l

theorem exHook_graph : generate exHook (exScanner Polygon.SumTree.sequential exHook) id =
    .ok exHookEnv.graph := by
  obtain ⟨g, f, h1, -⟩ := C38_edges Polygon.SumTree.sequential exHook (by decide) _
    (exScanner_ok _ _) id fun l => List.Perm.refl l
  unfold exHookEnv
  dsimp only
  rw [h1]
  rfl

theorem exHook_any {s d : Coord} (hs : s.Geo) (hd : d.Geo) : Voyage Polygon.SumTree.sequential exHook
    (exScanner Polygon.SumTree.sequential exHook) id exHookEnv s d := by
  refine .direct (by decide) ?_ (exScanner_ok _ _) (fun l => List.Perm.refl l) exHook_graph
    (fun _ => ⟨_, _, _, List.Perm.refl _, List.Perm.refl _, exLook_ok, rfl⟩)
    (fun l => List.Perm.refl l) hs hd ⟨rfl, rfl⟩
  intro p hp k hk
  simp only [exHook, List.mem_cons, List.not_mem_nil, or_false] at hp
  rcases hp with rfl
  rcases hk with rfl | rfl | rfl <;> decide +kernel

theorem exHook_voyage : Voyage Polygon.SumTree.sequential exHook
    (exScanner Polygon.SumTree.sequential exHook) id exHookEnv exHookFrom exHookTo :=
  exHook_any (by decide) (by decide)

/-- The way round the wall. -/
theorem exHook_south : IsWalk (SightLeg exHook) exHookFrom exHookTo
    [exHookFrom, ⟨0, 29000000⟩, ⟨1000000, 29000000⟩, exHookTo] := by
  refine ⟨rfl, rfl, ?_⟩
  simp only [List.isChain_cons_cons, List.isChain_singleton, and_true]
  refine ⟨⟨by decide, seesB_sound ?_, seesB_sound ?_, by decide⟩,
    ⟨by decide, seesB_sound ?_, seesB_sound ?_, by decide⟩,
    ⟨by decide, seesB_sound ?_, seesB_sound ?_, by decide⟩⟩ <;> decide +kernel

/-- The way round the pier. -/
theorem exHook_north : IsWalk (SightLeg exHook) exHookFrom exHookTo
    [exHookFrom, ⟨-170000000, 89999998⟩, ⟨-170000000, 90000000⟩, ⟨1000000, 90000000⟩, exHookTo] := by
  refine ⟨rfl, rfl, ?_⟩
  simp only [List.isChain_cons_cons, List.isChain_singleton, and_true]
  refine ⟨⟨by decide, seesB_sound ?_, seesB_sound ?_, by decide⟩,
    ⟨by decide, seesB_sound ?_, seesB_sound ?_, by decide⟩,
    ⟨by decide, seesB_sound ?_, seesB_sound ?_, by decide⟩,
    ⟨by decide, seesB_sound ?_, seesB_sound ?_, by decide⟩⟩ <;> decide +kernel

/-- What the start and the inner corner are joined to. -/
theorem exHook_reach : ∀ vis, exHookEnv.reach exHookFrom = .ok vis → ∀ x ∈ vis,
    x.1 = ⟨0, 89999998⟩ ∨ x.1 = ⟨-170000000, 89999998⟩ ∨ x.1 = ⟨0, 29000000⟩ := by
  have h : (match exHookEnv.reach exHookFrom with
      | .ok vis => vis.all fun x => decide (x.1 = ⟨0, 89999998⟩ ∨ x.1 = ⟨-170000000, 89999998⟩ ∨
          x.1 = ⟨0, 29000000⟩)
      | .error _ => true) = true := by decide +kernel
  intro vis hv x hx
  rw [hv] at h
  simpa using List.all_eq_true.1 h x hx

@[inherit_doc exHook_reach]
theorem exHook_reach' : ∀ vis, exHookEnv.reach exHookTo = .ok vis → ∀ x ∈ vis, x.1.lon = 1000000 := by
  have h : (match exHookEnv.reach exHookTo with
      | .ok vis => vis.all fun x => decide (x.1.lon = 1000000)
      | .error _ => true) = true := by decide +kernel
  intro vis hv x hx
  rw [hv] at h
  simpa using List.all_eq_true.1 h x hx

@[inherit_doc exHook_reach]
theorem exHook_inner : ∀ v ∈ exHook.flatten, exHookEnv.graph.hasEdge ⟨0, 89999998⟩ v = .ok true →
    v = ⟨-170000000, 89999998⟩ ∨ v.lat = 29000000 := by
  decide +kernel

/-- Routes that do not go south are long for the search. -/
theorem exHook_long : ∀ (t : List Coord) (x : Coord), x = exHookFrom ∨ x = ⟨0, 89999998⟩ →
    (x :: t).IsChain (RouteEdge exHookEnv ⟨exHookFrom, exHookTo, none, none⟩) →
    (x :: t).getLast? = some exHookTo → (∀ v ∈ t, v.lat ≠ 29000000) →
    240 ≤ walkLength (legLength exHookEnv) (x :: t) := by
  have hV := exHook_voyage
  have hwrap : ∀ u v, wrapDist u v ≤ legLength exHookEnv u v := by
    intro u v
    unfold legLength wrapDist
    split
    · exact min_le_right _ _
    · exact min_le_left _ _
  have hto : (130 : ℝ) ≤ wrapDist ⟨-170000000, 89999998⟩ exHookTo := by
    unfold wrapDist
    refine le_min ?_ (le_min ?_ ?_) <;>
    · unfold planeDist
      rw [le_div_iff₀ (by norm_num)]
      apply Real.le_sqrt_of_sq_le
      norm_num [exHookTo]
  have hout : ∀ x : Coord, x = exHookFrom ∨ x = ⟨0, 89999998⟩ →
      110 ≤ wrapDist x ⟨-170000000, 89999998⟩ := by
    rintro x (rfl | rfl) <;>
    · unfold wrapDist
      refine le_min ?_ (le_min ?_ ?_) <;>
      · unfold planeDist
        rw [le_div_iff₀ (by norm_num)]
        apply Real.le_sqrt_of_sq_le
        norm_num [exHookFrom]
  intro t
  induction t with
  | nil =>
    intro x hx _ hl _
    exfalso
    have : x = exHookTo := by simpa using hl
    subst this
    revert hx
    decide
  | cons y r ih =>
    intro x hx hc hl hs
    rw [List.isChain_cons_cons] at hc
    have hl' : (y :: r).getLast? = some exHookTo := by simpa using hl
    have hs' : ∀ v ∈ r, v.lat ≠ 29000000 := fun v hv => hs v (List.mem_cons_of_mem _ hv)
    have done : y = ⟨-170000000, 89999998⟩ → 240 ≤ walkLength (legLength exHookEnv) (x :: y :: r) := by
      rintro rfl
      rw [walkLength]
      have h1 := (C52_admissible 1 none exHookEnv hV.made ⟨exHookFrom, exHookTo, none, none⟩ hV.ready.2
        ⟨-170000000, 89999998⟩ _ ⟨rfl, hl', hc.2⟩).2.2
      have h2 := hout x hx
      have h3 := hwrap x ⟨-170000000, 89999998⟩
      dsimp only at h1
      linarith
    have onward : y = exHookFrom ∨ y = ⟨0, 89999998⟩ →
        240 ≤ walkLength (legLength exHookEnv) (x :: y :: r) := by
      intro hy
      rw [walkLength]
      have := ih y hy hc.2 hl' hs'
      linarith [legLength_nonneg exHookEnv x y]
    have hy := hs y (by simp)
    rcases hc.1 with he | ⟨h1, h2⟩ | ⟨h1, h2⟩ | ⟨h1, h2⟩ | ⟨h1, h2⟩
    · rcases hx with rfl | rfl
      · have := (hV.mem_verts _).1 (hasEdge_verts hV.made.regular.built.shape he).2.1
        exact absurd this (by decide)
      · have hm := (hV.mem_verts _).1 (hasEdge_verts hV.made.regular.built.shape he).2.2
        rcases exHook_inner y hm he with h | h
        · exact done h
        · exact absurd h hy
    · obtain ⟨-, -, ⟨vis, m, h3, h4⟩, -⟩ := h2
      rcases exHook_reach vis h3 _ h4 with h | h | h
      · exact onward (Or.inr h)
      · exact done h
      · exact absurd (congrArg Coord.lat h) hy
    · exact onward (Or.inl h1)
    · dsimp only at h1
      subst h1
      exact absurd hx (by decide)
    · obtain ⟨-, -, ⟨vis, m, h3, h4⟩, -⟩ := h2
      have : x.lon = 1000000 := exHook_reach' vis h3 _ h4
      rcases hx with rfl | rfl <;> exact absurd this (by decide)

theorem arcLength_comm (a b : Coord) : arcLength a b = arcLength b a := by
  unfold arcLength
  congr 1
  ring

/-- Near the pole distances are at most those by way of the pole. -/
theorem arcLength_cap {a b : Coord} (ha : a.lat ≤ 90000000) (hb : b.lat ≤ 90000000) :
    arcLength a b ≤ ((180000000 - a.lat - b.lat : ℤ) : ℝ) / 1000000 * (Real.pi / 180) := by
  have h0 : arcLength ⟨a.lon, 90000000⟩ ⟨b.lon, 90000000⟩ = 0 := by
    unfold arcLength onSphere
    dsimp only
    rw [rad_90, Real.cos_pi_div_two, Real.sin_pi_div_two]
    simp
  have key : ∀ c : Coord, c.lat ≤ 90000000 → arcLength ⟨c.lon, 90000000⟩ c ≤
      ((90000000 - c.lat : ℤ) : ℝ) / 1000000 * (Real.pi / 180) := by
    intro c hc
    refine (C86_plane _ _).trans (le_of_eq ?_)
    unfold planeDist
    dsimp only
    have h1 : (0 : ℝ) ≤ ((90000000 - c.lat : ℤ) : ℝ) := by exact_mod_cast (by omega : 0 ≤ 90000000 - c.lat)
    rw [zero_mul, add_zero, sub_self, Int.cast_zero, zero_pow two_ne_zero, zero_add, Real.sqrt_sq h1]
  have h1 := key a ha
  have h2 := key b hb
  have t1 := arcLength_triangle a ⟨a.lon, 90000000⟩ b
  have t2 := arcLength_triangle ⟨a.lon, 90000000⟩ ⟨b.lon, 90000000⟩ b
  rw [arcLength_comm a ⟨a.lon, 90000000⟩] at t1
  have e : ((180000000 - a.lat - b.lat : ℤ) : ℝ) = ((90000000 - a.lat : ℤ) : ℝ) +
      ((90000000 - b.lat : ℤ) : ℝ) := by push_cast; ring
  rw [e, add_div, add_mul]
  linarith

/-- The way round the pier is less than two ten-millionths of a radian, or one and a half metres. -/
theorem exHook_short : walkLength arcLength [exHookFrom, ⟨-170000000, 89999998⟩,
    ⟨-170000000, 90000000⟩, ⟨1000000, 90000000⟩, exHookTo] ≤ 1 / 5000000 := by
  simp only [walkLength, add_zero]
  have hpi := Real.pi_lt_d2
  have h1 := arcLength_cap (a := exHookFrom) (b := ⟨-170000000, 89999998⟩) (by decide) (by decide)
  have h2 := arcLength_cap (a := ⟨-170000000, 89999998⟩) (b := ⟨-170000000, 90000000⟩) (by decide)
    (by decide)
  have h3 := arcLength_cap (a := ⟨-170000000, 90000000⟩) (b := ⟨1000000, 90000000⟩) (by decide)
    (by decide)
  have h4 := arcLength_cap (a := ⟨1000000, 90000000⟩) (b := exHookTo) (by decide) (by decide)
  norm_num [exHookFrom, exHookTo] at h1 h2 h3 h4 ⊢
  linarith

theorem arcLength_part (l : List Coord) (x v : Coord) (hv : v ∈ x :: l) :
    arcLength x v ≤ walkLength arcLength (x :: l) := by
  induction l generalizing x with
  | nil =>
    obtain rfl : v = x := by simpa using hv
    rw [arcLength_self]
    exact le_rfl
  | cons y r ih =>
    rw [walkLength]
    rcases List.mem_cons.1 hv with rfl | hv
    · rw [arcLength_self]
      have := AStar.walkLength_nonneg arcLength_nonneg (y :: r)
      linarith [arcLength_nonneg v y]
    · linarith [ih y hv, arcLength_triangle x y v]

/-- The 29th parallel is more than a radian away. -/
theorem exHook_far {v : Coord} (hg : v.Geo) (h : v.lat = 29000000) : 1 ≤ arcLength exHookFrom v := by
  refine le_trans ?_ (arcLength_ge (by decide) hg)
  have h1 : 1 / 2 ≤ √(hav exHookFrom v) := by
    apply Real.le_sqrt_of_sq_le
    have hpos : 0 ≤ Real.sin ((rad v.lon - rad exHookFrom.lon) / 2) ^ 2 *
        Real.cos (rad exHookFrom.lat) * Real.cos (rad v.lat) :=
      mul_nonneg (mul_nonneg (sq_nonneg _) (cos_lat_nonneg (by decide))) (cos_lat_nonneg hg)
    unfold hav
    refine le_trans ?_ (le_add_of_nonneg_right hpos)
    rw [h]
    have hpi := Real.pi_pos
    have e : (rad 29000000 - rad exHookFrom.lat) / 2 = -((30.499998 : ℝ) / 180 * Real.pi) := by
      unfold rad exHookFrom
      push_cast
      ring
    rw [e, Real.sin_neg, neg_sq]
    have h2 : Real.sin (Real.pi / 6) ≤ Real.sin ((30.499998 : ℝ) / 180 * Real.pi) :=
      Real.sin_le_sin_of_le_of_le_pi_div_two (by linarith) (by linarith) (by linarith)
    rw [Real.sin_pi_div_six] at h2
    exact pow_le_pow_left₀ (by norm_num) h2 2
  linarith

/-- **C87** (false) What is shortest for the search is shortest on the globe, up to some factor.  For
some map every path returned is more than five million times as long as another route: a way round
the pole of a metre is avoided by one of some ten thousand kilometres. -/
theorem C87_globe_false {A : Arith Dbl} {w : Dbl} (hA : A.DoubleLike w none) (h0 : 0 ≤ w.1)
    (h1 : w.1 ≤ 1) :
    ∃ (T : ℕ → Polygon.SumTree) (ps : List (List Coord))
      (scanner : Coord → Res (List (Coord × Bool))) (order : List Coord → List Coord) (E : Env)
      (s d : Coord) (route : List Coord), Voyage T ps scanner order E s d ∧
      IsWalk (SightLeg ps) s d route ∧ IsWalk (RouteEdge E ⟨s, d, none, none⟩) s d route ∧
      (∀ allow, ∃ path, Query A E s d allow (.ok path)) ∧
      ∀ (allow : Bool) (path : List Coord), Query A E s d allow (.ok path) →
        5000000 * walkLength arcLength route ≤ walkLength arcLength path := by
  have hV := exHook_voyage
  refine ⟨_, _, _, _, _, _, _, _, hV, exHook_north, (hV.route exHook_north (by decide)).1, ?_, ?_⟩
  · intro allow
    obtain ⟨⟨r, hq⟩, -⟩ := C43_outcome _ hA.sound exHookEnv hV.made hV.ord exHookFrom exHookTo allow
    obtain ⟨path, rfl, -⟩ := voyage_length hA _ _ _ _ _ _ _ hV (by decide) _ exHook_south (by decide) h0
      allow r hq
    exact ⟨path, hq⟩
  · intro allow path hq
    obtain ⟨path', e, h2⟩ := voyage_length' hA _ _ _ _ _ _ _ hV (by decide) _ exHook_south (by decide)
      h0 allow _ hq
    cases e
    rcases h2 with ⟨h2, -⟩ | h2
    · cases h2
    have hm : max 1 ((w.1 : ℚ) : ℝ) = 1 := max_eq_left (by exact_mod_cast h1)
    rw [hm, one_mul] at h2
    have a1 : planeDist exHookFrom ⟨0, 29000000⟩ 0 ≤ 86 := by
      unfold planeDist
      rw [div_le_iff₀ (by norm_num), Real.sqrt_le_left (by norm_num)]
      norm_num [exHookFrom]
    have a2 : planeDist ⟨0, 29000000⟩ ⟨1000000, 29000000⟩ 0 ≤ 1 := by
      unfold planeDist
      rw [div_le_iff₀ (by norm_num), Real.sqrt_le_left (by norm_num)]
      norm_num
    have a3 : planeDist ⟨1000000, 29000000⟩ exHookTo 0 ≤ 86 := by
      unfold planeDist
      rw [div_le_iff₀ (by norm_num), Real.sqrt_le_left (by norm_num)]
      norm_num [exHookTo]
    simp only [walkLength, add_zero] at h2
    have hcost : walkLength (legLength exHookEnv) path < 240 := by
      refine h2.trans_lt ?_
      have : planeDist exHookFrom ⟨0, 29000000⟩ 0 + (planeDist ⟨0, 29000000⟩ ⟨1000000, 29000000⟩ 0 +
        planeDist ⟨1000000, 29000000⟩ exHookTo 0) ≤ 173 := by linarith
      linarith
    obtain ⟨N, hN⟩ := hV.searched (by simp [exHookEnv]) allow
    have hwalk : IsWalk (RouteEdge exHookEnv ⟨exHookFrom, exHookTo, none, none⟩) exHookFrom exHookTo
        path := by
      obtain ⟨ns, nd, c, g1, g2, g3, g4⟩ := C42_paths A hA.sound exHookEnv hV.made hV.ord _ _ allow path hq
      rw [C01_normalize_id _ hV.src.1 hV.src.2.1] at g1
      rw [C01_normalize_id _ hV.dst.1 hV.dst.2.1] at g2
      cases g1
      cases g2
      have hc : correct exHookEnv exHookFrom exHookTo allow = .ok ⟨exHookFrom, exHookTo, none, none⟩ := by
        unfold correct correctOne
        rw [hV.atSea.1, hV.atSea.2]
        simp only [Bool.or_self, Bool.and_false, Bool.false_eq_true, if_false]
        rfl
      rw [hc] at g3
      cases g3
      rcases g4 with ⟨g4, -⟩ | ⟨-, g4⟩
      · exact absurd g4 (by simp [blocking, notEdge, exHookEnv])
      · exact g4
    have hlast := hwalk.2.1
    obtain ⟨t, rfl, -, g2⟩ := isWalk_cons.1 hwalk
    by_cases hs : ∀ v ∈ t, v.lat ≠ 29000000
    · have := exHook_long t exHookFrom (Or.inl rfl) g2 hlast hs
      linarith
    · push Not at hs
      obtain ⟨v, hv, hl⟩ := hs
      have hg : v.Geo := by
        have hin : ∀ (l : List Coord) (x : Coord), (x :: l).IsChain
            (RouteEdge exHookEnv ⟨exHookFrom, exHookTo, none, none⟩) → ∀ v ∈ l, v.Geo := by
          intro l
          induction l with
          | nil => intro x _ v hv; simp at hv
          | cons y r ih =>
            intro x hc v hv
            rw [List.isChain_cons_cons] at hc
            rcases List.mem_cons.1 hv with rfl | hv
            · rcases hV.target hc.1 with rfl | rfl | h
              · exact hV.src
              · exact hV.dst
              · exact hV.geo _ h
            · exact ih y hc.2 v hv
        exact hin t _ g2 v hv
      have k1 := exHook_far hg hl
      have k2 := arcLength_part t exHookFrom v (List.mem_cons_of_mem _ hv)
      have k3 := exHook_short
      linarith

/-- The arithmetic of the code with weighting 1 is as assumed. -/
theorem exists_double_like : ∃ (A : Arith Dbl) (w : Dbl), A.DoubleLike w none ∧ w.1 = 1 := by
  obtain ⟨sq, q1, q2⟩ := exists_sqrt_dbl
  have h1 : (Dbl.round 1).1 = 1 := by
    have : fl 1 = 1 := by
      have := fl_int 1 (by norm_num)
      rwa [Int.cast_one] at this
    exact this
  exact ⟨_, _, double_like sq q1 q2 (Dbl.round 1) (by rw [h1]; norm_num) none, h1⟩

/-- The hook with weighting 1. -/
example : ∃ (A : Arith Dbl) (E : Env) (s d : Coord) (route path : List Coord),
    IsWalk (RouteEdge E ⟨s, d, none, none⟩) s d route ∧ Query A E s d false (.ok path) ∧
      5000000 * walkLength arcLength route ≤ walkLength arcLength path := by
  obtain ⟨A, w, hA, hw⟩ := exists_double_like
  obtain ⟨-, -, -, -, E, s, d, route, -, -, h1, h2, h3⟩ := C87_globe_false hA (by rw [hw]; norm_num)
    (by rw [hw])
  obtain ⟨path, h4⟩ := h2 false
  exact ⟨A, E, s, d, route, path, h1, h4, h3 false path h4⟩

/-- The way round the wall of the hook at latitudes up to 40 degrees. -/
theorem exHook_band : IsWalk (SightLeg exHook) ⟨-10000000, 40000000⟩ ⟨10000000, 40000000⟩
    [⟨-10000000, 40000000⟩, ⟨0, 29000000⟩, ⟨1000000, 29000000⟩, ⟨10000000, 40000000⟩] := by
  refine ⟨rfl, rfl, ?_⟩
  simp only [List.isChain_cons_cons, List.isChain_singleton, and_true]
  refine ⟨⟨by decide, seesB_sound ?_, seesB_sound ?_, by decide⟩,
    ⟨by decide, seesB_sound ?_, seesB_sound ?_, by decide⟩,
    ⟨by decide, seesB_sound ?_, seesB_sound ?_, by decide⟩⟩ <;> decide +kernel

/-- Non-vacuity of `C87_chain`: between two places on the 40th parallel on either side of the wall
there is a path, and every path is compared with the way round the wall. -/
example : ∃ (A : Arith Dbl) (r : Res (List Coord)),
    Query A exHookEnv ⟨-10000000, 40000000⟩ ⟨10000000, 40000000⟩ false r ∧
    ∃ path, r = .ok path ∧ Real.cos (rad 40000000) * walkLength arcLength path ≤
      (1 + 1 / 10 ^ 8) * (Real.pi / 2 * walkLength arcLength
        [⟨-10000000, 40000000⟩, ⟨0, 29000000⟩, ⟨1000000, 29000000⟩, ⟨10000000, 40000000⟩]) +
        (8 + path.length) / 10 ^ 6 * (Real.pi / 180) := by
  obtain ⟨A, w, hA, hw⟩ := exists_double_like
  have hV : Voyage _ _ _ _ exHookEnv ⟨-10000000, 40000000⟩ ⟨10000000, 40000000⟩ :=
    exHook_any (by decide) (by decide)
  obtain ⟨⟨r, hq⟩, -⟩ := C43_outcome _ hA.sound exHookEnv hV.made hV.ord ⟨-10000000, 40000000⟩
    ⟨10000000, 40000000⟩ false
  obtain ⟨path, h1, h2⟩ := C87_chain hA (by rw [hw]; norm_num) _ _ _ _ _ _ _ hV (by decide) _ exHook_band
    (by decide) 40000000 (by norm_num) (by decide)
    (by simp only [List.isChain_cons_cons, List.isChain_singleton, and_true]; decide) false r hq
  refine ⟨A, r, hq, path, h1, ?_⟩
  rw [hw] at h2
  norm_num at h2 ⊢
  linarith

/-- Three places on the equator and the 40th parallel. -/
example : arcLength ⟨0, 0⟩ ⟨20000000, 0⟩ ≤
    arcLength ⟨0, 0⟩ ⟨10000000, 40000000⟩ + arcLength ⟨10000000, 40000000⟩ ⟨20000000, 0⟩ := by
  have := C87_direct (fun _ _ => True) ⟨0, 0⟩ ⟨20000000, 0⟩ [⟨0, 0⟩, ⟨10000000, 40000000⟩, ⟨20000000, 0⟩]
    ⟨rfl, rfl, by simp⟩
  simpa [walkLength] using this

end Capi
