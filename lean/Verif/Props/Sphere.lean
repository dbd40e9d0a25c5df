import Verif.Spec.Sphere
import Verif.Props.Endpoint
import Mathlib.Analysis.Real.Pi.Bounds
import Mathlib.Analysis.SpecialFunctions.Trigonometric.Bounds

/-!
# C63: the direct line on the sphere and in the plane

Whether the direct line is free is decided on the sphere.  Sight lines, links, lengths and paths are
lines in the plane of longitude and latitude.
-/

namespace Capi

open ShortestPath Visgraph

/-! ### Values -/

theorem rad_0 : rad 0 = 0 := by simp [rad]
theorem rad_30 : rad 30000000 = Real.pi / 6 := by unfold rad; push_cast; ring
theorem rad_45 : rad 45000000 = Real.pi / 4 := by unfold rad; push_cast; ring
theorem rad_60 : rad 60000000 = Real.pi / 3 := by unfold rad; push_cast; ring
theorem rad_80 : rad 80000000 = Real.pi / 2 - Real.pi / 18 := by unfold rad; push_cast; ring
theorem rad_neg (x : ℤ) : rad (-x) = -rad x := by unfold rad; push_cast; ring

/-- Two ships' positions on the 45th parallel, 120° apart. -/
def exWest : Coord := ⟨-60000000, 45000000⟩
/-- See `exWest`. -/
def exEast : Coord := ⟨60000000, 45000000⟩

theorem sphere_west : onSphere exWest =
    (Real.sqrt 2 / 2 * (1 / 2), Real.sqrt 2 / 2 * -(Real.sqrt 3 / 2), Real.sqrt 2 / 2) := by
  unfold onSphere exWest
  dsimp only
  rw [rad_45, rad_neg, rad_60, Real.cos_neg, Real.sin_neg, Real.cos_pi_div_four,
    Real.sin_pi_div_four, Real.cos_pi_div_three, Real.sin_pi_div_three]

theorem sphere_east : onSphere exEast =
    (Real.sqrt 2 / 2 * (1 / 2), Real.sqrt 2 / 2 * (Real.sqrt 3 / 2), Real.sqrt 2 / 2) := by
  unfold onSphere exEast
  dsimp only
  rw [rad_45, rad_60, Real.cos_pi_div_four, Real.sin_pi_div_four, Real.cos_pi_div_three,
    Real.sin_pi_div_three]

/-- The arc from `exWest` to `exEast` meets no arc whose ends are both south of it. -/
theorem west_east_south {c d : Coord} (hc : 0 < 2 * (onSphere c).1 - (onSphere c).2.2)
    (hd : 0 < 2 * (onSphere d).1 - (onSphere d).2.2) : ¬ ArcsMeet exWest exEast c d := by
  rintro ⟨s, t, u, v, hs, ht, hu, hv, hst, h⟩
  rw [sphere_west, sphere_east] at h
  simp only [Prod.smul_mk, Prod.mk_add_mk, smul_eq_mul, Prod.ext_iff, Prod.smul_fst, Prod.smul_snd,
    Prod.fst_add, Prod.snd_add] at h
  obtain ⟨h1, -, h3⟩ := h
  have h2 : 0 < Real.sqrt 2 := Real.sqrt_pos.2 (by norm_num)
  have h4 : u * (2 * (onSphere c).1 - (onSphere c).2.2) + v * (2 * (onSphere d).1 - (onSphere d).2.2)
      = 0 := by nlinarith
  have h5 : u * (2 * (onSphere c).1 - (onSphere c).2.2) = 0 := by
    nlinarith [mul_nonneg hu hc.le, mul_nonneg hv hd.le]
  have h6 : v * (2 * (onSphere d).1 - (onSphere d).2.2) = 0 := by
    nlinarith [mul_nonneg hu hc.le, mul_nonneg hv hd.le]
  have hu0 : u = 0 := by
    rcases mul_eq_zero.1 h5 with h | h
    · exact h
    · exact absurd h hc.ne'
  have hv0 : v = 0 := by
    rcases mul_eq_zero.1 h6 with h | h
    · exact h
    · exact absurd h hd.ne'
  rw [hu0, hv0] at h3
  have : (s + t) * (Real.sqrt 2 / 2) = 0 := by linarith
  rcases mul_eq_zero.1 this with h | h
  · exact absurd h hst.ne'
  · linarith

/-! ### Over land -/

/-- An island across the 45th parallel whose northern tip is south of the arc. -/
def exCape : List Coord := [⟨-30000000, 30000000⟩, ⟨30000000, 30000000⟩, ⟨0, 60000000⟩]

theorem cape_south {v : Coord} (hv : v ∈ exCape) : 0 < 2 * (onSphere v).1 - (onSphere v).2.2 := by
  have h3 : Real.sqrt 3 ^ 2 = 3 := Real.sq_sqrt (by norm_num)
  have h0 : 0 ≤ Real.sqrt 3 := Real.sqrt_nonneg 3
  simp only [exCape, List.mem_cons, List.not_mem_nil, or_false] at hv
  rcases hv with rfl | rfl | rfl <;> unfold onSphere <;> dsimp only
  · rw [rad_neg, rad_30, Real.cos_neg, Real.cos_pi_div_six, Real.sin_pi_div_six]
    nlinarith
  · rw [rad_30, Real.cos_pi_div_six, Real.sin_pi_div_six]
    nlinarith
  · rw [rad_60, rad_0, Real.cos_zero, Real.cos_pi_div_three, Real.sin_pi_div_three]
    nlinarith

/-- **C63** That a direct answer stays off land is false: with an exact index on the sphere, every
query from `exWest` to `exEast` is answered with the direct line, which crosses the island `exCape`
from coast to coast. -/
theorem C63_direct_false {D : Type} [LinearOrder D] (A : Arith D) (T : ℕ → Polygon.SumTree)
    (scanner : Coord → Res (List (Coord × Bool))) (order : List Coord → List Coord) (E : Env)
    (h : Voyage T [exCape] scanner order E exWest exEast) (hi : ArcIndex [exCape] E.crossings)
    (allow : Bool) :
    (∀ r, Query A E exWest exEast allow r ↔ r = .ok [exWest, exEast]) ∧
      ∃ e e', EdgeOf [exCape] e ∧ EdgeOf [exCape] e' ∧ e ≠ e' ∧ Crosses exWest exEast e ∧
        Crosses exWest exEast e' := by
  constructor
  · have hc : correct E exWest exEast allow = .ok ⟨exWest, exEast, none, none⟩ := by
      unfold correct correctOne
      rw [h.atSea.1, h.atSea.2]
      simp only [Bool.or_self, Bool.and_false, Bool.false_eq_true, if_false]
      rfl
    refine C51_direct A E exWest exEast exWest exEast allow ⟨exWest, exEast, none, none⟩
      (C01_normalize_id _ (by decide) (by decide)) (C01_normalize_id _ (by decide) (by decide)) hc ?_
    intro x hx
    exfalso
    obtain ⟨e, he, hm⟩ := hi.1 ⟨exWest, exEast⟩ (List.ne_nil_of_mem hx)
    have hv := Vistree.edge_mem he
    rw [List.flatten_singleton] at hv
    exact west_east_south (cape_south hv.1) (cape_south hv.2) hm
  · exact ⟨⟨⟨30000000, 30000000⟩, ⟨0, 60000000⟩⟩, ⟨⟨0, 60000000⟩, ⟨-30000000, 30000000⟩⟩,
      ⟨exCape, by simp, 1, by decide, by decide⟩, ⟨exCape, by simp, 2, by decide, by decide⟩,
      by decide, by decide, by decide⟩

/-- An environment with an exact index on the sphere. -/
noncomputable def arcEnv (ps : List (List Coord)) : Env where
  graph := (generate ps (exScanner Polygon.SumTree.sequential ps) id).toOption.getD Graph.empty
  onLand _ := false
  closest _ := .error .exn
  project _ c := .ok c
  crossings l := by
    classical exact if ∃ e, EdgeOf ps e ∧ ArcsMeet l.p l.q e.p e.q then [l] else []
  reach obs := Vistree.scanC exLook (Vistree.ofPolygons ps) obs
    (Vistree.vertices (Vistree.ofPolygons ps)) (Vistree.segments (Vistree.ofPolygons ps)) false
  ord l := l

theorem arcEnv_index (ps : List (List Coord)) : ArcIndex ps (arcEnv ps).crossings := by
  constructor
  · intro l hl
    by_contra hn
    apply hl
    unfold arcEnv
    exact if_neg hn
  · rintro l e he ⟨⟨s, t, u, v, hs, ht, hu, hv, h⟩, -⟩
    unfold arcEnv
    dsimp only
    rw [if_pos ⟨e, he, s, t, u, v, hs.le, ht.le, hu.le, hv.le, by linarith, h⟩]
    simp

theorem arcEnv_voyage (ps : List (List Coord)) (hg : ∀ v ∈ ps.flatten, v.Geo)
    (hst : ∀ p ∈ ps, Stable Polygon.SumTree.sequential p) {s d : Coord} (hs : s.Geo) (hd : d.Geo) :
    Voyage Polygon.SumTree.sequential ps (exScanner Polygon.SumTree.sequential ps) id (arcEnv ps)
      s d := by
  refine .direct hg hst (exScanner_ok _ _) (fun l => List.Perm.refl l) ?_
    (fun _ => ⟨_, _, _, List.Perm.refl _, List.Perm.refl _, exLook_ok, rfl⟩)
    (fun l => List.Perm.refl l) hs hd ⟨rfl, rfl⟩
  obtain ⟨g, f, h1, -⟩ := C38_edges Polygon.SumTree.sequential ps hg _
    (exScanner_ok _ _) id fun l => List.Perm.refl l
  unfold arcEnv
  dsimp only
  rw [h1]
  rfl

/-- Non-vacuity of `C63_direct_false`. -/
example : Voyage Polygon.SumTree.sequential [exCape] (exScanner Polygon.SumTree.sequential [exCape])
    id (arcEnv [exCape]) exWest exEast ∧ ArcIndex [exCape] (arcEnv [exCape]).crossings := by
  refine ⟨arcEnv_voyage _ (by decide) ?_ (by decide) (by decide), arcEnv_index _⟩
  intro p hp k hk
  rw [List.mem_singleton] at hp
  subst hp
  rcases hk with rfl | rfl | rfl <;> decide +kernel

/-! ### Round land that is not in the way -/

/-- An island 15° and more north of the 45th parallel, under the arc. -/
def exNorth : List Coord := [⟨0, 60000000⟩, ⟨20000000, 80000000⟩, ⟨0, 80000000⟩]

theorem north_crossed : ArcsCross exWest exEast ⟨0, 80000000⟩ ⟨0, 60000000⟩ := by
  have h3 : Real.sqrt 3 ^ 2 = 3 := Real.sq_sqrt (by norm_num)
  have h0 : 0 < Real.sqrt 3 := Real.sqrt_pos.2 (by norm_num)
  have h32 : Real.sqrt 3 < 2 := by nlinarith
  have h2 : 0 < Real.sqrt 2 := Real.sqrt_pos.2 (by norm_num)
  have h22 : Real.sqrt 2 ^ 2 = 2 := Real.sq_sqrt (by norm_num)
  have hpi := Real.pi_pos
  have hpi4 := Real.pi_lt_d2
  have c80 : onSphere ⟨0, 80000000⟩ = (Real.sin (Real.pi / 18), 0, Real.cos (Real.pi / 18)) := by
    unfold onSphere
    dsimp only
    rw [rad_80, rad_0, Real.cos_zero, Real.sin_zero, Real.cos_pi_div_two_sub,
      Real.sin_pi_div_two_sub, mul_one, mul_zero]
  have c60 : onSphere ⟨0, 60000000⟩ = (1 / 2, 0, Real.sqrt 3 / 2) := by
    unfold onSphere
    dsimp only
    rw [rad_60, rad_0, Real.cos_zero, Real.sin_zero, Real.cos_pi_div_three,
      Real.sin_pi_div_three, mul_one, mul_zero]
  have s0 : 0 < Real.sin (Real.pi / 18) := Real.sin_pos_of_pos_of_lt_pi (by linarith) (by linarith)
  have s1 : Real.sin (Real.pi / 18) < 1 / 5 :=
    (Real.sin_lt (by linarith)).trans (by linarith)
  have k1 : 4 / 5 < Real.cos (Real.pi / 18) := by
    have := Real.one_sub_sq_div_two_le_cos (x := Real.pi / 18)
    nlinarith
  rw [ArcsCross, sphere_west, sphere_east, c80, c60]
  generalize Real.sin (Real.pi / 18) = a at s0 s1
  generalize Real.cos (Real.pi / 18) = b at k1
  constructor
  · -- the point in the direction `(1, 0, 2)`
    refine ⟨((1 - Real.sqrt 3 / 2) * a + (b - 2 * a) * (1 / 2)) * Real.sqrt 2,
      ((1 - Real.sqrt 3 / 2) * a + (b - 2 * a) * (1 / 2)) * Real.sqrt 2,
      1 - Real.sqrt 3 / 2, b - 2 * a, ?_, ?_, by linarith, by linarith, ?_⟩
    · have := mul_pos (show (0 : ℝ) < 1 - Real.sqrt 3 / 2 by linarith) s0
      apply mul_pos _ h2
      linarith
    · have := mul_pos (show (0 : ℝ) < 1 - Real.sqrt 3 / 2 by linarith) s0
      apply mul_pos _ h2
      linarith
    · simp only [Prod.smul_mk, Prod.mk_add_mk, smul_eq_mul, Prod.mk.injEq]
      refine ⟨?_, ?_, ?_⟩
      · linear_combination (((1 - Real.sqrt 3 / 2) * a + (b - 2 * a) * (1 / 2)) / 2) * h22
      · ring
      · linear_combination ((1 - Real.sqrt 3 / 2) * a + (b - 2 * a) * (1 / 2)) * h22
  · refine ⟨2, 0, -1, ?_, ?_, ?_, ?_⟩ <;> dsimp only
    · ring
    · ring
    · linarith
    · linarith

theorem planeDist_gt {a b : Coord} {k x : ℤ}
    (h : x ^ 2 < (a.lon + k * 360000001 - b.lon) ^ 2 + (a.lat - b.lat) ^ 2) :
    (x : ℝ) / 1000000 < planeDist a b k := by
  unfold planeDist
  apply div_lt_div_of_pos_right _ (by norm_num)
  apply Real.lt_sqrt_of_sq_lt
  exact_mod_cast h

/-- **C63** That a free line is the answer is false as well: with an exact index on the sphere, no
query from `exWest` to `exEast` is answered with the direct line, although it stays 15° clear of the
only island `exNorth`.  Every answer in any arithmetic goes by a vertex of the island and is longer
than the direct line. -/
theorem C63_detour_false {D : Type} [LinearOrder D] (A : Arith D) (hA : A.Sound)
    (T : ℕ → Polygon.SumTree)
    (scanner : Coord → Res (List (Coord × Bool))) (order : List Coord → List Coord) (E : Env)
    (h : Voyage T [exNorth] scanner order E exWest exEast) (hi : ArcIndex [exNorth] E.crossings)
    (allow : Bool) (path : List Coord) (hq : Query A E exWest exEast allow (.ok path)) :
    (∃ v ∈ path, v ∈ exNorth) ∧ planeDist exWest exEast 0 < walkLength (legLength E) path ∧
      ∀ e, EdgeOf [exNorth] e → ¬ Meets ⟨exWest, exEast⟩ e := by
  obtain ⟨N, hp⟩ := h.searched (hi.2 ⟨exWest, exEast⟩ ⟨⟨0, 80000000⟩, ⟨0, 60000000⟩⟩
    ⟨exNorth, by simp, 2, by decide, by decide⟩ north_crossed) allow
  have hn1 : exWest ∉ [exNorth].flatten := by decide
  have hn2 : exEast ∉ [exNorth].flatten := by decide
  have hn1' : exWest ∉ E.graph.polygons.flatten := fun hh => hn1 ((h.mem_flatten _).1 hh)
  obtain ⟨v, rest, rfl, hv, -⟩ := C62_first_leg A hA E E.graph.polygons h.geo' h.made h.verts h.reach
    h.ord exWest exEast allow N _ hp h.src h.dst hn1' (by decide) path hq
  rw [h.mem_flatten, List.flatten_singleton] at hv
  have hr := h.ready.2
  refine ⟨⟨v, by simp, hv⟩, ?_, ?_⟩
  · have hw := searched_walk hA h.made h.ord hp hq
    have hw' : IsWalk (RouteEdge E ⟨exWest, exEast, none, none⟩) v exEast (v :: rest) :=
      ⟨rfl, by simpa using hw.2.1, (List.isChain_cons_cons.1 hw.2.2).2⟩
    have h1 := (C52_admissible 1 none E h.made ⟨exWest, exEast, none, none⟩ hr v _ hw').2.2
    have h2 : legLength E exWest v = planeDist exWest v 0 := by
      unfold legLength
      rw [if_neg (new_not_crossing h.made h.verts (Or.inl hn1'))]
    have h3 : planeDist exWest exEast 0 = 120 :=
      planeDist_val exWest exEast 0 120 (by decide)
    have h4 : ∀ v ∈ exNorth, (60 : ℝ) + v.lon / 1000000 < planeDist exWest v 0 ∧
        (60 : ℝ) - v.lon / 1000000 ≤ wrapDist v exEast := by
      intro v hv
      have k2 : (v.lon + 60000000) ^ 2 <
          (exWest.lon + 0 * 360000001 - v.lon) ^ 2 + (exWest.lat - v.lat) ^ 2 := by
        revert v; decide
      have k4 : ∀ k ∈ [0, 1, -1], (60000000 - v.lon) ^ 2 <
          (v.lon + k * 360000001 - exEast.lon) ^ 2 + (v.lat - exEast.lat) ^ 2 := by
        revert v; decide
      constructor
      · have := planeDist_gt k2
        push_cast at this
        linarith
      · obtain ⟨k, hk, e⟩ := wrapDist_eq v exEast
        have := planeDist_gt (k4 k (by simpa using hk))
        rw [e]
        push_cast at this
        linarith
    obtain ⟨h5, h6⟩ := h4 v hv
    dsimp only at h1
    simp only [walkLength]
    rw [h2, h3]
    linarith
  · rintro e he ⟨x, y, ⟨t, -, -, -, hy⟩, ⟨u, u0, u1, -, hy'⟩⟩
    have hv := Vistree.edge_mem he
    rw [List.flatten_singleton] at hv
    have hl : ∀ v ∈ exNorth, 60000000 ≤ v.lat := by decide
    have l1 : (60000000 : ℚ) ≤ e.p.lat := by exact_mod_cast hl _ hv.1
    have l2 : (60000000 : ℚ) ≤ e.q.lat := by exact_mod_cast hl _ hv.2
    have : y = 45000000 := by
      rw [hy]
      norm_num [exWest, exEast]
    nlinarith

/-- Non-vacuity of `C63_detour_false`: there is such an environment, and a query in it succeeds. -/
example : Voyage Polygon.SumTree.sequential [exNorth]
      (exScanner Polygon.SumTree.sequential [exNorth]) id (arcEnv [exNorth]) exWest exEast ∧
    ArcIndex [exNorth] (arcEnv [exNorth]).crossings ∧
    ∃ path, Query (exactArith 1 none) (arcEnv [exNorth]) exWest exEast false (.ok path) := by
  have hV : Voyage Polygon.SumTree.sequential [exNorth]
      (exScanner Polygon.SumTree.sequential [exNorth]) id (arcEnv [exNorth]) exWest exEast := by
    refine arcEnv_voyage _ (by decide) ?_ (by decide) (by decide)
    intro p hp k hk
    rw [List.mem_singleton] at hp
    subst hp
    rcases hk with rfl | rfl | rfl <;> decide +kernel
  refine ⟨hV, arcEnv_index _, ?_⟩
  have hA := exact_sound 1 none
  obtain ⟨⟨r, hq⟩, -⟩ := C43_outcome _ hA (arcEnv [exNorth]) hV.made hV.ord exWest exEast false
  have hc : IsWalk (SightLeg [exNorth]) exWest exEast [exWest, ⟨0, 60000000⟩, exEast] := by
    refine ⟨rfl, rfl, ?_⟩
    simp only [List.isChain_cons_cons, List.isChain_singleton, and_true]
    refine ⟨⟨by decide, seesB_sound ?_, seesB_sound ?_, by decide⟩,
      ⟨by decide, seesB_sound ?_, seesB_sound ?_, by decide⟩⟩ <;> decide +kernel
  obtain ⟨path, rfl⟩ := C61_found _ hA (fun _ => rfl) _ _ _ _ _ _ _ hV _
    ⟨hc.1, hc.2.1, hc.2.2.imp fun _ _ h => Or.inl h⟩ (by decide) false r hq
  exact ⟨path, hq⟩

/-! ### On the equator -/

theorem rad_lt {x y : ℤ} (h : x < y) : rad x < rad y := by
  unfold rad
  have : (x : ℝ) < y := by exact_mod_cast h
  have := Real.pi_pos
  gcongr

theorem rad_le {x y : ℤ} (h : x ≤ y) : rad x ≤ rad y := by
  rcases h.lt_or_eq with h | rfl
  · exact (rad_lt h).le
  · exact le_rfl

theorem rad_90 : rad 90000000 = Real.pi / 2 := by unfold rad; push_cast; ring
theorem rad_180 : rad 180000000 = Real.pi := by unfold rad; push_cast; ring
theorem rad_sub (x y : ℤ) : rad (x - y) = rad x - rad y := by unfold rad; push_cast; ring

theorem cos_rad_pos {x : ℤ} (h : |x| < 90000000) : 0 < Real.cos (rad x) := by
  rw [abs_lt] at h
  apply Real.cos_pos_of_mem_Ioo
  rw [← rad_90, ← rad_neg]
  exact ⟨rad_lt h.1, rad_lt h.2⟩

theorem sin_rad_pos {x : ℤ} (h0 : 0 < x) (h : |x| < 90000000) : 0 < Real.sin (rad x) := by
  rw [abs_lt] at h
  apply Real.sin_pos_of_pos_of_lt_pi
  · rw [← rad_0]; exact rad_lt h0
  · rw [← rad_180]; exact rad_lt (by omega)

theorem sin_rad_neg {x : ℤ} (h0 : x < 0) (h : |x| < 90000000) : Real.sin (rad x) < 0 := by
  have := sin_rad_pos (x := -x) (by omega) (by rwa [abs_neg])
  rw [rad_neg, Real.sin_neg] at this
  linarith

/-- The points of an arc of the equator in terms of its ends. -/
theorem equator_comb {a b x : ℤ} (hax : a ≤ x) (hxb : x ≤ b) (hab : a < b)
    (hw : b - a < 180000000) :
    ∃ s t : ℝ, 0 ≤ s ∧ 0 ≤ t ∧ 0 < s + t ∧ (x < b → 0 < s) ∧ (a < x → 0 < t) ∧
      s * Real.cos (rad a) + t * Real.cos (rad b) = Real.cos (rad x) ∧
      s * Real.sin (rad a) + t * Real.sin (rad b) = Real.sin (rad x) := by
  have hpos : 0 < Real.sin (rad b - rad a) := by
    rw [← rad_sub]
    apply Real.sin_pos_of_pos_of_lt_pi
    · rw [← rad_0]; exact rad_lt (by omega)
    · rw [← rad_180]; exact rad_lt (by omega)
  have nonneg : ∀ y : ℤ, 0 ≤ y → y < 180000000 → 0 ≤ Real.sin (rad y) := by
    intro y h0 h1
    apply Real.sin_nonneg_of_nonneg_of_le_pi
    · rw [← rad_0]; exact rad_le h0
    · rw [← rad_180]; exact rad_le h1.le
  have pos : ∀ y : ℤ, 0 < y → y < 180000000 → 0 < Real.sin (rad y) := by
    intro y h0 h1
    apply Real.sin_pos_of_pos_of_lt_pi
    · rw [← rad_0]; exact rad_lt h0
    · rw [← rad_180]; exact rad_lt h1
  have s0 := nonneg (b - x) (by omega) (by omega)
  have t0 := nonneg (x - a) (by omega) (by omega)
  have st : 0 < Real.sin (rad (b - x)) + Real.sin (rad (x - a)) := by
    rcases hxb.lt_or_eq with h | h
    · have := pos (b - x) (by omega) (by omega)
      linarith
    · have := pos (x - a) (by omega) (by omega)
      linarith
  refine ⟨Real.sin (rad (b - x)) / Real.sin (rad b - rad a),
    Real.sin (rad (x - a)) / Real.sin (rad b - rad a), by positivity, by positivity, ?_,
    fun h => div_pos (pos _ (by omega) (by omega)) hpos,
    fun h => div_pos (pos _ (by omega) (by omega)) hpos, ?_, ?_⟩
  · rw [← add_div]; positivity
  · have e1 := Real.sin_sq_add_cos_sq (rad x)
    rw [div_mul_eq_mul_div, div_mul_eq_mul_div, ← add_div, div_eq_iff hpos.ne', rad_sub, rad_sub,
      Real.sin_sub, Real.sin_sub, Real.sin_sub]
    ring
  · rw [div_mul_eq_mul_div, div_mul_eq_mul_div, ← add_div, div_eq_iff hpos.ne', rad_sub, rad_sub,
      Real.sin_sub, Real.sin_sub, Real.sin_sub]
    ring

/-- **C63** Along the equator the two notions agree: an edge between the longitudes of the ends of a
line on the equator meets the line on the sphere exactly if it does in the plane.  What is missing
is any other line; `C63_direct_false` and `C63_detour_false` show that there they differ. -/
theorem C63_equator_partial (a b : Coord) (ha : a.lat = 0) (hb : b.lat = 0) (hab : a.lon < b.lon)
    (hw : b.lon - a.lon < 180000000) (e : Seg) (hp : a.lon ≤ e.p.lon ∧ e.p.lon ≤ b.lon)
    (hq : a.lon ≤ e.q.lon ∧ e.q.lon ≤ b.lon) (hlp : |e.p.lat| < 90000000)
    (hlq : |e.q.lat| < 90000000) : ArcsMeet a b e.p e.q ↔ Meets ⟨a, b⟩ e := by
  have sa : onSphere a = (Real.cos (rad a.lon), Real.sin (rad a.lon), 0) := by
    unfold onSphere
    rw [ha, rad_0, Real.cos_zero, Real.sin_zero, one_mul, one_mul]
  have sb : onSphere b = (Real.cos (rad b.lon), Real.sin (rad b.lon), 0) := by
    unfold onSphere
    rw [hb, rad_0, Real.cos_zero, Real.sin_zero, one_mul, one_mul]
  -- a point on the equator between the ends is on the line
  have on : ∀ x : ℚ, (a.lon : ℚ) ≤ x → x ≤ b.lon → OnSeg ⟨a, b⟩ x 0 := by
    intro x h1 h2
    have h3 : (0 : ℚ) < (b.lon : ℚ) - a.lon := by
      have : (a.lon : ℚ) < b.lon := by exact_mod_cast hab
      linarith
    refine ⟨(x - a.lon) / (b.lon - a.lon), div_nonneg (by linarith) h3.le,
      (div_le_one h3).2 (by linarith), ?_, ?_⟩
    · dsimp only
      rw [div_mul_cancel₀ _ h3.ne']
      ring
    · simp only [ha, hb]
      push_cast
      ring
  have p1 : (a.lon : ℚ) ≤ e.p.lon := by exact_mod_cast hp.1
  have p2 : (e.p.lon : ℚ) ≤ b.lon := by exact_mod_cast hp.2
  have q1 : (a.lon : ℚ) ≤ e.q.lon := by exact_mod_cast hq.1
  have q2 : (e.q.lon : ℚ) ≤ b.lon := by exact_mod_cast hq.2
  constructor
  · rintro ⟨s, t, u, v, hs, ht, hu, hv, hst, h⟩
    rw [sa, sb] at h
    simp only [Prod.smul_mk, Prod.mk_add_mk, smul_eq_mul, Prod.ext_iff, Prod.smul_fst, Prod.smul_snd,
      Prod.fst_add, Prod.snd_add, mul_zero, add_zero] at h
    obtain ⟨h1, h2, h3⟩ := h
    -- the edge is not strictly to one side
    have side : ¬ (u = 0 ∧ v = 0) := by
      rintro ⟨rfl, rfl⟩
      simp only [zero_mul, add_zero] at h1 h2
      have hd : 0 < Real.sin (rad b.lon - rad a.lon) := by
        rw [← rad_sub]
        apply Real.sin_pos_of_pos_of_lt_pi
        · rw [← rad_0]; exact rad_lt (by omega)
        · rw [← rad_180]; exact rad_lt (by omega)
      rw [Real.sin_sub] at hd
      have z1 : s * (Real.sin (rad b.lon) * Real.cos (rad a.lon) -
          Real.cos (rad b.lon) * Real.sin (rad a.lon)) = 0 := by
        linear_combination Real.sin (rad b.lon) * h1 - Real.cos (rad b.lon) * h2
      have z2 : t * (Real.sin (rad b.lon) * Real.cos (rad a.lon) -
          Real.cos (rad b.lon) * Real.sin (rad a.lon)) = 0 := by
        linear_combination Real.cos (rad a.lon) * h2 - Real.sin (rad a.lon) * h1
      rcases mul_eq_zero.1 z1 with z1 | z1
      · rcases mul_eq_zero.1 z2 with z2 | z2
        · linarith
        · linarith
      · linarith
    have h3' : u * Real.sin (rad e.p.lat) + v * Real.sin (rad e.q.lat) = 0 := h3.symm
    have signs : (e.p.lat ≤ 0 ∧ 0 ≤ e.q.lat) ∨ (0 ≤ e.p.lat ∧ e.q.lat ≤ 0) := by
      by_contra hcon
      have : (0 < e.p.lat ∧ 0 < e.q.lat) ∨ (e.p.lat < 0 ∧ e.q.lat < 0) := by omega
      apply side
      rcases this with ⟨g1, g2⟩ | ⟨g1, g2⟩
      · have k1 := sin_rad_pos g1 hlp
        have k2 := sin_rad_pos g2 hlq
        constructor <;> nlinarith [mul_nonneg hu k1.le, mul_nonneg hv k2.le]
      · have k1 := sin_rad_neg g1 hlp
        have k2 := sin_rad_neg g2 hlq
        constructor <;> nlinarith [mul_nonneg hu (neg_nonneg.2 k1.le), mul_nonneg hv (neg_nonneg.2 k2.le)]
    by_cases hz : e.p.lat = 0
    · exact ⟨e.p.lon, 0, on _ p1 p2, 0, le_rfl, zero_le_one, by ring, by rw [hz]; push_cast; ring⟩
    · -- the intersection in the plane
      have hne : (e.p.lat : ℚ) - e.q.lat ≠ 0 := by
        have : e.p.lat ≠ e.q.lat := by omega
        rw [sub_ne_zero]
        exact_mod_cast this
      have t0 : 0 ≤ (e.p.lat : ℚ) / (e.p.lat - e.q.lat) := by
        rcases signs with ⟨g1, g2⟩ | ⟨g1, g2⟩
        · have g1 : (e.p.lat : ℚ) ≤ 0 := by exact_mod_cast g1
          have g2 : (0 : ℚ) ≤ e.q.lat := by exact_mod_cast g2
          exact div_nonneg_of_nonpos g1 (by linarith)
        · have g1 : (0 : ℚ) ≤ e.p.lat := by exact_mod_cast g1
          have g2 : (e.q.lat : ℚ) ≤ 0 := by exact_mod_cast g2
          exact div_nonneg g1 (by linarith)
      have t1 : (e.p.lat : ℚ) / (e.p.lat - e.q.lat) ≤ 1 := by
        rcases signs with ⟨g1, g2⟩ | ⟨g1, g2⟩
        · have g1 : (e.p.lat : ℚ) ≤ 0 := by exact_mod_cast g1
          have g2 : (0 : ℚ) ≤ e.q.lat := by exact_mod_cast g2
          exact (div_le_one_of_neg (lt_of_le_of_ne (by linarith) hne)).2 (by linarith)
        · have g1 : (0 : ℚ) ≤ e.p.lat := by exact_mod_cast g1
          have g2 : (e.q.lat : ℚ) ≤ 0 := by exact_mod_cast g2
          exact (div_le_one (lt_of_le_of_ne (by linarith) hne.symm)).2 (by linarith)
      have hy : (e.p.lat : ℚ) + (e.p.lat : ℚ) / (e.p.lat - e.q.lat) * (e.q.lat - e.p.lat) = 0 := by
        field_simp
        ring
      generalize (e.p.lat : ℚ) / (e.p.lat - e.q.lat) = r at t0 t1 hy
      refine ⟨e.p.lon + r * (e.q.lon - e.p.lon), 0, on _ ?_ ?_, r, t0, t1, rfl, hy.symm⟩
      · nlinarith
      · nlinarith
  · rintro ⟨x, y, ⟨t, -, -, -, hy⟩, r, r0, r1, -, hy'⟩
    have hy0 : y = 0 := by
      rw [hy]
      simp only [ha, hb]
      push_cast
      ring
    rw [hy0] at hy'
    obtain ⟨s1, t1, a1, a2, a3, -, -, a4, a5⟩ := equator_comb hp.1 hp.2 hab hw
    obtain ⟨s2, t2, b1, b2, b3, -, -, b4, b5⟩ := equator_comb hq.1 hq.2 hab hw
    have kp := cos_rad_pos hlp
    have kq := cos_rad_pos hlq
    -- weights that put the point on the equator
    have wts : ∃ u v : ℝ, 0 ≤ u ∧ 0 ≤ v ∧ 0 < u + v ∧
        u * Real.sin (rad e.p.lat) + v * Real.sin (rad e.q.lat) = 0 := by
      rcases lt_trichotomy e.p.lat 0 with g | g | g
      · rcases lt_trichotomy e.q.lat 0 with g' | g' | g'
        · exfalso
          have g : (e.p.lat : ℚ) < 0 := by exact_mod_cast g
          have g' : (e.q.lat : ℚ) < 0 := by exact_mod_cast g'
          have k1 : (1 - r) * (e.p.lat : ℚ) ≤ 0 := mul_nonpos_of_nonneg_of_nonpos (by linarith) g.le
          rcases r0.lt_or_eq with r0 | r0
          · have := mul_neg_of_pos_of_neg r0 g'
            linarith
          · rw [← r0] at hy'
            linarith
        · exact ⟨0, 1, le_rfl, zero_le_one, by norm_num, by rw [g', rad_0, Real.sin_zero]; ring⟩
        · have k1 := sin_rad_neg g hlp
          have k2 := sin_rad_pos g' hlq
          exact ⟨Real.sin (rad e.q.lat), -Real.sin (rad e.p.lat), k2.le, by linarith, by linarith,
            by ring⟩
      · exact ⟨1, 0, zero_le_one, le_rfl, by norm_num, by rw [g, rad_0, Real.sin_zero]; ring⟩
      · rcases lt_trichotomy e.q.lat 0 with g' | g' | g'
        · have k1 := sin_rad_pos g hlp
          have k2 := sin_rad_neg g' hlq
          exact ⟨-Real.sin (rad e.q.lat), Real.sin (rad e.p.lat), by linarith, k1.le, by linarith,
            by ring⟩
        · exact ⟨0, 1, le_rfl, zero_le_one, by norm_num, by rw [g', rad_0, Real.sin_zero]; ring⟩
        · exfalso
          have g : (0 : ℚ) < e.p.lat := by exact_mod_cast g
          have g' : (0 : ℚ) < e.q.lat := by exact_mod_cast g'
          have k1 : 0 ≤ (1 - r) * (e.p.lat : ℚ) := mul_nonneg (by linarith) g.le
          rcases r0.lt_or_eq with r0 | r0
          · have := mul_pos r0 g'
            linarith
          · rw [← r0] at hy'
            linarith
    obtain ⟨u, v, hu, hv, huv, h0⟩ := wts
    refine ⟨u * Real.cos (rad e.p.lat) * s1 + v * Real.cos (rad e.q.lat) * s2,
      u * Real.cos (rad e.p.lat) * t1 + v * Real.cos (rad e.q.lat) * t2, u, v, by positivity,
      by positivity, hu, hv, ?_, ?_⟩
    · rcases hu.lt_or_eq with hu' | hu'
      · have : 0 < u * Real.cos (rad e.p.lat) * (s1 + t1) := by positivity
        have : 0 ≤ v * Real.cos (rad e.q.lat) * (s2 + t2) := by positivity
        linarith
      · have hv' : 0 < v := by linarith
        have : 0 ≤ u * Real.cos (rad e.p.lat) * (s1 + t1) := by positivity
        have : 0 < v * Real.cos (rad e.q.lat) * (s2 + t2) := by positivity
        linarith
    · rw [sa, sb]
      unfold onSphere
      simp only [Prod.smul_mk, Prod.mk_add_mk, smul_eq_mul, Prod.mk.injEq, mul_zero, add_zero]
      refine ⟨?_, ?_, h0.symm⟩
      · linear_combination (u * Real.cos (rad e.p.lat)) * a4 + (v * Real.cos (rad e.q.lat)) * b4
      · linear_combination (u * Real.cos (rad e.p.lat)) * a5 + (v * Real.cos (rad e.q.lat)) * b5

theorem sphere_equator {a : Coord} (ha : a.lat = 0) :
    onSphere a = (Real.cos (rad a.lon), Real.sin (rad a.lon), 0) := by
  unfold onSphere
  rw [ha, rad_0, Real.cos_zero, Real.sin_zero, one_mul, one_mul]

/-- An edge that crosses a line on the equator in the plane crosses it on the sphere. -/
theorem equator_cross {a b : Coord} (ha : a.lat = 0) (hb : b.lat = 0) (hab : a.lon < b.lon)
    (hw : b.lon - a.lon < 180000000) {e : Seg} (hp : a.lon ≤ e.p.lon ∧ e.p.lon ≤ b.lon)
    (hq : a.lon ≤ e.q.lon ∧ e.q.lon ≤ b.lon) (hlp : |e.p.lat| < 90000000)
    (hlq : |e.q.lat| < 90000000) (hc : Crosses a b e) : ArcsCross a b e.p e.q := by
  obtain ⟨h1, h2⟩ := hc
  unfold area2 at h1 h2
  rw [ha, hb] at h1 h2
  have hd : 0 < b.lon - a.lon := by omega
  have h1' : e.p.lat * e.q.lat < 0 := by
    by_contra hcon
    have : 0 ≤ (b.lon - a.lon) ^ 2 * (e.p.lat * e.q.lat) :=
      mul_nonneg (sq_nonneg _) (not_lt.1 hcon)
    nlinarith
  -- not both ends are above the same end of the line
  have nb : ¬ (e.p.lon = b.lon ∧ e.q.lon = b.lon) := by
    rintro ⟨g1, g2⟩
    rw [g1, g2] at h2
    simp at h2
  have na : ¬ (e.p.lon = a.lon ∧ e.q.lon = a.lon) := by
    rintro ⟨g1, g2⟩
    rw [g1, g2] at h2
    simp at h2
  obtain ⟨s1, t1, a1, a2, a3, a6, a7, a4, a5⟩ := equator_comb hp.1 hp.2 hab hw
  obtain ⟨s2, t2, b1, b2, b3, b6, b7, b4, b5⟩ := equator_comb hq.1 hq.2 hab hw
  have kp := cos_rad_pos hlp
  have kq := cos_rad_pos hlq
  have wts : ∃ u v z : ℝ, 0 < u ∧ 0 < v ∧
      u * Real.sin (rad e.p.lat) + v * Real.sin (rad e.q.lat) = 0 ∧
      z * Real.sin (rad e.p.lat) < 0 ∧ 0 < z * Real.sin (rad e.q.lat) := by
    rcases mul_neg_iff.1 h1' with ⟨g, g'⟩ | ⟨g, g'⟩
    · have k1 := sin_rad_pos g hlp
      have k2 := sin_rad_neg g' hlq
      exact ⟨-Real.sin (rad e.q.lat), Real.sin (rad e.p.lat), -1, by linarith, k1, by ring,
        by linarith, by linarith⟩
    · have k1 := sin_rad_neg g hlp
      have k2 := sin_rad_pos g' hlq
      exact ⟨Real.sin (rad e.q.lat), -Real.sin (rad e.p.lat), 1, k2, by linarith, by ring,
        by linarith, by linarith⟩
  obtain ⟨u, v, z, hu, hv, h0, z1, z2⟩ := wts
  rw [ArcsCross, sphere_equator ha, sphere_equator hb]
  constructor
  · refine ⟨u * Real.cos (rad e.p.lat) * s1 + v * Real.cos (rad e.q.lat) * s2,
      u * Real.cos (rad e.p.lat) * t1 + v * Real.cos (rad e.q.lat) * t2, u, v, ?_, ?_, hu, hv, ?_⟩
    · by_cases g : e.p.lon = b.lon
      · have := b6 (by omega)
        have : 0 ≤ u * Real.cos (rad e.p.lat) * s1 := by positivity
        have : 0 < v * Real.cos (rad e.q.lat) * s2 := by positivity
        linarith
      · have := a6 (by omega)
        have : 0 < u * Real.cos (rad e.p.lat) * s1 := by positivity
        have : 0 ≤ v * Real.cos (rad e.q.lat) * s2 := by positivity
        linarith
    · by_cases g : e.p.lon = a.lon
      · have := b7 (by omega)
        have : 0 ≤ u * Real.cos (rad e.p.lat) * t1 := by positivity
        have : 0 < v * Real.cos (rad e.q.lat) * t2 := by positivity
        linarith
      · have := a7 (by omega)
        have : 0 < u * Real.cos (rad e.p.lat) * t1 := by positivity
        have : 0 ≤ v * Real.cos (rad e.q.lat) * t2 := by positivity
        linarith
    · unfold onSphere
      simp only [Prod.smul_mk, Prod.mk_add_mk, smul_eq_mul, Prod.mk.injEq, mul_zero, add_zero]
      refine ⟨?_, ?_, h0.symm⟩
      · linear_combination (u * Real.cos (rad e.p.lat)) * a4 + (v * Real.cos (rad e.q.lat)) * b4
      · linear_combination (u * Real.cos (rad e.p.lat)) * a5 + (v * Real.cos (rad e.q.lat)) * b5
  · refine ⟨0, 0, z, by simp, by simp, ?_, ?_⟩ <;>
    · unfold onSphere
      simpa using (by assumption)

/-- **C63** A query along the equator, with all land between the longitudes of its ends, is answered
with the direct line if no edge touches the line in the plane, and not if an edge crosses it. -/
theorem C63_equator_query_partial {D : Type} [LinearOrder D] (A : Arith D) (hA : A.Sound)
    (T : ℕ → Polygon.SumTree) (ps : List (List Coord))
    (scanner : Coord → Res (List (Coord × Bool))) (order : List Coord → List Coord) (E : Env)
    (s d : Coord) (h : Voyage T ps scanner order E s d) (hi : ArcIndex ps E.crossings)
    (hs : s.lat = 0) (hd : d.lat = 0) (hsd : s.lon < d.lon) (hw : d.lon - s.lon < 180000000)
    (hin : ∀ v ∈ ps.flatten, s.lon ≤ v.lon ∧ v.lon ≤ d.lon ∧ |v.lat| < 90000000)
    (hns : s ∉ ps.flatten) (hnd : d ∉ ps.flatten) (allow : Bool) :
    ((∀ e, EdgeOf ps e → ¬ Meets ⟨s, d⟩ e) →
      ∀ r, Query A E s d allow r ↔ r = .ok [s, d]) ∧
    ((∃ e, EdgeOf ps e ∧ Crosses s d e) → ¬ Query A E s d allow (.ok [s, d])) := by
  constructor
  · intro hfree
    have hc : correct E s d allow = .ok ⟨s, d, none, none⟩ := by
      unfold correct correctOne
      rw [h.atSea.1, h.atSea.2]
      simp only [Bool.or_self, Bool.and_false, Bool.false_eq_true, if_false]
      rfl
    refine C51_direct A E s d s d allow ⟨s, d, none, none⟩
      (C01_normalize_id s h.src.1 h.src.2.1) (C01_normalize_id d h.dst.1 h.dst.2.1) hc ?_
    intro x hx
    exfalso
    obtain ⟨e, he, hm⟩ := hi.1 ⟨s, d⟩ (List.ne_nil_of_mem hx)
    have hv := Vistree.edge_mem he
    obtain ⟨p1, p2, p3⟩ := hin _ hv.1
    obtain ⟨q1, q2, q3⟩ := hin _ hv.2
    exact hfree e he ((C63_equator_partial s d hs hd hsd hw e ⟨p1, p2⟩ ⟨q1, q2⟩ p3 q3).1 hm)
  · rintro ⟨e, he, hx⟩ hq
    have hv := Vistree.edge_mem he
    obtain ⟨p1, p2, p3⟩ := hin _ hv.1
    obtain ⟨q1, q2, q3⟩ := hin _ hv.2
    obtain ⟨N, hp⟩ := h.searched (hi.2 ⟨s, d⟩ e he
      (equator_cross hs hd hsd hw ⟨p1, p2⟩ ⟨q1, q2⟩ p3 q3 hx)) allow
    obtain ⟨v, -, -, hl⟩ := C62_via A hA E E.graph.polygons h.geo' h.made h.verts h.reach h.ord s d
      allow N _ hp h.src h.dst (fun hh => hns ((h.mem_flatten _).1 hh))
      (fun hh => hnd ((h.mem_flatten _).1 hh)) (fun hh : s = d => by rw [hh] at hsd; exact lt_irrefl _ hsd) _ hq
    simp at hl

/-- Non-vacuity of `C63_equator_partial`: an edge across the equator, met in both senses. -/
example : ArcsMeet ⟨0, 0⟩ ⟨90000000, 0⟩ ⟨10000000, -30000000⟩ ⟨70000000, 60000000⟩ := by
  rw [C63_equator_partial ⟨0, 0⟩ ⟨90000000, 0⟩ rfl rfl (by decide) (by decide)
    ⟨⟨10000000, -30000000⟩, ⟨70000000, 60000000⟩⟩ (by decide) (by decide) (by decide) (by decide)]
  exact ⟨30000000, 0, ⟨1 / 3, by norm_num, by norm_num, by norm_num, by norm_num⟩,
    ⟨1 / 3, by norm_num, by norm_num, by norm_num, by norm_num⟩⟩

/-- A square island across the equator. -/
def exAtoll : List Coord := [⟨-10, -10⟩, ⟨10, -10⟩, ⟨10, 10⟩, ⟨-10, 10⟩]

/-- Non-vacuity of `C63_equator_query_partial`: an island across the equator. -/
example : ∃ e, EdgeOf [exAtoll] e ∧ Crosses ⟨-20, 0⟩ ⟨20, 0⟩ e ∧
    ¬ Query (exactArith 1 none) (arcEnv [exAtoll]) ⟨-20, 0⟩ ⟨20, 0⟩
      false (.ok [⟨-20, 0⟩, ⟨20, 0⟩]) := by
  have he : EdgeOf [exAtoll] ⟨⟨10, -10⟩, ⟨10, 10⟩⟩ :=
    ⟨exAtoll, by simp, 1, by decide, by decide⟩
  refine ⟨_, he, by decide, ?_⟩
  refine (C63_equator_query_partial _ (exact_sound 1 none) Polygon.SumTree.sequential _ _ id _ _ _
    (arcEnv_voyage _ (by decide) ?_ (by decide) (by decide)) (arcEnv_index _) rfl rfl (by decide)
    (by decide) (by decide) (by decide) (by decide) false).2 ⟨_, he, by decide⟩
  intro p hp k hk
  rw [List.mem_singleton] at hp
  subst hp
  rcases hk with rfl | rfl | rfl <;> decide +kernel

end Capi
