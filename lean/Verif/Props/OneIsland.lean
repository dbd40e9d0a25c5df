import Verif.Props.Archipelago

/-!
# C75: a path through a convex island

The condition on the places in C75 cannot be dropped.
-/

namespace Capi

open ShortestPath Vistree Visgraph

/-- A single convex island; two of its corners are exactly 2.5 degrees from the origin. -/
def exIsle : List (List Coord) :=
  [[⟨1620000, -180000⟩, ⟨2400000, 700000⟩, ⟨3110000, 2980000⟩, ⟨2360000, 2920000⟩,
    ⟨2000000, 1500000⟩]]

theorem exIsle_chart : Chart Polygon.SumTree.sequential exIsle := by
  have key : ∀ v ∈ exIsle.flatten,
      OrderlyBy exDirs exRadii (polygonsPeriodic Polygon.SumTree.sequential exIsle) v := by
    decide +kernel
  refine ⟨⟨by decide, by decide, by decide, by decide⟩, by decide, ?_, fun v hv => (key v hv).orderly, ?_⟩
  · intro p hp k hk
    obtain rfl := List.mem_singleton.1 hp
    rcases hk with rfl | rfl | rfl <;> decide +kernel
  · rintro a v b ⟨p, hp, i, hi, rfl, rfl, rfl⟩
    obtain rfl := List.mem_singleton.1 hp
    simp only [List.length_cons, List.length_nil] at hi
    interval_cases i <;> decide +kernel

def exNear : Coord := ⟨0, 0⟩
def exBehind : Coord := ⟨3110000, 2980000⟩

/-- The island with its generated graph; the index finds an edge in the way. -/
def exIsleEnv : Env where
  graph := (generate exIsle (exScanner Polygon.SumTree.sequential exIsle) id).toOption.getD Graph.empty
  onLand _ := false
  closest _ := .error .exn
  project _ c := .ok c
  crossings _ := [⟨⟨2360000, 2920000⟩, ⟨2000000, 1500000⟩⟩]
  reach e := scanC exLook (ofPolygons exIsle) e (vertices (ofPolygons exIsle))
    (segments (ofPolygons exIsle)) false
  ord l := l

theorem exIsle_graph : generate exIsle (exScanner Polygon.SumTree.sequential exIsle) id =
    .ok exIsleEnv.graph := by
  obtain ⟨g, f, h1, -⟩ := C38_edges Polygon.SumTree.sequential exIsle (by decide) _
    (exScanner_ok _ _) id fun l => List.Perm.refl l
  unfold exIsleEnv
  dsimp only
  rw [h1]
  rfl

theorem exIsle_voyage : Voyage Polygon.SumTree.sequential exIsle
    (exScanner Polygon.SumTree.sequential exIsle) id exIsleEnv exNear exBehind :=
  .direct (by decide) exIsle_chart.stable (exScanner_ok _ _) (fun l => List.Perm.refl l)
    exIsle_graph (fun _ => ⟨_, _, _, List.Perm.refl _, List.Perm.refl _, exLook_ok, rfl⟩)
    (fun l => List.Perm.refl l) (by decide) (by decide) ⟨rfl, rfl⟩

/-- The line between the two places goes over the island. -/
theorem exIsle_blocked : ¬ AtSea (Land exIsle) exNear.pt exBehind.pt := by
  intro h
  refine h ⟨3110000 * (9 / 10), 2980000 * (9 / 10)⟩ ⟨1 / 10, 9 / 10, by norm_num, by norm_num,
    by norm_num, ?_⟩ ?_
  · apply Complex.ext <;> simp [exNear, exBehind, Coord.pt] <;> norm_num
  · refine mem_land.2 ⟨_, List.mem_cons_self, 0, ?_⟩
    rw [map_shift_zero]
    rintro e ⟨p, hp, i, hi, rfl⟩
    obtain rfl := List.mem_singleton.1 hp
    simp only [List.length_cons, List.length_nil] at hi
    interval_cases i <;> simp [turn, Coord.pt, ringAt] <;> norm_num

/-- Nevertheless it is a leg of the search. -/
theorem exIsle_leg : RouteEdge exIsleEnv ⟨exNear, exBehind, none, none⟩ exNear exBehind := by
  refine Or.inr (Or.inl ⟨rfl, by decide +kernel, by decide, ?_, by simp⟩)
  refine ⟨[(⟨2000000, 1500000⟩, false), (⟨3110000, 2980000⟩, false), (⟨2360000, 2920000⟩, false),
    (⟨1620000, -180000⟩, false)], false, by decide +kernel, by decide⟩

theorem exIsle_plain : ¬ CrossesMeridian exIsleEnv exNear exBehind := by
  unfold CrossesMeridian
  decide +kernel

theorem wrapDist_ge {a b : Coord} {q : ℚ}
    (h : ∀ k ∈ [(0 : ℤ), 1, -1], q ^ 2 ≤
      ((a.lon + k * 360000001 - b.lon : ℤ) : ℚ) ^ 2 + ((a.lat - b.lat : ℤ) : ℚ) ^ 2) :
    (q : ℝ) / 1000000 ≤ wrapDist a b := by
  obtain ⟨k, hk, e⟩ := wrapDist_eq a b
  rw [e]
  unfold planeDist
  refine div_le_div_of_nonneg_right (Real.le_sqrt_of_sq_le ?_) (by norm_num)
  have := h k (by simpa using hk)
  exact_mod_cast this

/-- Every way round by another corner is longer by one per cent. -/
theorem exIsle_detour {u : Coord} (hu : u ∈ exIsle.flatten) (hne : u ≠ exBehind) :
    (4.34 : ℝ) ≤ wrapDist exNear u + wrapDist u exBehind := by
  have key : ∀ p q : ℚ, 4340000 ≤ p + q → (∀ k ∈ [(0 : ℤ), 1, -1],
      p ^ 2 ≤ ((exNear.lon + k * 360000001 - u.lon : ℤ) : ℚ) ^ 2 + ((exNear.lat - u.lat : ℤ) : ℚ) ^ 2 ∧
      q ^ 2 ≤ ((u.lon + k * 360000001 - exBehind.lon : ℤ) : ℚ) ^ 2 +
        ((u.lat - exBehind.lat : ℤ) : ℚ) ^ 2) → (4.34 : ℝ) ≤ wrapDist exNear u + wrapDist u exBehind := by
    intro p q h h1
    have a := wrapDist_ge (a := exNear) (b := u) (q := p) fun k hk => (h1 k hk).1
    have b := wrapDist_ge (a := u) (b := exBehind) (q := q) fun k hk => (h1 k hk).2
    have c : (4340000 : ℝ) ≤ p + q := by exact_mod_cast h
    linarith
  simp only [exIsle, List.flatten_cons, List.flatten_nil, List.append_nil, List.mem_cons,
    List.not_mem_nil, or_false] at hu
  rcases hu with rfl | rfl | rfl | rfl | rfl
  · exact key 1600000 3400000 (by norm_num) (by decide +kernel)
  · exact key 2500000 2300000 (by norm_num) (by decide +kernel)
  · exact absurd rfl hne
  · exact key 3700000 700000 (by norm_num) (by decide +kernel)
  · exact key 2500000 1850000 (by norm_num) (by decide +kernel)

theorem exIsle_length : legLength exIsleEnv exNear exBehind ≤ 4.308 := by
  rw [legLength, if_neg exIsle_plain]
  unfold planeDist
  rw [div_le_iff₀ (by norm_num)]
  refine Real.sqrt_le_iff.2 ⟨by norm_num, ?_⟩
  norm_num [exNear, exBehind]

/-- The answer is the straight line through the island, though the index finds it blocked. -/
theorem exIsle_path {A : Arith Dbl} {w : Dbl} (hA : A.DoubleLike w none) (hw : w.1 = 1) (allow : Bool)
    (path : List Coord) (hq : Query A exIsleEnv exNear exBehind allow (.ok path)) :
    path = [exNear, exBehind] := by
  have hV := exIsle_voyage
  obtain ⟨N, hp⟩ := hV.searched (by simp [exIsleEnv]) allow
  have hlen := bounded_of hA (by rw [hw]; norm_num) exIsleEnv hV.made hV.ord exNear exBehind allow N _ hp
    hV.ready.2 path hq ({exNear, exBehind} ∪ exIsle.flatten.toFinset) (by simp)
    (by
      intro u _ v he
      simp only [Finset.mem_union, Finset.mem_insert, Finset.mem_singleton, List.mem_toFinset]
      have := hV.target he
      tauto)
    (by decide) [exNear, exBehind] ⟨rfl, rfl, by simpa using exIsle_leg⟩ fun _ _ => rfl
  have hnd := (C43_outcome A hA.sound exIsleEnv hV.made hV.ord exNear exBehind allow).2 N _ path hp hq
  have hlen : walkLength (legLength exIsleEnv) path ≤ 4.309 := by
    refine hlen.trans ?_
    simp only [walkLength, add_zero, hw]
    norm_num
    linarith [exIsle_length]
  obtain ⟨ns, nd, c, h1, h2, h3, h4⟩ := C42_paths A hA.sound exIsleEnv hV.made hV.ord exNear exBehind
    allow path hq
  obtain ⟨_, _, g1, g2, g3, -, -⟩ := prepare_inr hp
  rw [g1] at h1
  rw [g2] at h2
  cases h1
  cases h2
  rw [g3] at h3
  cases h3
  rcases h4 with ⟨-, h4⟩ | ⟨-, h4⟩
  · exact h4
  · obtain ⟨l, rfl, hl', hc⟩ := isWalk_cons.1 h4
    have hl := h4.2.1
    cases l with
    | nil => simp [exNear, exBehind] at hl'
    | cons u r =>
      rw [List.isChain_cons_cons] at hc
      rw [List.getLast?_cons_cons] at hl
      have hu : u = exBehind := by
        by_contra hne
        have hus : u ∈ exIsle.flatten := by
          rcases hV.target hc.1 with rfl | rfl | h
          · simp at hnd
          · exact absurd rfl hne
          · exact h
        have hr := (C52_admissible 1 none exIsleEnv hV.made ⟨exNear, exBehind, none, none⟩ hV.ready.2 u
          (u :: r) ⟨rfl, hl, hc.2⟩).2.2
        obtain ⟨k, hk, e⟩ := legLength_eq exIsleEnv exNear u
        have hf := wrapDist_le exNear u k hk
        rw [← e] at hf
        have hd := exIsle_detour hus hne
        simp only [walkLength] at hlen
        norm_num at hlen hd
        linarith
      subst hu
      cases r with
      | nil => rfl
      | cons x r =>
        rw [List.getLast?_cons_cons] at hl
        have := List.mem_of_getLast? hl
        exact absurd this (List.nodup_cons.1 (List.nodup_cons.1 hnd).2).1

/-- **C75** The condition on the places cannot be dropped: at a single convex island, with every vertex
in an orderly position to it, the path from an unlucky start goes through the island, though the
index finds the line blocked. -/
theorem C75_start_false {A : Arith Dbl} {w : Dbl} (hA : A.DoubleLike w none) (hw : w.1 = 1) :
    ¬ ∀ (T : ℕ → Polygon.SumTree) (ps : List (List Coord))
      (scanner : Coord → Res (List (Coord × Bool))) (order : List Coord → List Coord) (E : Env)
      (s d : Coord), ps.length = 1 → Chart T ps → Voyage T ps scanner order E s d →
      E.graph.polygons.flatten.Nodup → (∀ p ∈ ps, Outside p s) → d ∈ ps.flatten →
      ∀ (allow : Bool) (path : List Coord), Query A E s d allow (.ok path) →
      E.crossings ⟨s, d⟩ = [] ∧ path = [s, d] ∨ IsWalk (SeaLeg ps E) s d path := by
  intro h
  have hV := exIsle_voyage
  obtain ⟨⟨r, hq⟩, -⟩ := C43_outcome _ hA.sound exIsleEnv hV.made hV.ord exNear exBehind false
  have hpoly : exIsleEnv.graph.polygons = exIsle := by
    obtain ⟨g, f, h1, -, h2, -⟩ := C38_edges Polygon.SumTree.sequential exIsle (by decide) _
      (exScanner_ok _ _) id fun l => List.Perm.refl l
    rw [exIsle_graph] at h1
    cases h1
    exact h2
  obtain ⟨N, hp⟩ := hV.searched (by simp [exIsleEnv]) false
  obtain ⟨path, rfl⟩ := (C46_failure A hA.sound exIsleEnv hV.made hV.ord exNear exBehind false N _ hp).1
    ⟨[exNear, exBehind], ⟨rfl, rfl, by simpa using exIsle_leg⟩, fun _ _ => by rw [hA.over]; rfl⟩ r hq
  obtain rfl := exIsle_path hA hw false path hq
  rcases h _ exIsle _ _ exIsleEnv exNear exBehind rfl exIsle_chart hV (by rw [hpoly]; decide) (by decide)
    (by decide) false _ hq with ⟨h, -⟩ | ⟨-, -, h⟩
  · cases h
  · rw [List.isChain_pair] at h
    rcases h with ⟨-, h⟩ | ⟨h, -⟩
    · exact exIsle_blocked h
    · exact exIsle_plain h

end Capi
