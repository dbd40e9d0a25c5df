import Verif.Props.Around
import Verif.Props.Meridian
import Verif.Spec.Relations

/-!
# C97: relations between answers

What two or three answers for the same waters say about one another: the way there and the way back,
the same query on another run, on a map with more land, and a voyage in two stages.
-/

namespace Capi

open ShortestPath Vistree Visgraph

/-- A query for `s` and `d` in waters that can be read off the map: everything asked for in C90 and
C92 except that there is something in the way. -/
structure Trip (T : ℕ → Polygon.SumTree) (ps : List (List Coord))
    (scanner : Coord → Res (List (Coord × Bool))) (order : List Coord → List Coord) (E : Env)
    (s d : Coord) : Prop where
  charted : Charted T ps
  voyage : Voyage T ps scanner order E s d
  nodup : E.graph.polygons.flatten.Nodup
  src : Position ps s
  dst : Position ps d

variable {T T' T₁ T₂ : ℕ → Polygon.SumTree} {ps ps' : List (List Coord)}
  {scanner scanner' scanner₁ scanner₂ : Coord → Res (List (Coord × Bool))}
  {order order' order₁ order₂ : List Coord → List Coord} {E E' E₁ E₂ : Env} {s d m : Coord}

theorem atSea_add {a b : ℂ} (k : ℤ) (h : AtSea (Ashore ps) a b) :
    AtSea (Ashore ps) (a + ((k * 360000001 : ℤ) : ℝ)) (b + ((k * 360000001 : ℤ) : ℝ)) := by
  intro z hz hl
  refine h _ (segment_add hz) ?_
  rw [← ashore_add k]
  convert hl using 1
  ring

theorem lineLength_add (a b c : ℂ) : lineLength (a + c) (b + c) = lineLength a b := by
  unfold lineLength
  rw [add_sub_add_right_eq_sub]

theorem lineLength_symm (a b : ℂ) : lineLength a b = lineLength b a := by
  unfold lineLength
  rw [norm_sub_rev]

theorem walkLength_map {V W : Type} (f : V → W) {len : W → W → ℝ} {len' : V → V → ℝ}
    (h : ∀ a b, len (f a) (f b) = len' a b) :
    ∀ l : List V, walkLength len (l.map f) = walkLength len' l
  | [] => rfl
  | [_] => rfl
  | a :: b :: r => by
    have := walkLength_map f h (b :: r)
    simp only [List.map_cons, walkLength] at this ⊢
    rw [this, h]

/-- A course moved round the globe. -/
theorem course_moved (k : ℤ) {a b : ℂ} {course : List ℂ}
    (h : IsWalk (AtSea (Ashore ps)) a b course) :
    ∃ course', IsWalk (AtSea (Ashore ps)) (a + ((k * 360000001 : ℤ) : ℝ))
      (b + ((k * 360000001 : ℤ) : ℝ)) course' ∧
      walkLength lineLength course' = walkLength lineLength course := by
  refine ⟨course.map (· + ((k * 360000001 : ℤ) : ℝ)), ⟨?_, ?_, ?_⟩,
    walkLength_map _ (fun a b => lineLength_add a b _) _⟩
  · rw [List.head?_map, h.1]
    rfl
  · rw [List.getLast?_map, h.2.1]
    rfl
  · rw [List.isChain_map]
    exact h.2.2.imp fun a b hab => atSea_add k hab

theorem walkLength_join {V : Type} (len : V → V → ℝ) (x : V) (t : List V) :
    ∀ l : List V, l.getLast? = some x →
      walkLength len (l ++ t) = walkLength len l + walkLength len (x :: t)
  | [], h => by cases h
  | [a], h => by
    obtain rfl : a = x := by simpa using h
    simp [walkLength]
  | a :: b :: r, h => by
    rw [List.getLast?_cons_cons] at h
    have := walkLength_join len x t (b :: r) h
    simp only [List.cons_append, walkLength] at this ⊢
    rw [this]
    ring

theorem walk_reverse {V : Type} {edge : V → V → Prop} (h : ∀ {a b}, edge a b → edge b a) {a b : V}
    {l : List V} (hw : IsWalk edge a b l) : IsWalk edge b a l.reverse := by
  refine ⟨by rw [List.head?_reverse, hw.2.1], by rw [List.getLast?_reverse, hw.1], ?_⟩
  rw [List.isChain_reverse]
  exact hw.2.2.imp fun _ _ => h

theorem walk_join {V : Type} {edge : V → V → Prop} {len : V → V → ℝ} {a b c : V}
    {l l' : List V} (h : IsWalk edge a b l) (h' : IsWalk edge b c l') :
    ∃ l'', IsWalk edge a c l'' ∧ walkLength len l'' = walkLength len l + walkLength len l' := by
  obtain ⟨h1, h2, h3⟩ := h
  obtain ⟨g1, g2, g3⟩ := h'
  cases l' with
  | nil => cases g1
  | cons x t =>
    obtain rfl : x = b := by simpa using g1
    refine ⟨l ++ t, ⟨?_, ?_, ?_⟩, walkLength_join len x t l h2⟩
    · rw [List.head?_append, h1]
      rfl
    · cases t with
      | nil =>
        rw [List.append_nil, h2]
        simpa using g2
      | cons y r =>
        rw [List.getLast?_append]
        rw [List.getLast?_cons_cons] at g2
        rw [g2]
        rfl
    · rw [List.isChain_append]
      refine ⟨h3, (List.isChain_cons.1 g3).2, ?_⟩
      intro u hu v hv
      rw [h2] at hu
      obtain rfl : x = u := by simpa using hu
      exact (List.isChain_cons.1 g3).1 v hv

theorem Sails.back {L : ℝ} (h : Sails ps s d L) : Sails ps d s L := by
  obtain ⟨k, course, h1, h2⟩ := h
  obtain ⟨c', g1, g2⟩ := course_moved (-k) (walk_reverse atSea_symm h1)
  refine ⟨-k, c', ?_, ?_⟩
  · rw [← shift_pt, ← shift_pt, shift_shift, add_neg_cancel, shift_zero] at g1
    exact g1
  · rw [g2, walkLength_reverse lineLength_symm, h2]

theorem Sails.via {L L' : ℝ} (h : Sails ps s m L) (h' : Sails ps m d L') :
    Sails ps s d (L + L') := by
  obtain ⟨k, course, h1, h2⟩ := h
  obtain ⟨k', course', g1, g2⟩ := h'
  obtain ⟨c, c1, c2⟩ := course_moved k g1
  rw [← shift_pt, ← shift_pt, shift_shift] at c1
  obtain ⟨l, l1, l2⟩ := walk_join (len := lineLength) h1 c1
  exact ⟨_, l, l1, by rw [l2, c2, h2, g2]⟩

theorem Sails.mono {L : ℝ} (hl : Ashore ps ⊆ Ashore ps') (h : Sails ps' s d L) :
    Sails ps s d L := by
  obtain ⟨k, course, h1, h2⟩ := h
  exact ⟨k, course, ⟨h1.1, h1.2.1, h1.2.2.imp fun _ _ hab z hz hin => hab z hz (hl hin)⟩, h2⟩

theorem Detour.symm (h : Detour ps s d) : Detour ps d s :=
  ⟨h.ne.symm, fun k => h.blocked (atSea_symm k), h.direct.verts,
    fun e he hn v hv => h.direct.ends e he.symm hn v (by tauto)⟩

/-- An answer is a course. -/
theorem Trip.sails {D : Type} [LinearOrder D] {A : Arith D} (hA : A.Sound)
    (h : Trip T ps scanner order E s d) (ht : NoTurn ps) {allow : Bool} {path : List Coord}
    (hq : Query A E s d allow (.ok path)) (hb : E.crossings ⟨s, d⟩ ≠ []) :
    Sails ps s d (walkLength (legLength E) path) := by
  rcases C92_course A hA h.charted h.voyage h.nodup h.src h.dst ht allow path hq with h1 | h1
  · exact absurd h1.1 hb
  · exact h1

/-- A course bounds the answer. -/
theorem Trip.bounded {A : Arith Dbl} {w : Dbl} (hA : A.DoubleLike w none) (h0 : 0 ≤ w.1)
    (h : Trip T ps scanner order E s d) (hsize : ps.flatten.length ≤ 499998) (hd : Detour ps s d)
    {L : ℝ} (hL : Sails ps s d L) (hshort : L < 360000001 / 1000000) {allow : Bool}
    {r : Res (List Coord)} (hq : Query A E s d allow r) :
    ∃ path, r = .ok path ∧ (E.crossings ⟨s, d⟩ = [] ∧ path = [s, d] ∨
      walkLength (legLength E) path ≤ (1 + 1 / 10 ^ 8) * (max 1 ((w.1 : ℚ) : ℝ) * L)) := by
  obtain ⟨k, course, h1, rfl⟩ := hL
  obtain ⟨path, h2, h3⟩ := C92_path hA h0 h.charted h.voyage hsize h.nodup h.src h.dst hd.ne
    hd.blocked hd.direct k course h1 hshort allow r hq
  exact ⟨path, h2, h3.imp id And.right⟩

/-- **C97** More land does not make a path shorter: the path found on a map, under the conditions of
C92, is at most as long, up to rounding and the greediness weighting, as every path of less than one
turn of the globe found by a search on a map with that land and more; and if there is one there, one
is found here. -/
theorem C97_land {A : Arith Dbl} {w : Dbl} (hA : A.DoubleLike w none) (h0 : 0 ≤ w.1)
    {D : Type} [LinearOrder D] {B : Arith D} (hB : B.Sound)
    (h : Trip T ps scanner order E s d) (hsize : ps.flatten.length ≤ 499998) (hd : Detour ps s d)
    (h' : Trip T' ps' scanner' order' E' s d) (ht : NoTurn ps') (hl : Ashore ps ⊆ Ashore ps')
    (allow allow' : Bool) (path' : List Coord) (hq' : Query B E' s d allow' (.ok path'))
    (hb : E'.crossings ⟨s, d⟩ ≠ [])
    (hshort : walkLength (legLength E') path' < 360000001 / 1000000)
    (r : Res (List Coord)) (hq : Query A E s d allow r) :
    ∃ path, r = .ok path ∧ (E.crossings ⟨s, d⟩ = [] ∧ path = [s, d] ∨
      walkLength (legLength E) path ≤ (1 + 1 / 10 ^ 8) *
        (max 1 ((w.1 : ℚ) : ℝ) * walkLength (legLength E') path')) :=
  h.bounded hA h0 hsize hd ((h'.sails hB ht hq' hb).mono hl) hshort hq

/-- **C97** Another run for the same waters, however the land is cut into polygons and whatever the
hash orders, the rounding and the index, gives a path of the same length, up to rounding and the
greediness weighting. -/
theorem C97_again {A : Arith Dbl} {w : Dbl} (hA : A.DoubleLike w none) (h0 : 0 ≤ w.1)
    {B : Arith Dbl} {w' : Dbl} (hB : B.DoubleLike w' none) (h0' : 0 ≤ w'.1)
    (h : Trip T ps scanner order E s d) (hsize : ps.flatten.length ≤ 499998) (hd : Detour ps s d)
    (ht : NoTurn ps) (h' : Trip T' ps' scanner' order' E' s d)
    (hsize' : ps'.flatten.length ≤ 499998) (hd' : Detour ps' s d) (ht' : NoTurn ps')
    (hl : Ashore ps = Ashore ps') (hb : E.crossings ⟨s, d⟩ ≠ []) (hb' : E'.crossings ⟨s, d⟩ ≠ [])
    (allow allow' : Bool) (r r' : Res (List Coord)) (hq : Query A E s d allow r)
    (hq' : Query B E' s d allow' r')
    (hsome : ∃ L, Sails ps s d L ∧
      (1 + 1 / 10 ^ 8) * (max 1 ((w.1 : ℚ) : ℝ) * L) < 360000001 / 1000000 ∧
      (1 + 1 / 10 ^ 8) * (max 1 ((w'.1 : ℚ) : ℝ) * L) < 360000001 / 1000000) :
    ∃ path path', r = .ok path ∧ r' = .ok path' ∧
      walkLength (legLength E) path ≤ (1 + 1 / 10 ^ 8) *
        (max 1 ((w.1 : ℚ) : ℝ) * walkLength (legLength E') path') ∧
      walkLength (legLength E') path' ≤ (1 + 1 / 10 ^ 8) *
        (max 1 ((w'.1 : ℚ) : ℝ) * walkLength (legLength E) path) := by
  obtain ⟨L, hL, k1, k2⟩ := hsome
  have hL' : Sails ps' s d L := hL.mono hl.symm.subset
  have hnn : 0 ≤ L := by
    obtain ⟨k, course, -, rfl⟩ := hL
    exact AStar.walkLength_nonneg (fun a b => div_nonneg (norm_nonneg _) (by norm_num)) course
  have k3 : L < 360000001 / 1000000 := by
    refine lt_of_le_of_lt ?_ k1
    have : (1 : ℝ) ≤ max 1 ((w.1 : ℚ) : ℝ) := le_max_left _ _
    nlinarith
  obtain ⟨path, rfl, p1⟩ := h.bounded hA h0 hsize hd hL k3 hq
  obtain ⟨path', rfl, p1'⟩ := h'.bounded hB h0' hsize' hd' hL' k3 hq'
  have p2 := p1.resolve_left fun e => hb e.1
  have p2' := p1'.resolve_left fun e => hb' e.1
  refine ⟨path, path', rfl, rfl, ?_, ?_⟩
  · obtain ⟨q, e, g⟩ := h.bounded hA h0 hsize hd
      ((h'.sails hB.sound ht' hq' hb').mono hl.subset) (lt_of_le_of_lt p2' k2) hq
    cases e
    exact g.resolve_left fun e => hb e.1
  · obtain ⟨q, e, g⟩ := h'.bounded hB h0' hsize' hd'
      ((h.sails hA.sound ht hq hb).mono hl.symm.subset) (lt_of_le_of_lt p2 k1) hq'
    cases e
    exact g.resolve_left fun e => hb' e.1

/-- **C97** The way back: it is found if the way there is, and is at most as long as that, up to
rounding and the greediness weighting. -/
theorem C97_back {A : Arith Dbl} {w : Dbl} (hA : A.DoubleLike w none) (h0 : 0 ≤ w.1)
    {D : Type} [LinearOrder D] {B : Arith D} (hB : B.Sound)
    (h : Trip T ps scanner order E s d) (ht : NoTurn ps)
    (h' : Trip T' ps scanner' order' E' d s) (hsize : ps.flatten.length ≤ 499998)
    (hd : Detour ps s d) (allow allow' : Bool) (path : List Coord)
    (hq : Query B E s d allow (.ok path)) (hb : E.crossings ⟨s, d⟩ ≠ [])
    (hshort : walkLength (legLength E) path < 360000001 / 1000000)
    (r : Res (List Coord)) (hr : Query A E' d s allow' r) :
    ∃ path', r = .ok path' ∧ (E'.crossings ⟨d, s⟩ = [] ∧ path' = [d, s] ∨
      walkLength (legLength E') path' ≤ (1 + 1 / 10 ^ 8) *
        (max 1 ((w.1 : ℚ) : ℝ) * walkLength (legLength E) path)) :=
  h'.bounded hA h0 hsize hd.symm (h.sails hB ht hq hb).back hshort hr

/-- **C97** A voyage in two stages: if there is a path to some point and one from there, together
shorter than one turn of the globe, then there is one for the whole voyage, and it is at most as long
as the two, up to rounding and the greediness weighting. -/
theorem C97_via {A : Arith Dbl} {w : Dbl} (hA : A.DoubleLike w none) (h0 : 0 ≤ w.1)
    {D : Type} [LinearOrder D] {B : Arith D} (hB : B.Sound)
    (h₁ : Trip T₁ ps scanner₁ order₁ E₁ s m) (h₂ : Trip T₂ ps scanner₂ order₂ E₂ m d)
    (ht : NoTurn ps) (h : Trip T ps scanner order E s d) (hsize : ps.flatten.length ≤ 499998)
    (hd : Detour ps s d) (allow allow₁ allow₂ : Bool) (path₁ path₂ : List Coord)
    (hq₁ : Query B E₁ s m allow₁ (.ok path₁)) (hb₁ : E₁.crossings ⟨s, m⟩ ≠ [])
    (hq₂ : Query B E₂ m d allow₂ (.ok path₂)) (hb₂ : E₂.crossings ⟨m, d⟩ ≠ [])
    (hshort : walkLength (legLength E₁) path₁ + walkLength (legLength E₂) path₂ <
      360000001 / 1000000)
    (r : Res (List Coord)) (hq : Query A E s d allow r) :
    ∃ path, r = .ok path ∧ (E.crossings ⟨s, d⟩ = [] ∧ path = [s, d] ∨
      walkLength (legLength E) path ≤ (1 + 1 / 10 ^ 8) * (max 1 ((w.1 : ℚ) : ℝ) *
        (walkLength (legLength E₁) path₁ + walkLength (legLength E₂) path₂))) :=
  h.bounded hA h0 hsize hd ((h₁.sails hB ht hq₁ hb₁).via (h₂.sails hB ht hq₂ hb₂)) hshort hq

/-! ### Between the havens -/

theorem exHavens_trip : Trip Polygon.SumTree.sequential exHavens
    (exScanner Polygon.SumTree.sequential exHavens) id exHavensEnv exHavenE exHavenW :=
  ⟨exHavens_charted, exHavens_voyage, exHavens_nodup, (exHavens_legible exHavenE (by simp)).2,
    (exHavens_legible exHavenW (by simp)).2⟩

theorem exHavens_detour : Detour exHavens exHavenE exHavenW :=
  ⟨by decide, exHavens_blocked, exHavens_direct⟩

theorem exHavens_to {a b : Coord} (ha : a.Geo) (hb : b.Geo) : Voyage Polygon.SumTree.sequential
    exHavens (exScanner Polygon.SumTree.sequential exHavens) id exHavensEnv a b :=
  .direct (by decide) exHavens_charted.stable (exScanner_ok _ _) (fun l => List.Perm.refl l)
    exHavens_graph (fun _ => ⟨_, _, _, List.Perm.refl _, List.Perm.refl _, exLook_ok, rfl⟩)
    (fun l => List.Perm.refl l) ha hb ⟨rfl, rfl⟩

theorem exHavens_sails : Sails exHavens exHavenE exHavenW
    (walkLength lineLength (exHavensCourse.map Coord.pt)) :=
  ⟨1, _, exHavens_course, rfl⟩

/-- The path between the havens. -/
theorem exHavens_path {A : Arith Dbl} {w : Dbl} (hA : A.DoubleLike w none) (hw : w.1 = 1) :
    ∃ path, Query A exHavensEnv exHavenE exHavenW false (.ok path) ∧
      walkLength (legLength exHavensEnv) path < 33 := by
  have hV := exHavens_voyage
  obtain ⟨⟨r, hq⟩, -⟩ := C43_outcome _ hA.sound exHavensEnv hV.made hV.ord exHavenE exHavenW false
  have hlen := exHavens_length
  obtain ⟨path, rfl, ⟨h, -⟩ | h⟩ := exHavens_trip.bounded hA (by rw [hw]; norm_num) (by decide)
    exHavens_detour exHavens_sails (by linarith) hq
  · cases h
  · refine ⟨path, hq, ?_⟩
    rw [hw] at h
    norm_num at h
    linarith

/-- Non-vacuity of `C97_again` and `C97_back`: between the havens, and back. -/
example {A : Arith Dbl} {w : Dbl} (hA : A.DoubleLike w none) (hw : w.1 = 1) :
    (∀ r r', Query A exHavensEnv exHavenE exHavenW false r →
      Query A exHavensEnv exHavenE exHavenW true r' →
      ∃ path path', r = .ok path ∧ r' = .ok path' ∧ walkLength (legLength exHavensEnv) path ≤
        (1 + 1 / 10 ^ 8) * (max 1 ((w.1 : ℚ) : ℝ) * walkLength (legLength exHavensEnv) path')) ∧
    ∀ r, Query A exHavensEnv exHavenW exHavenE false r →
      ∃ path, r = .ok path ∧ walkLength (legLength exHavensEnv) path < 34 := by
  have h0 : 0 ≤ w.1 := by rw [hw]; norm_num
  have hlen := exHavens_length
  have hb : ∀ e, exHavensEnv.crossings e ≠ [] := by simp [exHavensEnv]
  constructor
  · intro r r' hq hq'
    obtain ⟨path, path', h1, h2, h3, -⟩ := C97_again hA h0 hA h0 exHavens_trip (by decide)
      exHavens_detour exHavens_noTurn exHavens_trip (by decide) exHavens_detour exHavens_noTurn rfl
      (hb _) (hb _) false true r r' hq hq' ⟨_, exHavens_sails, by rw [hw]; norm_num; linarith,
        by rw [hw]; norm_num; linarith⟩
    exact ⟨path, path', h1, h2, h3⟩
  · intro r hq
    obtain ⟨path, hp, hlt⟩ := exHavens_path hA hw
    obtain ⟨path', h1, h2⟩ := C97_back hA h0 hA.sound exHavens_trip exHavens_noTurn
      ⟨exHavens_charted, exHavens_to (by decide) (by decide), exHavens_nodup, exHavens_trip.dst,
        exHavens_trip.src⟩ (by decide) exHavens_detour false false path hp (hb _) (by linarith) r hq
    refine ⟨path', h1, ?_⟩
    have := h2.resolve_left fun e => hb _ e.1
    rw [hw] at this
    norm_num at this
    linarith

/-- The southern cape of the eastern bay. -/
def exBayCape : Coord := ⟨168950000, -1000000⟩

theorem exBayCape_detour : Detour exHavens exBayCape exHavenW := by
  refine ⟨by decide, ?_, exHavens_direct.verts, ?_⟩
  · intro h
    refine h (⟨498805, -404152⟩ : Coord).pt ⟨25173 / 50000, 24827 / 50000, by norm_num, by norm_num,
      by norm_num, ?_⟩ (mem_ashore.2 ⟨[⟨-1000000, -20000000⟩, ⟨2000000, -21000000⟩,
        ⟨500000, 22000000⟩], by decide, 0, ?_⟩)
    · apply Complex.ext <;> simp [Coord.pt, exBayCape, exHavenW] <;> norm_num
    · rw [map_shift_zero]
      exact (C89_count _ _ (offB_sound (by decide +kernel))).2.2 (by decide +kernel)
  · intro e he hn v hv hve
    have hc : exBayCape ∈ exHavens.flatten := by decide
    rcases he with rfl | rfl
    · exact absurd hc hn
    · refine exHavens_direct.ends _ (Or.inr rfl) hn v ?_ hve
      rcases hv with rfl | rfl | hv
      · exact Or.inr (Or.inr hc)
      · exact absurd rfl hve
      · exact Or.inr (Or.inr hv)

/-- Non-vacuity of `C97_via`: from the one haven to its southern cape, and on to the other. -/
example {A : Arith Dbl} {w : Dbl} (hA : A.DoubleLike w none) (hw : w.1 = 1) :
    ∃ path₁ path₂, Query A exHavensEnv exHavenE exBayCape false (.ok path₁) ∧
      Query A exHavensEnv exBayCape exHavenW false (.ok path₂) ∧
      ∀ r, Query A exHavensEnv exHavenE exHavenW false r →
      ∃ path, r = .ok path ∧ walkLength (legLength exHavensEnv) path ≤ (1 + 1 / 10 ^ 8) *
        (walkLength (legLength exHavensEnv) path₁ + walkLength (legLength exHavensEnv) path₂) := by
  have h0 : 0 ≤ w.1 := by rw [hw]; norm_num
  have hlen := exHavens_length
  have hb : ∀ e, exHavensEnv.crossings e ≠ [] := by simp [exHavensEnv]
  have hc : Position exHavens exBayCape := Or.inl (by decide)
  have v₁ := exHavens_to (a := exHavenE) (b := exBayCape) (by decide) (by decide)
  have v₂ := exHavens_to (a := exBayCape) (b := exHavenW) (by decide) (by decide)
  have t₁ : Trip _ _ _ _ _ _ _ := ⟨exHavens_charted, v₁, exHavens_nodup, exHavens_trip.src, hc⟩
  have t₂ : Trip _ _ _ _ _ _ _ := ⟨exHavens_charted, v₂, exHavens_nodup, hc, exHavens_trip.dst⟩
  obtain ⟨⟨r₁, hq₁⟩, -⟩ := C43_outcome _ hA.sound exHavensEnv v₁.made v₁.ord exHavenE exBayCape false
  obtain ⟨path₁, rfl, h₁⟩ := voyage_length' hA _ _ _ _ _ _ _ v₁ (by decide) [exHavenE, exBayCape]
    ⟨rfl, rfl, by
      simp only [List.isChain_cons_cons, List.isChain_singleton, and_true]
      exact ⟨by decide, seesB_sound (by decide +kernel), seesB_sound (by decide +kernel),
        by decide⟩⟩ (by decide) h0 false r₁ hq₁
  have l₁ : walkLength (legLength exHavensEnv) path₁ < 3 := by
    have g := h₁.resolve_left fun e => hb _ e.1
    have := planeDist_lt (a := exHavenE) (b := exBayCape) (k := 0) (n := 2000000) (by norm_num)
      (by decide)
    rw [hw] at g
    norm_num [walkLength] at g this
    linarith
  have s₁ := t₁.sails hA.sound exHavens_noTurn hq₁ (hb _)
  have s₂ := s₁.back.via exHavens_sails
  obtain ⟨⟨r₂, hq₂⟩, -⟩ := C43_outcome _ hA.sound exHavensEnv v₂.made v₂.ord exBayCape exHavenW false
  obtain ⟨path₂, rfl, h₂⟩ := t₂.bounded hA h0 (by decide) exBayCape_detour s₂ (by linarith) hq₂
  have l₂ : walkLength (legLength exHavensEnv) path₂ < 40 := by
    have g := h₂.resolve_left fun e => hb _ e.1
    rw [hw] at g
    norm_num at g
    linarith
  refine ⟨path₁, path₂, hq₁, hq₂, fun r hq => ?_⟩
  obtain ⟨path, h3, h4⟩ := C97_via hA h0 hA.sound t₁ t₂ exHavens_noTurn exHavens_trip (by decide)
    exHavens_detour false false false path₁ path₂ hq₁ (hb _) hq₂ (hb _) (by linarith) r hq
  refine ⟨path, h3, ?_⟩
  have g := h4.resolve_left fun e => hb _ e.1
  rw [hw] at g
  norm_num at g ⊢
  exact g

/-! ### More land -/

/-- A long wall and an island, and on the way between them a rock. -/
def exWalled : List (List Coord) :=
  [[⟨-1000000, -20000000⟩, ⟨2000000, -21000000⟩, ⟨500000, 22000000⟩],
    [⟨170000000, -3000000⟩, ⟨174000000, -2000000⟩, ⟨172500000, 6000000⟩]]
@[inherit_doc exWalled] def exRocky : List (List Coord) :=
  exWalled ++ [[⟨85000000, -13000000⟩, ⟨87000000, -12700000⟩, ⟨86200000, -11000000⟩]]

/-- The far cape of the island, and the near foot of the wall. -/
def exFarCape : Coord := ⟨174000000, -2000000⟩
@[inherit_doc exFarCape] def exFoot : Coord := ⟨-1000000, -20000000⟩

/-- A map with its generated graph; the straight line between the capes is blocked by the wall. -/
def exMapEnv (ps : List (List Coord)) : Env where
  graph := (generate ps (exScanner Polygon.SumTree.sequential ps) id).toOption.getD Graph.empty
  onLand _ := false
  closest _ := .error .exn
  project _ c := .ok c
  crossings _ := [⟨⟨-1000000, -20000000⟩, ⟨500000, 22000000⟩⟩]
  reach e := scanC exLook (ofPolygons ps) e (vertices (ofPolygons ps))
    (segments (ofPolygons ps)) false
  ord l := l

theorem exMap_trip {a b : Coord} (h : Charted Polygon.SumTree.sequential ps) (hn : ps.flatten.Nodup)
    (ha : Position ps a) (hb : Position ps b) (ga : a.Geo) (gb : b.Geo) :
    Trip Polygon.SumTree.sequential ps (exScanner Polygon.SumTree.sequential ps) id (exMapEnv ps)
      a b := by
  obtain ⟨g, f, h1, -, h2, -⟩ := C38_edges Polygon.SumTree.sequential ps h.geo _
    (exScanner_ok _ _) id fun l => List.Perm.refl l
  have hg : generate ps (exScanner Polygon.SumTree.sequential ps) id = .ok (exMapEnv ps).graph := by
    unfold exMapEnv
    dsimp only
    rw [h1]
    rfl
  refine ⟨h, .direct h.geo h.stable (exScanner_ok _ _) (fun l => List.Perm.refl l) hg
    (fun _ => ⟨_, _, _, List.Perm.refl _, List.Perm.refl _, exLook_ok, rfl⟩)
    (fun l => List.Perm.refl l) ga gb ⟨rfl, rfl⟩, ?_, ha, hb⟩
  rw [hg] at h1
  cases h1
  rw [h2]
  exact hn

theorem exWalled_charted : Charted Polygon.SumTree.sequential exWalled :=
  ChartedBy.charted (by decide +kernel)

theorem exRocky_charted : Charted Polygon.SumTree.sequential exRocky :=
  ChartedBy.charted (by decide +kernel)

theorem exRocky_vertices : ∀ v ∈ exRocky.flatten,
    Legible false (polygonsPeriodic Polygon.SumTree.sequential exRocky) v := by
  have key : ∀ v ∈ exRocky.flatten,
      LegibleBy false (polygonsPeriodic Polygon.SumTree.sequential exRocky) v := by
    decide +kernel
  exact fun v hv => (key v hv).legible

/-- What is kept by the sweeps from the vertices. -/
theorem exRocky_kept : ∀ u ∈ exRocky.flatten, ∀ w ∈ exKept exRocky u,
    w = u.shift 1 ∨ w = u.shift (-1) ∨ |w.lon - u.lon| < 360000001 := by
  decide +kernel

theorem exRocky_noTurn : NoTurn exRocky := by
  have hC := exRocky_charted
  intro u hu v hv huv k hk hs
  have g1 := hC.geo u hu
  have g2 := hC.geo v hv
  rcases exRocky_kept u hu _ (kept_of_sea hC g1 (exRocky_vertices u hu) hv (Or.inr hk) (by
    intro e
    have e1 := congrArg Coord.lon e
    simp only [Coord.shift, Coord.Geo] at g1 g2 e1
    omega) hs) with e | e | h
  · exact absurd (copy_eq g2 g1 e).symm huv
  · exact absurd (copy_eq g2 g1 e).symm huv
  · exact h

theorem exWalled_detour : Detour exWalled exFarCape exFoot := by
  refine ⟨by decide, ?_, ?_, ?_⟩
  · intro h
    refine h (⟨-125000, -19910000⟩ : Coord).pt ⟨1 / 200, 199 / 200, by norm_num, by norm_num,
      by norm_num, ?_⟩ (mem_ashore.2 ⟨[⟨-1000000, -20000000⟩, ⟨2000000, -21000000⟩,
        ⟨500000, 22000000⟩], by decide, 0, ?_⟩)
    · apply Complex.ext <;> simp [Coord.pt, exFarCape, exFoot] <;> norm_num
    · rw [map_shift_zero]
      exact (C89_count _ _ (offB_sound (by decide +kernel))).2.2 (by decide +kernel)
  · intro u hu v hv h0 k hk _
    refine ⟨h0, planeDist_le ?_⟩
    have key : ∀ u ∈ exWalled.flatten, ∀ v ∈ exWalled.flatten, |u.lon - v.lon| ≤ 180000000 := by decide
    have := key u hu v hv
    rw [abs_le] at this
    rcases hk with rfl | rfl <;> (simp only [abs, max_def]; split_ifs <;> omega)
  · intro e he hn
    exact absurd (by rcases he with rfl | rfl <;> decide) hn

/-- Round the rock and under the wall. -/
theorem exRocky_chain : IsWalk (SightLeg exRocky) exFarCape exFoot [exFarCape, ⟨170000000, -3000000⟩,
    ⟨87000000, -12700000⟩, ⟨85000000, -13000000⟩, ⟨2000000, -21000000⟩, exFoot] := by
  refine ⟨rfl, rfl, ?_⟩
  simp only [List.isChain_cons_cons, List.isChain_singleton, and_true]
  refine ⟨⟨by decide, seesB_sound ?_, seesB_sound ?_, by decide⟩,
    ⟨by decide, seesB_sound ?_, seesB_sound ?_, by decide⟩,
    ⟨by decide, seesB_sound ?_, seesB_sound ?_, by decide⟩,
    ⟨by decide, seesB_sound ?_, seesB_sound ?_, by decide⟩,
    ⟨by decide, seesB_sound ?_, seesB_sound ?_, by decide⟩⟩ <;> decide +kernel

/-- Non-vacuity of `C97_land`: on the map with the rock there is a path round it, and without the
rock one that is not longer. -/
example {A : Arith Dbl} {w : Dbl} (hA : A.DoubleLike w none) (hw : w.1 = 1) :
    ∃ path', Query (exactArith 1 none) (exMapEnv exRocky) exFarCape exFoot false (.ok path') ∧
      ∀ r, Query A (exMapEnv exWalled) exFarCape exFoot false r → ∃ path, r = .ok path ∧
        walkLength (legLength (exMapEnv exWalled)) path ≤
          (1 + 1 / 10 ^ 8) * walkLength (legLength (exMapEnv exRocky)) path' := by
  have h0 : 0 ≤ w.1 := by rw [hw]; norm_num
  have hb : ∀ ps e, (exMapEnv ps).crossings e ≠ [] := by simp [exMapEnv]
  have t := exMap_trip exWalled_charted (by decide) (a := exFarCape) (b := exFoot) (Or.inl (by decide))
    (Or.inl (by decide)) (by decide) (by decide)
  have t' := exMap_trip exRocky_charted (by decide) (a := exFarCape) (b := exFoot) (Or.inl (by decide))
    (Or.inl (by decide)) (by decide) (by decide)
  have hV := t'.voyage
  have hS := exact_sound 1 none
  obtain ⟨⟨r, hq⟩, -⟩ := C43_outcome _ hS (exMapEnv exRocky) hV.made hV.ord exFarCape exFoot false
  obtain ⟨path', rfl⟩ := C61_found _ hS (fun _ => rfl) _ _ _ _ _ _ _ hV _
    ⟨exRocky_chain.1, exRocky_chain.2.1, exRocky_chain.2.2.imp fun _ _ h => Or.inl h⟩
    (by decide) false r hq
  obtain ⟨N, hN⟩ := hV.searched (hb _ _) false
  obtain ⟨r1, r2⟩ := hV.route exRocky_chain (by decide)
  have hle := C44_shortest (exMapEnv exRocky) hV.made hV.ord _ _ false N _ hN hV.ready.2 1
    (by norm_num) le_rfl path' hq _ r1
  rw [r2] at hle
  have hshort : walkLength (legLength (exMapEnv exRocky)) path' < 360000001 / 1000000 := by
    have h1 := planeDist_lt (a := exFarCape) (b := ⟨170000000, -3000000⟩) (k := 0) (n := 5000000)
      (by norm_num) (by decide)
    have h2 := planeDist_lt (a := ⟨170000000, -3000000⟩) (b := ⟨87000000, -12700000⟩) (k := 0)
      (n := 90000000) (by norm_num) (by decide)
    have h3 := planeDist_lt (a := ⟨87000000, -12700000⟩) (b := ⟨85000000, -13000000⟩) (k := 0)
      (n := 5000000) (by norm_num) (by decide)
    have h4 := planeDist_lt (a := ⟨85000000, -13000000⟩) (b := ⟨2000000, -21000000⟩) (k := 0)
      (n := 90000000) (by norm_num) (by decide)
    have h5 := planeDist_lt (a := ⟨2000000, -21000000⟩) (b := exFoot) (k := 0) (n := 5000000)
      (by norm_num) (by decide)
    simp only [walkLength] at hle
    norm_num at h1 h2 h3 h4 h5
    linarith
  refine ⟨path', hq, fun r hr => ?_⟩
  obtain ⟨path, h1, h2⟩ := C97_land hA h0 hS t (by decide) exWalled_detour t' exRocky_noTurn
    (fun z hz => by
      obtain ⟨p, hp, j, hj⟩ := mem_ashore.1 hz
      exact mem_ashore.2 ⟨p, List.mem_append_left _ hp, j, hj⟩) false false path' hq (hb _ _)
    hshort r hr
  refine ⟨path, h1, ?_⟩
  have g := h2.resolve_left fun e => hb _ _ e.1
  rw [hw] at g
  norm_num at g ⊢
  exact g

/-- The coast of C82 with a rock close to the ship. -/
def exCoastRock : List (List Coord) :=
  exCoast ++ [[⟨179500000, 100000⟩, ⟨179300000, 300000⟩, ⟨179200000, 0⟩]]

/-- The generated graph, and the straight line meeting the island, as for `exCoast`. -/
def exCoastRockEnv : Env where
  graph := (generate exCoastRock (exScanner Polygon.SumTree.sequential exCoastRock) id).toOption.getD
    Graph.empty
  onLand _ := false
  closest _ := .error .exn
  project _ c := .ok c
  crossings _ := [⟨exNearTip, ⟨-179900000, -2000000⟩⟩]
  reach obs := scanC exLook (ofPolygons exCoastRock) obs (vertices (ofPolygons exCoastRock))
    (segments (ofPolygons exCoastRock)) false
  ord l := l

theorem exCoastRock_graph : generate exCoastRock
    (exScanner Polygon.SumTree.sequential exCoastRock) id = .ok exCoastRockEnv.graph := by
  obtain ⟨g, f, h1, -⟩ := C38_edges Polygon.SumTree.sequential exCoastRock (by decide) _
    (exScanner_ok _ _) id fun l => List.Perm.refl l
  unfold exCoastRockEnv
  dsimp only
  rw [h1]
  rfl

theorem exCoastRock_voyage : Voyage Polygon.SumTree.sequential exCoastRock
    (exScanner Polygon.SumTree.sequential exCoastRock) id exCoastRockEnv exShip exPort := by
  refine .direct (by decide) ?_ (exScanner_ok _ _) (fun l => List.Perm.refl l)
    exCoastRock_graph
    (fun _ => ⟨_, _, _, List.Perm.refl _, List.Perm.refl _, exLook_ok, rfl⟩)
    (fun l => List.Perm.refl l) (by decide) (by decide) ⟨rfl, rfl⟩
  intro p hp k hk
  simp only [exCoastRock, exCoast, List.mem_cons, List.mem_append, List.not_mem_nil, or_false]
    at hp
  rcases hp with (rfl | rfl) | rfl <;> rcases hk with rfl | rfl | rfl <;> decide +kernel

/-- By the rock and across the meridian to the tip of the island. -/
theorem exCoastRock_chain : IsWalk (fun u v => SightLeg exCoastRock u v ∨ CopyLeg exCoastRock u v)
    exShip exPort [exShip, ⟨179500000, 100000⟩, exNearTip, exPort] := by
  refine ⟨rfl, rfl, ?_⟩
  simp only [List.isChain_cons_cons, List.isChain_singleton, and_true]
  refine ⟨Or.inl ⟨by decide, seesB_sound ?_, seesB_sound ?_, by decide⟩,
    Or.inr ⟨by decide, by decide, by decide, 1, Or.inl rfl, seesCopyB_sound ?_, seesCopyB_sound ?_⟩,
    Or.inl ⟨by decide, seesB_sound ?_, seesB_sound ?_, by decide⟩⟩ <;> decide +kernel

theorem exCoastRock_crossing :
    CrossesMeridian exCoastRockEnv ⟨179500000, 100000⟩ exNearTip := by
  obtain ⟨g, f, h1, hf, -, -, -, hiff⟩ := C38_edges Polygon.SumTree.sequential exCoastRock
    (by decide) _ (exScanner_ok _ _) id fun l => List.Perm.refl l
  rw [exCoastRock_graph] at h1
  cases h1
  have key : (match exScanner Polygon.SumTree.sequential exCoastRock ⟨179500000, 100000⟩,
      exScanner Polygon.SumTree.sequential exCoastRock exNearTip with
    | .ok l, .ok m => decide (((exNearTip, true) ∈ l ∨ (⟨179500000, 100000⟩, true) ∈ m) ∧
        (exNearTip, false) ∉ l ∧ (⟨179500000, 100000⟩, false) ∉ m)
    | _, _ => false) = true := by decide +kernel
  rw [hf _ (by decide), hf _ (by decide)] at key
  obtain ⟨k1, k2, k3⟩ := of_decide_eq_true key
  exact (hiff _ _).2.1.2 ⟨(hiff _ _).1.2 ⟨by decide, by decide, by decide, true, k1⟩, k2, k3⟩

/-- **C97** (false) More land does not make a path shorter.  From the ship of C82, where every path
goes 28° or more the other way, a rock close by makes for one of less than 2°: a point that is not a
vertex is only joined to what it sees without crossing the meridian, and from the rock the tip of the
island is seen across it. -/
theorem C97_land_false :
    ∃ (T : ℕ → Polygon.SumTree) (ps ps' : List (List Coord))
      (scanner scanner' : Coord → Res (List (Coord × Bool))) (order : List Coord → List Coord)
      (E E' : Env) (s d : Coord), (∀ p ∈ ps, p ∈ ps') ∧ Voyage T ps scanner order E s d ∧
      Voyage T ps' scanner' order E' s d ∧
      (∃ path, Query (exactArith 1 none) E s d false (.ok path)) ∧
      (∃ path, Query (exactArith 1 none) E' s d false (.ok path)) ∧
      (∀ path, Query (exactArith 1 none) E s d false (.ok path) →
        28 ≤ walkLength (legLength E) path) ∧
      ∀ path, Query (exactArith 1 none) E' s d false (.ok path) →
        walkLength (legLength E') path < 2 := by
  have hV := exCoast_voyage
  have hW := exCoastRock_voyage
  have hS := exact_sound 1 none
  refine ⟨_, exCoast, exCoastRock, _, _, _, _, _, exShip, exPort,
    fun p hp => List.mem_append_left _ hp, hV, hW, ?_, ?_, ?_, ?_⟩
  · obtain ⟨⟨r, hq⟩, -⟩ := C43_outcome _ hS exCoastEnv hV.made hV.ord exShip exPort false
    obtain ⟨path, rfl⟩ := C61_found _ hS (fun _ => rfl) _ _ _ _ _ _ _ hV _
      ⟨exCoast_chain.1, exCoast_chain.2.1, exCoast_chain.2.2.imp fun _ _ h => Or.inl h⟩
      (by decide) false r hq
    exact ⟨path, hq⟩
  · obtain ⟨⟨r, hq⟩, -⟩ := C43_outcome _ hS exCoastRockEnv hW.made hW.ord exShip exPort false
    obtain ⟨path, rfl⟩ := C61_found _ hS (fun _ => rfl) _ _ _ _ _ _ _ hW _ exCoastRock_chain
      (by decide) false r hq
    exact ⟨path, hq⟩
  · intro path hq
    obtain ⟨N, hN⟩ := hV.searched (by simp [exCoastEnv]) false
    refine C82_first _ hS exCoastEnv exCoastEnv.graph.polygons hV.geo' hV.made hV.verts hV.reach
      hV.ord _ _ false N _ hN hV.src hV.dst (fun h => absurd ((hV.mem_flatten _).1 h) (by decide))
      (by decide) 28 ?_ path hq
    intro v hv
    have h := planeDist_ge_lon exShip v 28000000 (by norm_num) (by
      rw [hV.mem_flatten] at hv
      revert v
      decide)
    norm_num at h ⊢
    exact h
  · intro path hq
    obtain ⟨N, hN⟩ := hW.searched (by simp [exCoastRockEnv]) false
    refine lt_of_le_of_lt (C44_shortest _ hW.made hW.ord _ _ false N _ hN hW.ready.2 1 (by norm_num)
      le_rfl path hq _ (hW.mixed exCoastRock_chain (by decide))) ?_
    have l1 : legLength exCoastRockEnv exShip ⟨179500000, 100000⟩ =
        planeDist exShip ⟨179500000, 100000⟩ 0 :=
      legLength_new hW.made hW.verts
        (Or.inl fun h => absurd ((hW.mem_flatten _).1 h) (by decide))
    have l3 : legLength exCoastRockEnv exNearTip exPort = planeDist exNearTip exPort 0 :=
      legLength_new hW.made hW.verts
        (Or.inr fun h => absurd ((hW.mem_flatten _).1 h) (by decide))
    have l2 : legLength exCoastRockEnv ⟨179500000, 100000⟩ exNearTip ≤
        planeDist ⟨179500000, 100000⟩ exNearTip (-1) := by
      unfold legLength
      rw [if_pos exCoastRock_crossing]
      exact min_le_right _ _
    have d1 := planeDist_lt (a := exShip) (b := ⟨179500000, 100000⟩) (k := 0) (n := 500000)
      (by norm_num) (by decide)
    have d2 := planeDist_lt (a := ⟨179500000, 100000⟩) (b := exNearTip) (k := -1) (n := 1000000)
      (by norm_num) (by decide)
    have d3 := planeDist_lt (a := exNearTip) (b := exPort) (k := 0) (n := 300000)
      (by norm_num) (by decide)
    simp only [walkLength]
    rw [l1, l3]
    norm_num at d1 d2 d3
    linarith

end Capi
