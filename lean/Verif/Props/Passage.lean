import Verif.Lemmas.Passage
import Verif.Props.Archipelago
import Verif.Props.Strait

/-!
# C101: voyages among small islands

The land and the straight line are asked of S2, the graph is that of the map.  Among stout islands both
fit together: what is answered keeps to the sea of the map.
-/

namespace Capi

open Sphere ShortestPath Vistree Visgraph

section

variable {T : ℕ → Polygon.SumTree} {ps : List (List Coord)}
  {scanner : Coord → Res (List (Coord × Bool))} {order : List Coord → List Coord} {E : Env}
  {s d : Coord}

theorem stout_interior {W : ℤ} {vs : List Coord} (h : Stout W vs) : Inland vs = Interior vs :=
  convex_interior (stout_convex h) h.nodup h.three

/-- **C101** A place in the offing is water, on the map and for S2. -/
theorem C101_offing (L : Libm) (hL : L.Ok) (inside : List Point → Point → Prop)
    (hi : ConvexRules L inside) (S : Queries) (hB : S.ByLoops L ps inside) (p : Coord)
    (h : Offing ps p) :
    onLand L S p = false ∧ ∀ vs ∈ ps, p.pt ∉ Interior vs ∧ p.pt ∉ Coast vs := by
  refine ⟨C99_afloat L hL inside hi ps S hB p (Temperate.geo h.1) h.2, fun vs hv => ?_⟩
  obtain ⟨W, hs, ho⟩ := h.2 vs hv
  obtain ⟨e, he, ht⟩ := offing_out hs ho
  constructor
  · rw [← stout_interior hs]
    intro hin
    exact absurd (hin e he) (not_lt.2 ht.le)
  · intro hco
    exact absurd (coast_left (stout_convex hs) (by have := hs.three; omega) hco he) (not_le.2 ht)

/-- A line that goes deep into an island is reported. -/
theorem overland_meets (L : Libm) (hL : L.Ok) (S : Queries) (hS : CrossRules L ps S) {W V : ℤ}
    {vs : List Coord} (hm : vs ∈ ps) (h : Stout W vs) (hs : s.Geo) (hd : d.Geo)
    (ho : Overland L V vs s d) : crossings L S ⟨s, d⟩ ≠ [] := by
  have hg := Stout.geo h
  obtain ⟨z, hz, hdeep⟩ := ho.deep
  obtain ⟨r, t, r0, t0, hrt, rfl⟩ := hz
  have h0 : ∃ v, v ∈ vs := List.exists_mem_of_length_pos (by have := h.three; omega)
  have hV0 : 0 ≤ V := by
    obtain ⟨v, hv⟩ := h0
    exact (abs_nonneg _).trans (ho.size v hv v hv).1
  obtain ⟨g, hg', ht⟩ := entry (C99_convex L hL h) (s := toPoint L s) (d := toPoint L d) (t := t) (by
      obtain ⟨e, he, hb⟩ := ho.out
      obtain ⟨m1, m2⟩ := segment_ends he
      refine ⟨(toPoint L e.p, toPoint L e.q), ?_, ?_⟩
      · rw [loopEdges_loop]
        exact List.mem_map.2 ⟨e, he, rfl⟩
      · exact det_neg hL (hg _ m1) (hg _ m2) hs (sphereDet_right ho.most (h.place _ m1).2
          (ho.size _ m1 _ m2) (ho.start _ m1) hb)) t0 (by linarith) (by
      intro g hg'
      rw [loopEdges_loop] at hg'
      obtain ⟨e, he, rfl⟩ := List.mem_map.1 hg'
      obtain ⟨m1, m2⟩ := segment_ends he
      have k := hdeep e he
      rw [turn_comb2 _ _ _ _ hrt, turn_pt, turn_pt] at k
      refine mix_left hV0 (cos_half (h.place _ m1).2) k ?_
      have k1 := det_micro hL ho.most (hg _ m1) (hg _ m2) hs (ho.size _ m1 _ m2) (ho.start _ m1)
      have k2 := det_micro hL ho.most (hg _ m1) (hg _ m2) hd (ho.size _ m1 _ m2) (ho.finish _ m1)
      dsimp only
      set A : ℝ := (det (toPoint L e.p) (toPoint L e.q) (toPoint L s) : ℝ)
      set B : ℝ := (det (toPoint L e.p) (toPoint L e.q) (toPoint L d) : ℝ)
      set c : ℝ := Real.cos (rad e.p.lat)
      set M : ℝ := 4 * ((V : ℝ) * micro) ^ 3 + 1 / 2 ^ 41
      obtain rfl : r = 1 - t := by linarith
      have e1 : (1 - t) * A + t * B - c * (((1 - t) * (area2 e.p e.q s : ℤ) +
          t * (area2 e.p e.q d : ℤ)) * micro ^ 2) =
          (1 - t) * (A - c * ((area2 e.p e.q s : ℤ) * micro ^ 2)) +
          t * (B - c * ((area2 e.p e.q d : ℤ) * micro ^ 2)) := by ring
      rw [e1]
      refine (abs_add_le _ _).trans ?_
      rw [abs_mul, abs_mul, abs_of_nonneg r0, abs_of_nonneg t0]
      have p1 := mul_le_mul_of_nonneg_left k1 r0
      have p2 := mul_le_mul_of_nonneg_left k2 t0
      linarith) (by
      intro v hv
      obtain ⟨c, hc, rfl⟩ := List.mem_map.1 hv
      exact ho.corner c hc)
  unfold crossings
  rw [Ne, List.map_eq_nil_iff]
  exact hS.all s d hs hd vs hm g hg' ht

/-- **C101** A straight line that goes deep into an island on the map, or crosses a side by the margin,
meets a coast for S2, and is not over the sea of the map. -/
theorem C101_hindered (L : Libm) (hL : L.Ok) (S : Queries) (hS : CrossRules L ps S)
    (hst : ∀ vs ∈ ps, ∃ W, Stout W vs) (hs : Temperate s) (hd : Temperate d)
    (h : Hindered L ps s d) :
    crossings L S ⟨s, d⟩ ≠ [] ∧ ¬ AtSea (Ashore ps) s.pt d.pt ∧ s ≠ d := by
  have hps : ∀ v ∈ ps.flatten, Temperate v := by
    intro v hv
    obtain ⟨vs, hm, hv⟩ := List.mem_flatten.1 hv
    obtain ⟨W, hw⟩ := hst vs hm
    exact hw.place v hv
  have zero : ∀ {vs} {x : ℂ}, vs ∈ ps → x ∈ Interior vs → x ∈ Ashore ps := by
    intro vs x hm hx
    exact mem_ashore.2 ⟨vs, hm, 0, by rwa [map_shift_zero]⟩
  rcases h with ⟨vs, hm, V, ho⟩ | ⟨e, he, W, hW, hx⟩
  · obtain ⟨W, hw⟩ := hst vs hm
    refine ⟨overland_meets L hL S hS hm hw (Temperate.geo hs) (Temperate.geo hd) ho, ?_, ?_⟩
    · intro hsea
      obtain ⟨z, hz, hdeep⟩ := ho.deep
      refine hsea z hz (zero hm ?_)
      rw [← stout_interior hw]
      intro e he
      have k := hdeep e (segments_edge.2 he)
      have hV0 : (0 : ℝ) ≤ V := by
        obtain ⟨v, hv⟩ := List.exists_mem_of_length_pos (l := vs) (by have := hw.three; omega)
        exact_mod_cast (abs_nonneg _).trans (ho.size v hv v hv).1
      have : (0 : ℝ) ≤ (V : ℝ) ^ 3 := by positivity
      linarith
    · rintro rfl
      obtain ⟨v, hv⟩ := List.exists_mem_of_length_pos (l := vs) (by have := hw.three; omega)
      exact ho.corner v hv (by simp only [det]; ring)
  · have hW0 : 0 ≤ W := (abs_nonneg _).trans (hx.1 s (by simp) s (by simp)).1
    refine ⟨C100_athwart L hL ps S hS hps s d hs (Temperate.geo hd) e he W hW hx, ?_, ?_⟩
    · intro hsea
      obtain ⟨vs, hm, i, hi, rfl⟩ := he
      obtain ⟨W', hw⟩ := hst vs hm
      have henc := convex_encloses (stout_convex hw) hw.nodup hw.three
      have hE : EdgeOf [vs] ⟨ringAt vs i, ringAt vs (i + 1)⟩ := ⟨vs, by simp, i, hi, rfl⟩
      dsimp only at hx
      set p := ringAt vs i
      set q := ringAt vs (i + 1)
      have fin : ∀ {x y u v : ℤ}, (0 < x ∧ y < 0 ∧ 0 < u ∧ v < 0) ∨
          (x < 0 ∧ 0 < y ∧ u < 0 ∧ 0 < v) → x = area2 s d q → y = area2 s d p → u = area2 p q s →
          v = area2 p q d → False := by
        intro x y u v hsg e1 e2 e3 e4
        -- the point in common
        have hrel : x - y = v * (-1) + u := by rw [e1, e2, e3, e4]; unfold area2; ring
        have key : ∀ {lam : ℝ}, lam = (u : ℝ) / (u - v) → 0 < lam → lam < 1 →
            (1 - lam) • s.pt + lam • d.pt ∈ openSegment ℝ p.pt q.pt := by
          intro lam hl l0 l1
          refine ⟨(x : ℝ) / (x - y), -(y : ℝ) / (x - y), ?_, ?_, ?_, ?_⟩
          · rcases hsg with ⟨h1, h2, -⟩ | ⟨h1, h2, -⟩
            · have a1 : (0 : ℝ) < x := by exact_mod_cast h1
              have a2 : (y : ℝ) < 0 := by exact_mod_cast h2
              exact div_pos a1 (by linarith)
            · have a1 : (x : ℝ) < 0 := by exact_mod_cast h1
              have a2 : (0 : ℝ) < y := by exact_mod_cast h2
              exact div_pos_of_neg_of_neg a1 (by linarith)
          · rcases hsg with ⟨h1, h2, -⟩ | ⟨h1, h2, -⟩
            · have a1 : (0 : ℝ) < x := by exact_mod_cast h1
              have a2 : (y : ℝ) < 0 := by exact_mod_cast h2
              exact div_pos (by linarith) (by linarith)
            · have a1 : (x : ℝ) < 0 := by exact_mod_cast h1
              have a2 : (0 : ℝ) < y := by exact_mod_cast h2
              exact div_pos_of_neg_of_neg (by linarith) (by linarith)
          · have hne : (x : ℝ) - y ≠ 0 := by
              have : x - y ≠ 0 := by omega
              exact_mod_cast this
            field_simp
            ring
          · have hne : (x : ℝ) - y ≠ 0 := by
              have : x - y ≠ 0 := by omega
              exact_mod_cast this
            have hne' : (u : ℝ) - v ≠ 0 := by
              have : u - v ≠ 0 := by omega
              exact_mod_cast this
            have hxy : (x : ℝ) - y = u - v := by
              have : x - y = u - v := by omega
              exact_mod_cast this
            rw [hl, hxy]
            subst e1 e2 e3 e4
            apply Complex.ext
            · simp only [Complex.add_re, Complex.smul_re, smul_eq_mul, Coord.pt]
              field_simp
              unfold area2
              push_cast
              ring
            · simp only [Complex.add_im, Complex.smul_im, smul_eq_mul, Coord.pt]
              field_simp
              unfold area2
              push_cast
              ring
        have hlam : 0 < (u : ℝ) / (u - v) ∧ (u : ℝ) / (u - v) < 1 := by
          rcases hsg with ⟨-, -, h1, h2⟩ | ⟨-, -, h1, h2⟩
          · have a1 : (0 : ℝ) < u := by exact_mod_cast h1
            have a2 : (v : ℝ) < 0 := by exact_mod_cast h2
            have a3 : (0 : ℝ) < u - v := by linarith
            exact ⟨div_pos a1 a3, by rw [div_lt_one a3]; linarith⟩
          · have a1 : (u : ℝ) < 0 := by exact_mod_cast h1
            have a2 : (0 : ℝ) < v := by exact_mod_cast h2
            have a3 : (u : ℝ) - v < 0 := by linarith
            exact ⟨div_pos_of_neg_of_neg a1 a3, by rw [div_lt_one_of_neg a3]; linarith⟩
        have hsea' : AtSea (Inland vs) s.pt d.pt := by
          intro z hz hin
          rw [stout_interior hw] at hin
          exact hsea z hz (zero hm hin)
        obtain ⟨k1, k2⟩ := not_left henc hsea' hE
          (z := (1 - (u : ℝ) / (u - v)) • s.pt + ((u : ℝ) / (u - v)) • d.pt)
          ⟨_, _, by linarith [hlam.2], hlam.1.le, by ring, rfl⟩ (key rfl hlam.1 hlam.2)
        dsimp only at k1 k2
        rw [turn_pt, ← e3] at k1
        rw [turn_pt, ← e4] at k2
        have k1' : u ≤ 0 := by exact_mod_cast k1
        have k2' : v ≤ 0 := by exact_mod_cast k2
        omega
      obtain ⟨-, ⟨h1, h2, h3, h4⟩ | ⟨h1, h2, h3, h4⟩⟩ := hx
      · have g1 := beyond_pos hW0 h1
        have g2 := beyond_pos hW0 h2
        have g3 := beyond_pos hW0 h3
        have g4 := beyond_pos hW0 h4
        exact fin (Or.inl ⟨g1, by omega, g3, by omega⟩) rfl rfl rfl rfl
      · have g1 := beyond_pos hW0 h1
        have g2 := beyond_pos hW0 h2
        have g3 := beyond_pos hW0 h3
        have g4 := beyond_pos hW0 h4
        exact fin (Or.inr ⟨by omega, g2, by omega, g4⟩) rfl rfl rfl rfl
    · rintro rfl
      have hz : ∀ c : Coord, area2 s s c = 0 := fun c => by unfold area2; ring
      obtain ⟨-, ⟨h1, -⟩ | ⟨h1, -⟩⟩ := hx <;>
      · have := beyond_pos hW0 h1
        rw [hz] at this
        omega

/-- **C101** If every side is asunder from the straight line between two places in the offing, that line
is the answer, whatever the graph, and it is over the sea of the map. -/
theorem C101_unhindered {D : Type} [LinearOrder D] (A : Arith D) (L : Libm) (hL : L.Ok)
    (inside : List Point → Point → Prop) (hi : ConvexRules L inside) (S : Queries)
    (hB : S.ByLoops L ps inside) (hS : CrossRules L ps S) (E : Env) (hs : Offing ps s)
    (hd : Offing ps d) (h : Unhindered ps s d) (allow : Bool) (r : Res (List Coord)) :
    (Query A (env L S E) s d allow r ↔ r = .ok [s, d]) ∧ AtSea (Ashore ps) s.pt d.pt := by
  have hps : ∀ v ∈ ps.flatten, Temperate v := by
    intro v hv
    obtain ⟨vs, hm, hv⟩ := List.mem_flatten.1 hv
    obtain ⟨W, hw, -⟩ := hs.2 vs hm
    exact hw.place v hv
  obtain ⟨s1, -⟩ := C101_offing L hL inside hi S hB s hs
  obtain ⟨d1, d2⟩ := C101_offing L hL inside hi S hB d hd
  refine ⟨C100_direct A L hL ps S hS hps E s d hs.1 hd.1 ⟨s1, d1⟩ h allow r, ?_⟩
  have simple : ∀ p ∈ ps, SimpleRing p ∧ 0 < twiceArea p := by
    intro p hp
    obtain ⟨W, hw, -⟩ := hs.2 p hp
    exact ⟨convex_simple (stout_convex hw) hw.nodup hw.three,
      convex_left (stout_convex hw) hw.nodup hw.three⟩
  refine ashore_near (K := 0) (fun p hp => (simple p hp).1) (fun p hp => (simple p hp).2)
    (fun v hv => Temperate.geo (hps v hv)) ?_ ?_ fun p hp j hj => ?_
  · have := hs.1.1
    omega
  · have := hd.1.1
    omega
  · obtain rfl : j = 0 := abs_nonpos_iff.1 hj
    rw [map_shift_zero]
    refine outside_line (simple_noRepeat (simple p hp).1) (fun i hi => ?_) (d2 p hp).2 (d2 p hp).1
    obtain ⟨W, w1, w2, n1, n2, ha⟩ := h ⟨ringAt p i, ringAt p (i + 1)⟩ ⟨p, hp, i, hi, rfl⟩
    dsimp only at n2 ha
    set a := ringAt p i
    set b := ringAt p (i + 1)
    unfold EdgesApart
    have side : ∀ {a b c d : Coord}, OneSide (5 * W) a b c d → 0 < area2 a b c * area2 a b d := by
      rintro a b c d (⟨h1, h2⟩ | ⟨h1, h2⟩)
      · exact mul_pos (beyond_pos (by omega) h1) (beyond_pos (by omega) h2)
      · exact mul_pos_of_neg_of_neg (by have := beyond_pos (by omega) h1; omega)
          (by have := beyond_pos (by omega) h2; omega)
    rcases ha with h1 | h1 | h1
    · have hn := h1 s (by simp) a (by simp)
      obtain ⟨x1, x2⟩ := n1
      obtain ⟨y1, y2⟩ := n2
      rw [abs_le] at x1 x2 y1 y2
      simp only [Nearby, not_and_or, abs_le] at hn
      omega
    · exact Or.inl (side h1)
    · exact Or.inr (Or.inl (side h1))

/-- The setting of C61 with the land of S2, for places in the offing. -/
theorem voyage_sphere (L : Libm) (hL : L.Ok) (inside : List Point → Point → Prop)
    (hi : ConvexRules L inside) (S : Queries) (hB : S.ByLoops L ps inside)
    (hv : Voyage T ps scanner order { E with onLand := fun _ => false } s d) (hs : Offing ps s)
    (hd : Offing ps d) : Voyage T ps scanner order (env L S E) s d :=
  ⟨hv.geo, hv.stable, hv.scan, hv.perm, hv.graph, hv.made, hv.obstacles, hv.reach, hv.ord, hv.src,
    hv.dst, (C101_offing L hL inside hi S hB s hs).1, (C101_offing L hL inside hi S hB d hd).1⟩

theorem offing_position (L : Libm) (hL : L.Ok) (inside : List Point → Point → Prop)
    (hi : ConvexRules L inside) (S : Queries) (hB : S.ByLoops L ps inside) {p : Coord}
    (h : Offing ps p) (hl : Legible false ps p) : Position ps p :=
  Or.inr ⟨hl, fun vs hv => ((C101_offing L hL inside hi S hB p h).2 vs hv).1⟩

/-- **C101** Whatever the straight line, a path between places in the offing keeps to the sea of the map,
or it is the straight line, which then neither goes deep into an island nor crosses a side by the
margin. -/
theorem C101_safe {D : Type} [LinearOrder D] (A : Arith D) (hA : A.Sound) (L : Libm) (hL : L.Ok)
    (inside : List Point → Point → Prop) (hi : ConvexRules L inside) (S : Queries)
    (hB : S.ByLoops L ps inside) (hS : CrossRules L ps S) (h : Charted T ps)
    (hv : Voyage T ps scanner order { E with onLand := fun _ => false } s d)
    (hdup : E.graph.polygons.flatten.Nodup) (hs : Offing ps s) (hd : Offing ps d)
    (ls : Legible false ps s) (ld : Legible false ps d) (allow : Bool) (path : List Coord)
    (hq : Query A (env L S E) s d allow (.ok path)) :
    IsWalk (LegOver (Ashore ps) (env L S E)) s d path ∨ path = [s, d] ∧ ¬ Hindered L ps s d := by
  have hv' := voyage_sphere L hL inside hi S hB hv hs hd
  rcases C90_path_sea A hA h hv' hdup (offing_position L hL inside hi S hB hs ls)
    (offing_position L hL inside hi S hB hd ld) allow path hq with ⟨h1, h2⟩ | h1
  · refine Or.inr ⟨h2, fun hh => ?_⟩
    exact (C101_hindered L hL S hS (fun vs hm => by
      obtain ⟨W, hw, -⟩ := hs.2 vs hm
      exact ⟨W, hw⟩) hs.1 hd.1 hh).1 h1
  · exact Or.inl h1

/-- **C101** If the straight line goes deep into an island on the map, or crosses a side by the margin,
and there is some course over the sea, a path is returned; it keeps to the sea and is at most as long as
that course, up to rounding and the greediness weighting. -/
theorem C101_round {A : Arith Dbl} {w : Dbl} (hA : A.DoubleLike w none) (h0 : 0 ≤ w.1) (L : Libm)
    (hL : L.Ok) (inside : List Point → Point → Prop) (hi : ConvexRules L inside) (S : Queries)
    (hB : S.ByLoops L ps inside) (hS : CrossRules L ps S) (h : Charted T ps)
    (hv : Voyage T ps scanner order { E with onLand := fun _ => false } s d)
    (hsize : ps.flatten.length ≤ 499998) (hdup : E.graph.polygons.flatten.Nodup)
    (hs : Offing ps s) (hd : Offing ps d) (ls : Legible false ps s) (ld : Legible false ps d)
    (hh : Hindered L ps s d) (course : List ℂ)
    (hc : IsWalk (AtSea (⋃ p ∈ ps, Interior p)) s.pt d.pt course)
    (allow : Bool) (r : Res (List Coord)) (hq : Query A (env L S E) s d allow r) :
    ∃ path, r = .ok path ∧ IsWalk (LegOver (Ashore ps) (env L S E)) s d path ∧
      walkLength (legLength (env L S E)) path ≤ (1 + 1 / 10 ^ 8) *
        (max 1 ((w.1 : ℚ) : ℝ) * walkLength lineLength course) := by
  have hv' := voyage_sphere L hL inside hi S hB hv hs hd
  obtain ⟨k1, k2, k3⟩ := C101_hindered L hL S hS (fun vs hm => by
      obtain ⟨W, hw, -⟩ := hs.2 vs hm
      exact ⟨W, hw⟩) hs.1 hd.1 hh
  obtain ⟨path, rfl, ⟨h1, -⟩ | h1⟩ := C90_path hA h0 h hv' hsize hdup
    (offing_position L hL inside hi S hB hs ls) (offing_position L hL inside hi S hB hd ld) k3 k2
    course hc allow r hq
  · exact absurd h1 k1
  · exact ⟨path, rfl, h1⟩

end

/-! ### A narrow island -/

/-- A narrow island, no two corners of it on one latitude. -/
def exSkerry : List Coord :=
  [⟨0, 45000000⟩, ⟨20000, 45001000⟩, ⟨21000, 45100000⟩, ⟨500, 45099000⟩]

theorem exSkerry_stout : Stout 100000 exSkerry where
  least := by decide
  most := by decide
  three := by decide
  nodup := by decide
  place := by unfold exSkerry; decide
  near := by unfold exSkerry Nearby; decide
  turn := by unfold exSkerry Beyond; decide +kernel

theorem exSkerry_offing {p : Coord} (hp : Temperate p)
    (h : ∃ e ∈ Polygon.segments exSkerry, Beyond 300000 (-area2 e.p e.q p)) : Offing [exSkerry] p := by
  refine ⟨hp, fun vs hv => ?_⟩
  rw [List.mem_singleton] at hv
  subst hv
  exact ⟨100000, exSkerry_stout, Or.inr h⟩

theorem exSkerry_charted : Charted Polygon.SumTree.sequential [exSkerry] :=
  ChartedBy.charted (by decide +kernel)

/-- West and east of the island, and its north. -/
def exSkerryW : Coord := ⟨-60000, 45050000⟩
@[inherit_doc exSkerryW] def exSkerryE : Coord := ⟨80000, 45050000⟩
@[inherit_doc exSkerryW] def exSkerryN : Coord := ⟨10000, 45200000⟩

theorem exSkerry_overland {L : Libm} (hL : L.Ok) : Overland L 100000 exSkerry exSkerryW exSkerryE where
  most := by decide
  size := by unfold exSkerry Nearby; decide
  start := by unfold exSkerry Nearby; decide
  finish := by unfold exSkerry Nearby; decide
  out := by unfold exSkerry Beyond; decide +kernel
  deep := by
    refine ⟨(⟨10000, 45050000⟩ : Coord).pt, ⟨1 / 2, 1 / 2, by norm_num, by norm_num, by norm_num, ?_⟩,
      fun e he => ?_⟩
    · apply Complex.ext <;> simp [exSkerryW, exSkerryE, Coord.pt] <;> norm_num
    · rw [turn_pt]
      have key : ∀ e ∈ Polygon.segments exSkerry, Beyond 100000 (area2 e.p e.q ⟨10000, 45050000⟩) := by
        unfold exSkerry Beyond; decide +kernel
      have := key e he
      unfold Beyond at this
      exact_mod_cast this
  corner := by
    intro v hv
    have key : ∀ v ∈ exSkerry, v.Geo ∧ Nearby 150000 exSkerryW v ∧
        (Beyond 150000 (area2 exSkerryW exSkerryE v) ∨ Beyond 150000 (-area2 exSkerryW exSkerryE v)) := by
      unfold exSkerry Nearby Beyond; decide +kernel
    obtain ⟨g, n, h | h⟩ := key v hv
    · exact (det_pos hL (by decide) (by decide) g (sphereDet_left (W := 150000) (by decide) (by decide)
        (by unfold Nearby; decide) n h)).ne'
    · exact (det_neg hL (by decide) (by decide) g (sphereDet_right (W := 150000) (by decide) (by decide)
        (by unfold Nearby; decide) n h)).ne

theorem exSkerry_course : IsWalk (AtSea (⋃ p ∈ [exSkerry], Interior p)) exSkerryW.pt exSkerryE.pt
    ([exSkerryW, exSkerryN, exSkerryE].map Coord.pt) := by
  have hleg : ∀ a b : Coord, (∀ p ∈ [exSkerry], (∀ i < p.length,
      EdgesApart a b (ringAt p i) (ringAt p (i + 1))) ∧ offB p b = true ∧ passes p b = 0) →
      AtSea (⋃ p ∈ [exSkerry], Interior p) a.pt b.pt := by
    intro a b h z hz hin
    obtain ⟨p, hp, hin⟩ := Set.mem_iUnion₂.1 hin
    obtain ⟨h1, h2, h3⟩ := h p hp
    have hb := offB_sound h2
    exact outside_line (simple_noRepeat (exSkerry_charted.simple p hp)) h1 hb
      (fun k => ((C89_count _ _ hb).2.1 k) h3) z hz hin
  refine ⟨rfl, rfl, ?_⟩
  simp only [List.map_cons, List.map_nil, List.isChain_cons_cons, List.isChain_singleton, and_true]
  refine ⟨hleg _ _ ?_, hleg _ _ ?_⟩ <;> decide +kernel

/-- Non-vacuity of C101: the straight line goes through a narrow island; with the land and the crossings
of S2 and the graph of the map a path over the sea is returned, about as short as the way by the
north. -/
example (sq : ℚ → Dbl) (hsq : SqrtOk fun q => (sq q).1) (hsq0 : ∀ x, 0 ≤ (sq x).1) (w : Dbl)
    (hw : w.1 = 1) : ∃ (L : Libm) (S : Queries), L.Ok ∧ CrossRules L [exSkerry] S ∧
    S.ByLoops L [exSkerry] InCone ∧ Hindered L [exSkerry] exSkerryW exSkerryE ∧
    ∃ path, Query (doubleArith sq w none) (env L S (arcEnv [exSkerry])) exSkerryW exSkerryE false (.ok path) ∧
      IsWalk (LegOver (Ashore [exSkerry]) (env L S (arcEnv [exSkerry]))) exSkerryW exSkerryE path ∧
      walkLength (legLength (env L S (arcEnv [exSkerry]))) path ≤ (1 + 1 / 10 ^ 8) *
        (max 1 ((w.1 : ℚ) : ℝ) *
          walkLength lineLength ([exSkerryW, exSkerryN, exSkerryE].map Coord.pt)) := by
  obtain ⟨L, hL⟩ := exists_libm
  obtain ⟨S, hB, hS⟩ := exists_index L InCone [exSkerry]
  have hi : ConvexRules L InCone := ⟨fun _ _ _ _ _ h => h, fun _ _ _ _ h hp => inCone_of_left h hp⟩
  have h0 : 0 ≤ w.1 := by rw [hw]; norm_num
  have hl := double_like sq hsq hsq0 w h0 none
  have hh : Hindered L [exSkerry] exSkerryW exSkerryE :=
    Or.inl ⟨exSkerry, by simp, 100000, exSkerry_overland hL⟩
  have ow : Offing [exSkerry] exSkerryW :=
    exSkerry_offing (by unfold Temperate; decide) (by unfold exSkerry Beyond; decide +kernel)
  have oe : Offing [exSkerry] exSkerryE :=
    exSkerry_offing (by unfold Temperate; decide) (by unfold exSkerry Beyond; decide +kernel)
  have hv := arcEnv_voyage [exSkerry] (s := exSkerryW) (d := exSkerryE) (by decide) exSkerry_charted.stable
    (by decide) (by decide)
  have hv' : Voyage Polygon.SumTree.sequential [exSkerry]
      (exScanner Polygon.SumTree.sequential [exSkerry]) id
      { arcEnv [exSkerry] with onLand := fun _ => false } exSkerryW exSkerryE := hv
  have hdup : (arcEnv [exSkerry]).graph.polygons.flatten.Nodup := by
    obtain ⟨g, f, h1, -, h2, -⟩ := C38_edges Polygon.SumTree.sequential [exSkerry] (by decide) _
      (exScanner_ok _ _) id fun l => List.Perm.refl l
    have : (arcEnv [exSkerry]).graph = g := by
      unfold arcEnv
      dsimp only
      rw [h1]
      rfl
    rw [this, h2]
    decide
  have vv := voyage_sphere L hL InCone hi S hB hv' ow oe
  obtain ⟨⟨r, hq⟩, -⟩ := C43_outcome _ hl.sound (env L S (arcEnv [exSkerry])) vv.made vv.ord exSkerryW
    exSkerryE false
  obtain ⟨path, rfl, hp⟩ := C101_round hl h0 L hL InCone hi S hB hS exSkerry_charted hv' (by decide) hdup
    ow oe (LegibleBy.legible (by decide +kernel)) (LegibleBy.legible (by decide +kernel)) hh _
    exSkerry_course false r hq
  exact ⟨L, S, hL, hS, hB, hh, path, hq, hp⟩

/-- Non-vacuity of `C101_unhindered`: a course past the reef. -/
example : Offing [exSkerry] ⟨-200000, 45100000⟩ ∧ Offing [exSkerry] ⟨-200000, 45000000⟩ ∧
    Unhindered [exSkerry] ⟨-200000, 45100000⟩ ⟨-200000, 45000000⟩ := by
  refine ⟨exSkerry_offing (by unfold Temperate; decide) (by unfold exSkerry Beyond; decide +kernel),
    exSkerry_offing (by unfold Temperate; decide) (by unfold exSkerry Beyond; decide +kernel), ?_⟩
  rintro e ⟨p, hp, i, hi, rfl⟩
  rw [List.mem_singleton] at hp
  subst hp
  refine ⟨100000, by decide, by decide, by unfold Nearby; decide, ?_, Or.inr (Or.inl (Or.inl ?_))⟩
  · revert hi
    unfold Nearby exSkerry
    revert i
    decide
  · revert hi
    unfold Beyond exSkerry
    revert i
    decide

end Capi
