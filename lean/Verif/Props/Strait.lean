import Verif.Lemmas.Strait
import Verif.Props.Islet

/-!
# C100: short courses past coasts

Whether the direct line is free is asked of S2, which takes the course and the coasts as arcs of great
circles.  For courses and edges of at most a degree this agrees with the map, up to a margin.
-/

namespace Capi

open Sphere ShortestPath

namespace Sphere

theorem Temperate.geo {c : Coord} (h : Temperate c) : c.Geo := by
  obtain ⟨h1, h2⟩ := h
  rw [abs_le] at h1 h2
  exact ⟨by omega, by omega, by omega, by omega⟩

theorem Nearby.symm {W : ℤ} {a b : Coord} (h : Nearby W a b) : Nearby W b a := by
  obtain ⟨h1, h2⟩ := h
  exact ⟨by rw [abs_sub_comm]; exact h1, by rw [abs_sub_comm]; exact h2⟩

theorem Nearby.trans {V W : ℤ} {a b c : Coord} (h : Nearby V a b) (h' : Nearby W b c) :
    Nearby (V + W) a c := by
  obtain ⟨h1, h2⟩ := h
  obtain ⟨h3, h4⟩ := h'
  rw [abs_le] at h1 h2 h3 h4
  exact ⟨abs_le.2 ⟨by omega, by omega⟩, abs_le.2 ⟨by omega, by omega⟩⟩

theorem Nearby.mono {V W : ℤ} {a b : Coord} (h : Nearby V a b) (hVW : V ≤ W) : Nearby W a b :=
  ⟨h.1.trans hVW, h.2.trans hVW⟩

theorem Nearby.refl {W : ℤ} (hW : 0 ≤ W) (a : Coord) : Nearby W a a := by
  unfold Nearby; simp [hW]

theorem side_of {L : Libm} (hL : L.Ok) {W : ℤ} (hW : W ≤ 10000000) {a b c d : Coord}
    (ha : Temperate a) (hb : b.Geo) (hc : c.Geo) (hd : d.Geo) (nb : Nearby W a b) (nc : Nearby W a c)
    (nd : Nearby W a d) (h : OneSide W a b c d) :
    ¬ Touch (toPoint L a) (toPoint L b) (toPoint L c) (toPoint L d) := by
  apply not_touch_side
  have hag := Temperate.geo ha
  rcases h with ⟨h1, h2⟩ | ⟨h1, h2⟩
  · exact Or.inl ⟨det_pos hL hag hb hc (sphereDet_left hW ha.2 nb nc h1),
      det_pos hL hag hb hd (sphereDet_left hW ha.2 nb nd h2)⟩
  · exact Or.inr ⟨det_neg hL hag hb hc (sphereDet_right hW ha.2 nb nc h1),
      det_neg hL hag hb hd (sphereDet_right hW ha.2 nb nd h2)⟩

/-- Segments that are asunder on the map are so on the sphere. -/
theorem not_touch {L : Libm} (hL : L.Ok) {W : ℤ} (hW0 : 1000 ≤ W) (hW : W ≤ 1000000)
    {a b c d : Coord} (ha : Temperate a) (hb : Temperate b) (hc : Temperate c) (hd : Temperate d)
    (hab : Nearby W a b) (hcd : Nearby W c d) (h : Asunder W a b c d) :
    ¬ Touch (toPoint L a) (toPoint L b) (toPoint L c) (toPoint L d) := by
  intro ht
  have ga := Temperate.geo ha
  have gb := Temperate.geo hb
  have gc := Temperate.geo hc
  have gd := Temperate.geo hd
  have w2 : ((W : ℝ) * micro) ^ 2 ≤ 1 / 2 := by
    have h1 : (W : ℝ) ≤ 1000000 := by exact_mod_cast hW
    have h0 : (0 : ℝ) ≤ W := by exact_mod_cast (by omega : (0 : ℤ) ≤ W)
    have h2 : (W : ℝ) * micro ≤ 1 / 2 := by nlinarith [micro_hi, micro_pos]
    have h3 : 0 ≤ (W : ℝ) * micro := mul_nonneg h0 micro_pos.le
    nlinarith
  have ge : ∀ {x y : Coord}, Nearby W x y → 1 - ((W : ℝ) * micro) ^ 2 ≤ sphereDot x y := fun hxy =>
    sphereDot_ge (by rw [rad_diff]; exact rad_abs_le hxy.1) (by rw [rad_diff]; exact rad_abs_le hxy.2)
  obtain ⟨x, hx, y, hy, hxy⟩ := touch_close hL ga gb gc gd w2 (ge hab) (ge hcd) ht
  have hxt : Temperate x := by
    rcases List.mem_cons.1 hx with rfl | hx
    · exact ha
    · rw [List.mem_singleton.1 hx]; exact hb
  have hyg : y.Geo := by
    rcases List.mem_cons.1 hy with rfl | hy
    · exact gc
    · rw [List.mem_singleton.1 hy]; exact gd
  have near := near_of_dot hxt hyg hW0 hW hxy
  have h0 : 0 ≤ W := by omega
  have hax : ∀ {z : Coord}, z ∈ [a, b] → Nearby W z x := by
    intro z hz
    simp only [List.mem_cons, List.not_mem_nil, or_false] at hz hx
    rcases hz with rfl | rfl <;> rcases hx with rfl | rfl
    · exact Nearby.refl h0 _
    · exact hab
    · exact Nearby.symm hab
    · exact Nearby.refl h0 _
  have hyc : ∀ {z : Coord}, z ∈ [c, d] → Nearby W y z := by
    intro z hz
    simp only [List.mem_cons, List.not_mem_nil, or_false] at hz hy
    rcases hz with rfl | rfl <;> rcases hy with rfl | rfl
    · exact Nearby.refl h0 _
    · exact Nearby.symm hcd
    · exact hcd
    · exact Nearby.refl h0 _
  have all : ∀ {z z' : Coord}, z ∈ [a, b] → z' ∈ [c, d] → Nearby (5 * W) z z' := fun hz hz' =>
    Nearby.mono (Nearby.trans (Nearby.trans (hax hz) near) (hyc hz')) (by omega)
  rcases h with h | h | h
  · exact h x hx y hy near
  · exact side_of hL (by omega) ha gb gc gd (Nearby.mono hab (by omega))
      (all List.mem_cons_self List.mem_cons_self) (all List.mem_cons_self (by simp)) h ht
  · exact side_of hL (by omega) hc gd ga gb (Nearby.mono hcd (by omega))
      (Nearby.symm (all List.mem_cons_self List.mem_cons_self))
      (Nearby.symm (all (by simp) List.mem_cons_self)) h (touch_comm ht)

end Sphere

/-- **C100** The course meets no coast for S2 if on the map it is asunder from every edge. -/
theorem C100_clear (L : Libm) (hL : L.Ok) (ps : List (List Coord)) (S : Queries)
    (hS : CrossRules L ps S) (hps : ∀ v ∈ ps.flatten, Temperate v) (s d : Coord) (hs : Temperate s)
    (hd : Temperate d)
    (h : ∀ e, EdgeOf ps e → ∃ W, 1000 ≤ W ∧ W ≤ 1000000 ∧ Nearby W s d ∧ Nearby W e.p e.q ∧
      Asunder W s d e.p e.q) : crossings L S ⟨s, d⟩ = [] := by
  unfold crossings
  rw [List.map_eq_nil_iff]
  by_contra hcon
  obtain ⟨vs, hv, e, he, ht⟩ := hS.only s d (Temperate.geo hs) (Temperate.geo hd) hcon
  rw [loopEdges_loop] at he
  obtain ⟨g, hg, rfl⟩ := List.mem_map.1 he
  obtain ⟨m1, m2⟩ := segment_ends hg
  have hE : EdgeOf ps g := by
    obtain ⟨i, hi, rfl⟩ := List.mem_map.1 hg
    exact ⟨vs, hv, i, List.mem_range.1 hi, rfl⟩
  obtain ⟨W, w1, w2, n1, n2, ha⟩ := h g hE
  exact not_touch hL w1 w2 hs hd (hps _ (List.mem_flatten.2 ⟨vs, hv, m1⟩))
    (hps _ (List.mem_flatten.2 ⟨vs, hv, m2⟩)) n1 n2 ha ht

/-- **C100** Such a course between places at sea is the answer, whatever the graph. -/
theorem C100_direct {D : Type} [LinearOrder D] (A : Arith D) (L : Libm) (hL : L.Ok)
    (ps : List (List Coord)) (S : Queries) (hS : CrossRules L ps S)
    (hps : ∀ v ∈ ps.flatten, Temperate v) (E : Env) (s d : Coord) (hs : Temperate s)
    (hd : Temperate d) (sea : onLand L S s = false ∧ onLand L S d = false)
    (h : ∀ e, EdgeOf ps e → ∃ W, 1000 ≤ W ∧ W ≤ 1000000 ∧ Nearby W s d ∧ Nearby W e.p e.q ∧
      Asunder W s d e.p e.q) (allow : Bool) (r : Res (List Coord)) :
    Query A (env L S E) s d allow r ↔ r = .ok [s, d] := by
  have hc : correct (env L S E) s d allow = .ok ⟨s, d, none, none⟩ := by
    unfold correct correctOne
    rw [show (env L S E).onLand s = false from sea.1, show (env L S E).onLand d = false from sea.2]
    simp only [Bool.or_self, Bool.and_false, Bool.false_eq_true, if_false]
    rfl
  refine C51_direct A (env L S E) s d s d allow ⟨s, d, none, none⟩ (normalize_in (Temperate.geo hs))
    (normalize_in (Temperate.geo hd)) hc ?_ r
  intro x hx
  have e : (env L S E).crossings ⟨s, d⟩ = [] := C100_clear L hL ps S hS hps s d hs hd h
  rw [e] at hx
  cases hx

/-- **C100** A course that crosses an edge on the map, by the margin, meets a coast for S2. -/
theorem C100_athwart (L : Libm) (hL : L.Ok) (ps : List (List Coord)) (S : Queries)
    (hS : CrossRules L ps S) (hps : ∀ v ∈ ps.flatten, Temperate v) (s d : Coord) (hs : Temperate s)
    (hd : d.Geo) (e : Seg) (he : EdgeOf ps e) (W : ℤ) (hW : W ≤ 10000000)
    (h : Athwart W s d e.p e.q) : crossings L S ⟨s, d⟩ ≠ [] := by
  obtain ⟨m1, m2⟩ := Vistree.edge_mem he
  have tp := hps _ m1
  have gs := Temperate.geo hs
  have gp := Temperate.geo tp
  have gq := Temperate.geo (hps _ m2)
  obtain ⟨vs, hv, i, hi, rfl⟩ := he
  dsimp only at *
  set p := ringAt vs i
  set q := ringAt vs (i + 1)
  have hmem : (toPoint L p, toPoint L q) ∈ loopEdges (loop L vs) := by
    rw [loopEdges_loop]
    exact List.mem_map.2 ⟨⟨p, q⟩, List.mem_map.2 ⟨i, List.mem_range.2 hi, rfl⟩, rfl⟩
  obtain ⟨near, hx⟩ := h
  have n1 : Nearby W s d := near s (by simp) d (by simp)
  have n2 : Nearby W s p := near s (by simp) p (by simp)
  have n3 : Nearby W s q := near s (by simp) q (by simp)
  have n4 : Nearby W p q := near p (by simp) q (by simp)
  have n5 : Nearby W p s := near p (by simp) s (by simp)
  have n6 : Nearby W p d := near p (by simp) d (by simp)
  unfold crossings
  rw [Ne, List.map_eq_nil_iff]
  refine hS.all s d gs hd vs hv _ hmem ?_
  have r1 : ∀ a b c : Point, det a c b = -det a b c := fun a b c => by simp only [det]; ring
  have r3 : ∀ a b d : Point, det b d a = det a b d := fun a b d => by simp only [det]; ring
  have r4 : ∀ a c d : Point, det d a c = det c d a := fun a c d => by simp only [det]; ring
  unfold SameTurn
  rw [r1 (toPoint L s), r1 (toPoint L p) (toPoint L q), r3 (toPoint L s), r4 (toPoint L s)]
  rcases hx with ⟨h1, h2, h3, h4⟩ | ⟨h1, h2, h3, h4⟩
  · have k1 := det_pos hL gs hd gq (sphereDet_left hW hs.2 n1 n3 h1)
    have k2 := det_neg hL gs hd gp (sphereDet_right hW hs.2 n1 n2 h2)
    have k3 := det_pos hL gp gq gs (sphereDet_left hW tp.2 n4 n5 h3)
    have k4 := det_neg hL gp gq hd (sphereDet_right hW tp.2 n4 n6 h4)
    exact Or.inl ⟨by linarith, by linarith, k1, k3⟩
  · have k1 := det_neg hL gs hd gq (sphereDet_right hW hs.2 n1 n3 h1)
    have k2 := det_pos hL gs hd gp (sphereDet_left hW hs.2 n1 n2 h2)
    have k3 := det_neg hL gp gq gs (sphereDet_right hW tp.2 n4 n5 h3)
    have k4 := det_pos hL gp gq hd (sphereDet_left hW tp.2 n4 n6 h4)
    exact Or.inr ⟨by linarith, by linarith, k1, k3⟩

/-- **C100** Then the course is not the answer: every path goes by a corner of an island. -/
theorem C100_around {D : Type} [LinearOrder D] (A : Arith D) (hA : A.Sound) (L : Libm) (hL : L.Ok)
    (T : ℕ → Polygon.SumTree) (ps : List (List Coord))
    (scanner : Coord → Res (List (Coord × Bool))) (order : List Coord → List Coord) (E : Env)
    (S : Queries) (s d : Coord) (h : Voyage T ps scanner order (env L S E) s d)
    (hS : CrossRules L ps S) (hps : ∀ v ∈ ps.flatten, Temperate v) (hs : Temperate s)
    (hns : s ∉ ps.flatten) (hnd : d ∉ ps.flatten) (e : Seg) (he : EdgeOf ps e) (W : ℤ)
    (hW : W ≤ 10000000) (hx : Athwart W s d e.p e.q) (allow : Bool) (path : List Coord)
    (hq : Query A (env L S E) s d allow (.ok path)) :
    ∃ v ∈ path, v ∈ ps.flatten ∧ 3 ≤ path.length := by
  have hne : s ≠ d := by
    rintro rfl
    have hz : ∀ c : Coord, area2 s s c = 0 := fun c => by unfold area2; ring
    have hW0 : 0 ≤ W ^ 3 := by
      have : 0 ≤ W := (abs_nonneg _).trans (hx.1 s (by simp) s (by simp)).1
      positivity
    obtain ⟨-, ⟨h1, -⟩ | ⟨h1, -⟩⟩ := hx <;>
    · unfold Beyond at h1
      rw [hz] at h1
      omega
  obtain ⟨N, hp⟩ := h.searched (C100_athwart L hL ps S hS hps s d hs h.dst e he W hW hx) allow
  obtain ⟨v, hv, hm, hl⟩ := C62_via A hA (env L S E) (env L S E).graph.polygons h.geo' h.made h.verts
    h.reach h.ord s d allow N _ hp h.src h.dst (fun hh => hns ((h.mem_flatten _).1 hh))
    (fun hh => hnd ((h.mem_flatten _).1 hh)) hne _ hq
  exact ⟨v, hv, (h.mem_flatten _).1 hm, hl⟩

/-- **C100** Both notions are those of the map: segments that are asunder have no point in common, and
those athwart cross properly. -/
theorem C100_map (W : ℤ) (hW : 0 < W) (a b c d : Coord) (hab : Nearby W a b) (hcd : Nearby W c d) :
    (Asunder W a b c d → ¬ Meets ⟨a, b⟩ ⟨c, d⟩) ∧ (Athwart W a b c d → Crosses a b ⟨c, d⟩) := by
  have pos : ∀ {V x : ℤ}, 0 < V → Beyond V x → 0 < x := by
    intro V x hV h
    unfold Beyond at h
    have : 0 < V ^ 3 := by positivity
    omega
  have side : ∀ {a b c d : Coord}, OneSide (5 * W) a b c d → ¬ Meets ⟨a, b⟩ ⟨c, d⟩ := by
    rintro a b c d h ⟨x, y, ⟨t, -, -, hx, hy⟩, u, hu0, hu1, hx', hy'⟩
    have e : (1 - u) * (area2 a b c : ℚ) + u * area2 a b d = 0 := by
      unfold area2
      push_cast
      dsimp only at hx hy hx' hy'
      have e1 : (c.lon : ℚ) + u * (d.lon - c.lon) - a.lon = t * (b.lon - a.lon) := by linarith
      have e2 : (c.lat : ℚ) + u * (d.lat - c.lat) - a.lat = t * (b.lat - a.lat) := by linarith
      linear_combination ((b.lon : ℚ) - a.lon) * e2 - ((b.lat : ℚ) - a.lat) * e1
    rcases h with ⟨h1, h2⟩ | ⟨h1, h2⟩
    · have k1 : (0 : ℚ) < area2 a b c := by exact_mod_cast pos (by omega) h1
      have k2 : (0 : ℚ) < area2 a b d := by exact_mod_cast pos (by omega) h2
      rcases hu0.lt_or_eq with hu | hu
      · nlinarith [mul_pos hu k2, mul_nonneg (sub_nonneg.2 hu1) k1.le]
      · rw [← hu] at e; linarith
    · have k1 : (0 : ℚ) < -area2 a b c := by exact_mod_cast pos (by omega) h1
      have k2 : (0 : ℚ) < -area2 a b d := by exact_mod_cast pos (by omega) h2
      rcases hu0.lt_or_eq with hu | hu
      · nlinarith [mul_pos hu k2, mul_nonneg (sub_nonneg.2 hu1) k1.le]
      · rw [← hu] at e; linarith
  constructor
  · rintro (h | h | h) hm
    · obtain ⟨x, y, ⟨t, ht0, ht1, hx, hy⟩, u, hu0, hu1, hx', hy'⟩ := hm
      apply h a (by simp) c (by simp)
      have part : ∀ {k m n : ℤ} {z r : ℚ}, |n - m| ≤ W → 0 ≤ z → z ≤ 1 →
          r = m + z * (n - m) → k = m → |r - k| ≤ W := by
        intro k m n z r hn hz0 hz1 hr hk
        subst hk
        rw [hr, add_sub_cancel_left, abs_mul, abs_of_nonneg hz0]
        have hn' : |(n : ℚ) - k| ≤ W := by exact_mod_cast hn
        calc z * |(n : ℚ) - k| ≤ 1 * |(n : ℚ) - k| :=
              mul_le_mul_of_nonneg_right hz1 (abs_nonneg _)
          _ ≤ W := by rw [one_mul]; exact hn'
      have p1 := part hab.1 ht0 ht1 hx rfl
      have p2 := part hab.2 ht0 ht1 hy rfl
      have p3 := part hcd.1 hu0 hu1 hx' rfl
      have p4 := part hcd.2 hu0 hu1 hy' rfl
      have fin : ∀ {r : ℚ} {k m : ℤ}, |r - k| ≤ W → |r - m| ≤ W → |m - k| ≤ 3 * W := by
        intro r k m h1 h2
        rw [abs_le] at h1 h2
        have hW' : (0 : ℚ) < W := by exact_mod_cast hW
        have : |(m : ℚ) - k| ≤ 3 * W := abs_le.2 ⟨by linarith, by linarith⟩
        exact_mod_cast this
      exact ⟨fin p1 p3, fin p2 p4⟩
    · exact side h hm
    · obtain ⟨x, y, h1, h2⟩ := hm
      exact side h ⟨x, y, h2, h1⟩
  · rintro ⟨-, ⟨h1, h2, h3, h4⟩ | ⟨h1, h2, h3, h4⟩⟩ <;>
    · have k1 := pos hW h1
      have k2 := pos hW h2
      have k3 := pos hW h3
      have k4 := pos hW h4
      unfold Crosses
      dsimp only
      constructor <;> nlinarith

/-! ### The margin is needed -/

/-- An index that follows the rules, for loops and crossings, exists. -/
theorem exists_index (L : Libm) (inside : List Point → Point → Prop) (ps : List (List Coord)) :
    ∃ S : Queries, S.ByLoops L ps inside ∧ CrossRules L ps S := by
  classical
  refine ⟨⟨fun p => decide (∃ vs ∈ ps, inside (loop L vs) p), fun _ => none,
    fun a b => if ∃ vs ∈ ps, ∃ e ∈ loopEdges (loop L vs), Touch a b e.1 e.2 then [(a, b)] else [],
    fun _ _ p => p⟩, fun p _ => by simp, ?_, ?_⟩
  · intro a b _ _ h
    by_contra hn
    exact h (if_neg hn)
  · intro a b _ _ vs hv e he ht
    dsimp only
    rw [if_pos ⟨vs, hv, e, he, touch_of_sameTurn ht⟩]
    simp

/-- **C100** Without a margin it is false: a course from 100 microdegrees north of the southern side of
a square of a degree in latitude 45 to the south crosses that side on the map, and S2 reports nothing. -/
theorem C100_margin_false (L : Libm) (hL : L.Ok) :
    ¬ ∀ (ps : List (List Coord)) (S : Queries), CrossRules L ps S → (∀ v ∈ ps.flatten, Temperate v) →
      ∀ s d : Coord, Temperate s → Temperate d → Nearby 1000000 s d →
      (∃ e, EdgeOf ps e ∧ Nearby 1000000 e.p e.q ∧ Crosses s d e) → crossings L S ⟨s, d⟩ ≠ [] := by
  intro h
  obtain ⟨S, -, hS⟩ := exists_index L InCone [exIslet]
  refine h [exIslet] S hS (by unfold exIslet Temperate; decide) ⟨500000, 45000100⟩
    ⟨500000, 44800000⟩ (by unfold Temperate; decide) (by unfold Temperate; decide)
    (by unfold Nearby; decide) ⟨⟨⟨0, 45000000⟩, ⟨1000000, 45000000⟩⟩,
      ⟨exIslet, by simp, 0, by decide, by decide⟩, by unfold Nearby; decide, by decide⟩ ?_
  unfold crossings
  rw [List.map_eq_nil_iff]
  by_contra hcon
  obtain ⟨vs, hv, e, he, ht⟩ := hS.only _ _ (by decide) (by decide) hcon
  rw [List.mem_singleton] at hv
  subst hv
  rw [loopEdges_loop] at he
  obtain ⟨g, hg, rfl⟩ := List.mem_map.1 he
  have hg' : g ∈ [(⟨⟨0, 45000000⟩, ⟨1000000, 45000000⟩⟩ : Seg),
      ⟨⟨1000000, 45000000⟩, ⟨1000000, 46000000⟩⟩, ⟨⟨1000000, 46000000⟩, ⟨0, 46000000⟩⟩,
      ⟨⟨0, 46000000⟩, ⟨0, 45000000⟩⟩] := by
    have e : Polygon.segments exIslet = [⟨⟨0, 45000000⟩, ⟨1000000, 45000000⟩⟩,
      ⟨⟨1000000, 45000000⟩, ⟨1000000, 46000000⟩⟩, ⟨⟨1000000, 46000000⟩, ⟨0, 46000000⟩⟩,
      ⟨⟨0, 46000000⟩, ⟨0, 45000000⟩⟩] := by decide
    rw [e] at hg
    exact hg
  replace ht := touch_comm ht
  revert ht
  simp only [List.mem_cons, List.not_mem_nil, or_false] at hg'
  rcases hg' with rfl | rfl | rfl | rfl
  · exact not_touch_side (Or.inr ⟨det_neg hL (by decide) (by decide) (by decide) exIslet_det,
      det_neg hL (by decide) (by decide) (by decide) (sphereDet_right (W := 1000000) (by decide)
        (by decide) (by unfold Nearby; decide) (by unfold Nearby; decide)
        (by unfold Beyond; decide))⟩)
  all_goals
    exact side_of hL (W := 1200000) (by decide) (by unfold Temperate; decide) (by decide) (by decide)
      (by decide) (by unfold Nearby; decide) (by unfold Nearby; decide) (by unfold Nearby; decide)
      (Or.inl ⟨by unfold Beyond; decide, by unfold Beyond; decide⟩)

/-- A narrow island. -/
def exReef : List Coord := [⟨0, 45000000⟩, ⟨20000, 45000000⟩, ⟨20000, 45100000⟩, ⟨0, 45100000⟩]

theorem exReef_stout : Stout 100000 exReef where
  least := by decide
  most := by decide
  three := by decide
  nodup := by decide
  place := by unfold exReef; decide
  near := by unfold exReef Nearby; decide
  turn := by unfold exReef Beyond; decide +kernel

theorem exReef_sea {L : Libm} (hL : L.Ok) {S : Queries} (hS : S.ByLoops L [exReef] InCone) {p : Coord}
    (hp : p.Geo) (h : ∃ e ∈ Polygon.segments exReef, Beyond 300000 (-area2 e.p e.q p)) :
    onLand L S p = false :=
  C99_afloat L hL InCone ⟨fun _ _ _ _ _ h => h, fun _ _ _ _ h hp => inCone_of_left h hp⟩ _ S hS p hp
    fun vs hv => by
      rw [List.mem_singleton] at hv
      subst hv
      exact ⟨100000, exReef_stout, Or.inr h⟩

/-- Non-vacuity of C100: a course past a narrow island, answered directly, and one across it, which goes
round, both with the land as S2 has it. -/
example : ∃ (L : Libm) (S : Queries), L.Ok ∧ CrossRules L [exReef] S ∧
    (∀ v ∈ [exReef].flatten, Temperate v) ∧
    (∀ allow r, Query (exactArith 1 none) (env L S (arcEnv [exReef])) ⟨-200000, 45100000⟩
      ⟨-200000, 45000000⟩ allow r ↔ r = .ok [⟨-200000, 45100000⟩, ⟨-200000, 45000000⟩]) ∧
    EdgeOf [exReef] ⟨⟨0, 45100000⟩, ⟨0, 45000000⟩⟩ ∧
    Athwart 150000 ⟨-60000, 45050000⟩ ⟨80000, 45050000⟩ ⟨0, 45100000⟩ ⟨0, 45000000⟩ ∧
    ∀ allow path, Query (exactArith 1 none) (env L S (arcEnv [exReef])) ⟨-60000, 45050000⟩
      ⟨80000, 45050000⟩ allow (.ok path) → ∃ v ∈ path, v ∈ exReef ∧ 3 ≤ path.length := by
  obtain ⟨L, hL⟩ := exists_libm
  obtain ⟨S, hB, hS⟩ := exists_index L InCone [exReef]
  have hT : ∀ v ∈ [exReef].flatten, Temperate v := by unfold exReef Temperate; decide
  have he : EdgeOf [exReef] ⟨⟨0, 45100000⟩, ⟨0, 45000000⟩⟩ := ⟨exReef, by simp, 3, by decide, by decide⟩
  have hx : Athwart 150000 ⟨-60000, 45050000⟩ ⟨80000, 45050000⟩ ⟨0, 45100000⟩ ⟨0, 45000000⟩ := by
    unfold Athwart Nearby Beyond
    decide
  refine ⟨L, S, hL, hS, hT, ?_, he, hx, ?_⟩
  · refine C100_direct _ L hL [exReef] S hS hT _ _ _ (by unfold Temperate; decide)
      (by unfold Temperate; decide) ⟨?_, ?_⟩ ?_
    · exact exReef_sea hL hB (by decide) (by unfold exReef Beyond; decide +kernel)
    · exact exReef_sea hL hB (by decide) (by unfold exReef Beyond; decide +kernel)
    · rintro e ⟨p, hp, i, hi, rfl⟩
      rw [List.mem_singleton] at hp
      subst hp
      refine ⟨100000, by decide, by decide, by unfold Nearby; decide, ?_, Or.inr (Or.inl (Or.inl ?_))⟩
      · revert hi
        unfold Nearby exReef
        revert i
        decide
      · revert hi
        unfold Beyond exReef
        revert i
        decide
  · intro allow path hq
    have hv := arcEnv_voyage [exReef] (s := ⟨-60000, 45050000⟩) (d := ⟨80000, 45050000⟩)
      (by decide) (by
        intro p hp k hk
        rw [List.mem_singleton] at hp
        subst hp
        rcases hk with rfl | rfl | rfl <;> decide +kernel) (by decide) (by decide)
    have hv' : Voyage Polygon.SumTree.sequential [exReef]
        (exScanner Polygon.SumTree.sequential [exReef]) id (env L S (arcEnv [exReef]))
        ⟨-60000, 45050000⟩ ⟨80000, 45050000⟩ :=
      ⟨hv.geo, hv.stable, hv.scan, hv.perm, hv.graph, hv.made, hv.obstacles, hv.reach, hv.ord, hv.src,
        hv.dst, exReef_sea hL hB (by decide) (by unfold exReef Beyond; decide +kernel),
        exReef_sea hL hB (by decide) (by unfold exReef Beyond; decide +kernel)⟩
    obtain ⟨v, h1, h2, h3⟩ := C100_around _ (exact_sound 1 none) L hL _ _ _ _ _ S _ _ hv' hS hT
      (by unfold Temperate; decide) (by decide) (by decide) _ he 150000 (by decide) hx allow path hq
    exact ⟨v, h1, by simpa using h2, h3⟩

end Capi
