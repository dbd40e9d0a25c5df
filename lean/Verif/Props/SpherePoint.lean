import Verif.Lemmas.Sphere
import Verif.Props.Project
import Mathlib.Data.List.GetD

/-!
# C67: coordinates survive the conversion to points of the sphere and back
-/

namespace Capi

open Sphere

namespace Sphere

theorem cos_pos_of {n : ℤ} (h1 : -90000000 ≤ n) (h2 : n ≤ 90000000) :
    0 < Real.cos (radians n : ℝ) := by
  have := abs_lt.1 (radians_lt_half h1 h2)
  exact Real.cos_pos_of_mem_Ioo ⟨by linarith, by linarith⟩

theorem radians_close {n : ℤ} (h1 : -180000000 ≤ n) (h2 : n ≤ 180000000) :
    |(radians n : ℝ) - rad n| ≤ 4 / 2 ^ 50 := by
  refine le_trans (radians_rel n) ?_
  have hn1 : (-180000000 : ℝ) ≤ n := by exact_mod_cast h1
  have hn2 : (n : ℝ) ≤ 180000000 := by exact_mod_cast h2
  have : |rad n| ≤ 4 := by
    have hp := Real.pi_le_four
    have hp0 := Real.pi_pos
    unfold rad
    rw [abs_le]
    constructor <;> nlinarith
  linarith

theorem lon_back {L : Libm} (hL : L.Ok) {c : Coord} (hc : c.Geo) :
    |(L.atan2 (toPoint L c).2.1 (toPoint L c).1 : ℝ) - rad c.lon| ≤ 30 / 2 ^ 50 := by
  obtain ⟨h1, h2, h3, h4⟩ := hc
  set θ := radians c.lon
  set φ := radians c.lat
  have hr : 0 < Real.cos (φ : ℝ) := cos_pos_of h3 h4
  have hx : Rel (4 / 2 ^ 50) ((toPoint L c).1 : ℝ) (Real.cos φ * Real.cos θ) := by
    have a := rel_fl (L.cos θ * L.cos φ)
    rw [Rat.cast_mul] at a
    have := a.trans ((show Rel (1 / 2 ^ 50) _ _ from hL.cos θ).mul
      (show Rel (1 / 2 ^ 50) _ _ from hL.cos φ) (by norm_num)) (by norm_num)
    rw [mul_comm (Real.cos (φ : ℝ))]
    exact this.mono (by norm_num)
  have hy : Rel (4 / 2 ^ 50) ((toPoint L c).2.1 : ℝ) (Real.cos φ * Real.sin θ) := by
    have a := rel_fl (L.sin θ * L.cos φ)
    rw [Rat.cast_mul] at a
    have := a.trans ((show Rel (1 / 2 ^ 50) _ _ from hL.sin θ).mul
      (show Rel (1 / 2 ^ 50) _ _ from hL.cos φ) (by norm_num)) (by norm_num)
    rw [mul_comm (Real.cos (φ : ℝ))]
    exact this.mono (by norm_num)
  have b := arg_close (radians_lt h1 h2) hr (by norm_num) (by norm_num) hx hy
  have d := hL.atan2 (toPoint L c).1 (toPoint L c).2.1
  have e := radians_close h1 h2
  have b' := abs_le.1 b
  have d' := abs_le.1 d
  have e' := abs_le.1 e
  norm_num at b' d' e'
  rw [abs_le]
  norm_num
  constructor <;> linarith

theorem lat_back {L : Libm} (hL : L.Ok) {c : Coord} (hc : c.Geo) :
    |(L.atan2 (toPoint L c).2.2 (L.sqrt (fl (fl ((toPoint L c).1 * (toPoint L c).1) +
      fl ((toPoint L c).2.1 * (toPoint L c).2.1)))) : ℝ) - rad c.lat| ≤ 30 / 2 ^ 50 := by
  obtain ⟨h1, h2, h3, h4⟩ := hc
  set θ := radians c.lon
  set φ := radians c.lat
  have hr : 0 < Real.cos (φ : ℝ) := cos_pos_of h3 h4
  set x := (toPoint L c).1 with hxd
  set y := (toPoint L c).2.1 with hyd
  have hx : Rel (3 / 2 ^ 50) (x : ℝ) (Real.cos φ * Real.cos θ) := by
    have a := rel_fl (L.cos θ * L.cos φ)
    rw [Rat.cast_mul] at a
    have := a.trans ((show Rel (1 / 2 ^ 50) _ _ from hL.cos θ).mul
      (show Rel (1 / 2 ^ 50) _ _ from hL.cos φ) (by norm_num)) (by norm_num)
    rw [mul_comm (Real.cos (φ : ℝ))]
    exact this.mono (by norm_num)
  have hy : Rel (3 / 2 ^ 50) (y : ℝ) (Real.cos φ * Real.sin θ) := by
    have a := rel_fl (L.sin θ * L.cos φ)
    rw [Rat.cast_mul] at a
    have := a.trans ((show Rel (1 / 2 ^ 50) _ _ from hL.sin θ).mul
      (show Rel (1 / 2 ^ 50) _ _ from hL.cos φ) (by norm_num)) (by norm_num)
    rw [mul_comm (Real.cos (φ : ℝ))]
    exact this.mono (by norm_num)
  -- squares
  have sq : ∀ {t : ℚ} {u : ℝ}, Rel (3 / 2 ^ 50) (t : ℝ) u →
      Rel (7 / 2 ^ 50) ((fl (t * t) : ℚ) : ℝ) (u * u) := by
    intro t u h
    have a := rel_fl (t * t)
    rw [Rat.cast_mul] at a
    exact (a.trans (h.mul h (by norm_num)) (by norm_num)).mono (by norm_num)
  have hs := (sq hx).add (sq hy) (mul_self_nonneg _) (mul_self_nonneg _)
  have e1 : Real.cos φ * Real.cos θ * (Real.cos φ * Real.cos θ) +
      Real.cos φ * Real.sin θ * (Real.cos φ * Real.sin θ) = Real.cos (φ : ℝ) * Real.cos φ := by
    linear_combination Real.cos (φ : ℝ) * Real.cos φ * Real.sin_sq_add_cos_sq (θ : ℝ)
  rw [e1] at hs
  have hq := rel_fl (fl (x * x) + fl (y * y))
  rw [Rat.cast_add] at hq
  have hq2 := (hq.trans hs (by norm_num)).mono (show _ ≤ (8 / 2 ^ 50 : ℝ) by norm_num)
  set q := fl (fl (x * x) + fl (y * y)) with hqd
  have hcc : 0 < Real.cos (φ : ℝ) * Real.cos φ := mul_pos hr hr
  have hq0 : 0 < q := by
    have := abs_le.1 hq2
    rw [abs_of_pos hcc] at this
    norm_num at this
    have : (0 : ℝ) < q := by linarith
    exact_mod_cast this
  have hpos := hL.sqrt.pos q hq0
  have hcl := hL.sqrt.close q hq0
  have hm : Rel (1 / 2 ^ 51) ((L.sqrt q : ℝ) * L.sqrt q) q := by
    unfold Rel
    have h' : ((|L.sqrt q * L.sqrt q - q| : ℚ) : ℝ) ≤ ((q / 2 ^ 51 : ℚ) : ℝ) := by
      exact_mod_cast hcl
    push_cast at h'
    rw [abs_of_pos (show (0 : ℝ) < q by exact_mod_cast hq0)]
    linarith
  have hpos' : (0 : ℝ) < L.sqrt q := by exact_mod_cast hpos
  have hm2 := ((hm.trans hq2 (by norm_num)).mono (show _ ≤ (9 / 2 ^ 50 : ℝ) by norm_num)).sqrt
    (mul_self_nonneg _) hcc.le
  rw [Real.sqrt_mul_self hpos'.le, Real.sqrt_mul_self hr.le] at hm2
  have hz : Rel (9 / 2 ^ 50) ((toPoint L c).2.2 : ℝ) (1 * Real.sin φ) := by
    rw [one_mul]
    exact (show Rel (1 / 2 ^ 50) _ _ from hL.sin φ).mono (by norm_num)
  rw [← one_mul (Real.cos (φ : ℝ))] at hm2
  have b := arg_close (radians_lt (n := c.lat) (by omega) (by omega)) one_pos (by norm_num)
    (by norm_num) hm2 hz
  have d := hL.atan2 (L.sqrt q) (toPoint L c).2.2
  have e := radians_close (n := c.lat) (by omega) (by omega)
  have b' := abs_le.1 b
  have d' := abs_le.1 d
  have e' := abs_le.1 e
  norm_num at b' d' e'
  rw [abs_le]
  norm_num
  constructor <;> linarith

end Sphere

/-- **C67** A geographic coordinate converted to a point of the sphere and back is itself. -/
theorem C67_roundtrip (L : Libm) (hL : L.Ok) (c : Coord) (hc : c.Geo) :
    ofPoint L (toPoint L c) = c := by
  have a := e6_eq hL hc.1 hc.2.1 (lon_back hL hc)
  have b := e6_eq hL (n := c.lat) (by have := hc.2.2.1; omega) (by have := hc.2.2.2; omega)
    (lat_back hL hc)
  show (⟨_, _⟩ : Coord) = c
  rw [a, b]

/-- **C67** Whatever point S2 hands back, the coordinate made of it is geographic. -/
theorem C67_geographic (L : Libm) (hL : L.Ok) (p : Point) : (ofPoint L p).Geo := by
  have hpi := Real.pi_pos
  have e180 : rad 180000000 = Real.pi := by unfold rad; push_cast; ring
  have e90 : rad 90000000 = Real.pi / 2 := by unfold rad; push_cast; ring
  have h1 : |(ofPoint L p).lon| ≤ 180000000 := by
    apply e6_le hL (by norm_num) (by norm_num)
    have a := hL.atan2 p.1 p.2.1
    have b := Complex.abs_arg_le_pi ⟨(p.1 : ℝ), (p.2.1 : ℝ)⟩
    have c := abs_sub_abs_le_abs_sub (L.atan2 p.2.1 p.1 : ℝ) (Complex.arg ⟨p.1, p.2.1⟩)
    rw [e180]
    linarith
  have h2 : |(ofPoint L p).lat| ≤ 90000000 := by
    apply e6_le hL (by norm_num) (by norm_num)
    set q := fl (fl (p.1 * p.1) + fl (p.2.1 * p.2.1)) with hq
    have hn : ∀ t : ℚ, 0 ≤ t → 0 ≤ fl t := fun t ht => by
      have := fl_mono ht
      rwa [fl_zero] at this
    have hq0 : 0 ≤ q := hn _ (add_nonneg (hn _ (mul_self_nonneg _)) (hn _ (mul_self_nonneg _)))
    have hs : 0 ≤ L.sqrt q := by
      rcases hq0.eq_or_lt with h | h
      · rw [← h, hL.sqrt.zero]
      · exact (hL.sqrt.pos q h).le
    have hs' : (0 : ℝ) ≤ L.sqrt q := by exact_mod_cast hs
    have a := hL.atan2 (L.sqrt q) p.2.2
    have b := Complex.abs_arg_le_pi_div_two_iff.2
      (show 0 ≤ (⟨(L.sqrt q : ℝ), (p.2.2 : ℝ)⟩ : ℂ).re from hs')
    have c := abs_sub_abs_le_abs_sub (L.atan2 p.2.2 (L.sqrt q) : ℝ) (Complex.arg ⟨L.sqrt q, p.2.2⟩)
    rw [e90]
    linarith
  rw [abs_le] at h1 h2
  exact ⟨h1.1, h1.2, h2.1, h2.2⟩

/-- **C67** Different coordinates are different points, also at the poles and on the meridian. -/
theorem C67_injective (L : Libm) (hL : L.Ok) (a b : Coord) (ha : a.Geo) (hb : b.Geo)
    (h : toPoint L a = toPoint L b) : a = b := by
  rw [← C67_roundtrip L hL a ha, h, C67_roundtrip L hL b hb]

/-- **C67** Coordinates of periodic copies of obstacles do not come back. -/
theorem C67_periodic_false (L : Libm) (hL : L.Ok) :
    ¬ ∀ c : Coord, c.Per → ofPoint L (toPoint L c) = c := by
  intro h
  have h1 := C67_geographic L hL (toPoint L ⟨540000001, 0⟩)
  rw [h ⟨540000001, 0⟩ (by decide)] at h1
  revert h1
  decide

/-! ### The spatial index -/

namespace Sphere

/-- An edge of the loop of one of the polygons, in either direction. -/
def FromLoops (L : Libm) (ps : List (List Coord)) (e : Point × Point) : Prop :=
  ∃ vs ∈ ps, e ∈ loopEdges (loop L vs) ∨ e.swap ∈ loopEdges (loop L vs)

/-- S2 answers with edges it was given. -/
structure Queries.Over (S : Queries) (L : Libm) (ps : List (List Coord)) : Prop where
  nearest : ∀ p e, S.nearest p = some e → FromLoops L ps e
  crossing : ∀ p q, ∀ e ∈ S.crossing p q, FromLoops L ps e

theorem loopEdges_loop (L : Libm) (vs : List Coord) : loopEdges (loop L vs) =
    (Polygon.segments vs).map fun s => (toPoint L s.p, toPoint L s.q) := by
  unfold loopEdges loop Polygon.segments
  rw [List.length_map, List.map_map]
  apply List.map_congr_left
  intro i hi
  have hpos : 0 < vs.length := lt_of_le_of_lt (Nat.zero_le i) (List.mem_range.1 hi)
  have key : ∀ j, (vs.map (toPoint L)).getD (j % vs.length) default =
      toPoint L (ringAt vs j) := by
    intro j
    have hj := Nat.mod_lt j hpos
    unfold ringAt
    rw [List.getD_eq_getElem _ _ (by simpa using hj), List.getD_eq_getElem _ _ hj,
      List.getElem_map]
  simp only [Function.comp_apply, key]

end Sphere

theorem segments_geo {ps : List (List Coord)} (hps : ∀ v ∈ ps.flatten, v.Geo) {vs : List Coord}
    (hvs : vs ∈ ps) {t : Seg} (ht : t ∈ Polygon.segments vs) : t.p.Geo ∧ t.q.Geo := by
  unfold Polygon.segments at ht
  obtain ⟨i, hi, rfl⟩ := List.mem_map.1 ht
  have hpos : 0 < vs.length := lt_of_le_of_lt (Nat.zero_le i) (List.mem_range.1 hi)
  have key : ∀ j, (ringAt vs j).Geo := by
    intro j
    apply hps
    refine List.mem_flatten.2 ⟨vs, hvs, ?_⟩
    unfold ringAt
    rw [List.getD_eq_getElem _ _ (Nat.mod_lt j hpos)]
    exact List.getElem_mem _
  exact ⟨key _, key _⟩

/-- **C67** An edge of the index, converted, is an edge of a polygon. -/
theorem C67_edge (L : Libm) (hL : L.Ok) (ps : List (List Coord)) (hps : ∀ v ∈ ps.flatten, v.Geo)
    (e : Point × Point) (he : FromLoops L ps e) :
    ∃ vs ∈ ps, ∃ t ∈ Polygon.segments vs, ofEdge L e = t ∨ ofEdge L e = ⟨t.q, t.p⟩ := by
  obtain ⟨vs, hvs, h⟩ := he
  rw [loopEdges_loop] at h
  refine ⟨vs, hvs, ?_⟩
  rcases h with h | h
  · obtain ⟨t, ht, rfl⟩ := List.mem_map.1 h
    obtain ⟨g1, g2⟩ := segments_geo hps hvs ht
    refine ⟨t, ht, Or.inl ?_⟩
    show (⟨_, _⟩ : Seg) = t
    rw [C67_roundtrip L hL _ g1, C67_roundtrip L hL _ g2]
  · obtain ⟨t, ht, h⟩ := List.mem_map.1 h
    obtain ⟨g1, g2⟩ := segments_geo hps hvs ht
    refine ⟨t, ht, Or.inr ?_⟩
    rw [show e = (toPoint L t.q, toPoint L t.p) by
      rw [← Prod.swap_swap e, ← h]; rfl]
    show (⟨_, _⟩ : Seg) = _
    rw [C67_roundtrip L hL _ g1, C67_roundtrip L hL _ g2]

/-- **C67** The comparison of shortest_path_computer.cpp:40-41 recognises an edge of the index:
converted edges are equal exactly if the edges of the index are, up to direction. -/
theorem C67_recognised (L : Libm) (hL : L.Ok) (ps : List (List Coord))
    (hps : ∀ v ∈ ps.flatten, v.Geo) (e f : Point × Point) (he : FromLoops L ps e)
    (hf : FromLoops L ps f) :
    (ofEdge L e).sameAs (ofEdge L f) = true ↔ e = f ∨ e = f.swap := by
  have pts : ∀ e, FromLoops L ps e →
      toPoint L (ofPoint L e.1) = e.1 ∧ toPoint L (ofPoint L e.2) = e.2 := by
    intro e he
    obtain ⟨vs, hvs, h⟩ := he
    rw [loopEdges_loop] at h
    rcases h with h | h
    · obtain ⟨t, ht, rfl⟩ := List.mem_map.1 h
      obtain ⟨g1, g2⟩ := segments_geo hps hvs ht
      simp only [C67_roundtrip L hL _ g1, C67_roundtrip L hL _ g2, and_self]
    · obtain ⟨t, ht, h⟩ := List.mem_map.1 h
      obtain ⟨g1, g2⟩ := segments_geo hps hvs ht
      rw [show e = (toPoint L t.q, toPoint L t.p) by
        rw [← Prod.swap_swap e, ← h]; rfl]
      simp only [C67_roundtrip L hL _ g1, C67_roundtrip L hL _ g2, and_self]
  obtain ⟨a1, a2⟩ := pts e he
  obtain ⟨b1, b2⟩ := pts f hf
  obtain ⟨e1, e2⟩ := e
  obtain ⟨f1, f2⟩ := f
  simp only [Seg.sameAs, ofEdge, Bool.or_eq_true, Bool.and_eq_true, beq_iff_eq, Prod.swap_prod_mk,
    Prod.mk.injEq] at *
  constructor
  · rintro (⟨h1, h2⟩ | ⟨h1, h2⟩)
    · left; rw [← a1, ← a2, h1, h2, b1, b2]; exact ⟨rfl, rfl⟩
    · right; rw [← a1, ← a2, h1, h2, b1, b2]; exact ⟨rfl, rfl⟩
  · rintro (⟨rfl, rfl⟩ | ⟨rfl, rfl⟩)
    · left; exact ⟨rfl, rfl⟩
    · right; exact ⟨rfl, rfl⟩

/-- **C67** Edges the index answers with are edges of the polygons. -/
theorem C67_index (L : Libm) (hL : L.Ok) (ps : List (List Coord)) (hps : ∀ v ∈ ps.flatten, v.Geo)
    (S : Queries) (hS : S.Over L ps) :
    (∀ c s, closest L S c = .ok s →
      ∃ vs ∈ ps, ∃ t ∈ Polygon.segments vs, s = t ∨ s = ⟨t.q, t.p⟩) ∧
    (∀ l, ∀ s ∈ crossings L S l,
      ∃ vs ∈ ps, ∃ t ∈ Polygon.segments vs, s = t ∨ s = ⟨t.q, t.p⟩) := by
  constructor
  · intro c s h
    unfold closest at h
    cases hn : S.nearest (toPoint L c) with
    | none => rw [hn] at h; cases h
    | some e =>
      rw [hn] at h
      injection h with h
      rw [← h]
      exact C67_edge L hL ps hps e (hS.nearest _ _ hn)
  · intro l s h
    obtain ⟨e, he, rfl⟩ := List.mem_map.1 h
    exact C67_edge L hL ps hps e (hS.crossing _ _ e he)

/-- **C67** A segment meets the index exactly if it crosses one of its edges, in whatever order
S2 and the sort return them. -/
theorem C67_meets (L : Libm) (S : Queries) (raw : Point → Point → List (Point × Point))
    (h : ∀ p q, (S.crossing p q).Perm (raw p q)) (s : Seg) :
    meets L raw s = true ↔ ∃ t, t ∈ crossings L S s := by
  have e : raw (toPoint L s.p) (toPoint L s.q) = [] ↔ crossings L S s = [] := by
    unfold crossings
    rw [List.map_eq_nil_iff]
    constructor
    · intro h0; have := h (toPoint L s.p) (toPoint L s.q); rw [h0] at this
      exact List.perm_nil.1 this
    · intro h0; have := h (toPoint L s.p) (toPoint L s.q); rw [h0] at this
      exact List.nil_perm.1 this
  have e2 : (∃ t, t ∈ crossings L S s) ↔ ¬ crossings L S s = [] := by
    cases crossings L S s with
    | nil => simp
    | cons a r => exact ⟨fun _ => by simp, fun _ => ⟨a, by simp⟩⟩
  rw [e2, ← e]
  unfold meets
  cases raw (toPoint L s.p) (toPoint L s.q) <;> simp

/-- **C67** The edges near a point are edges of polygons, each edge S2 found is among them, and
none is listed that S2 did not find. -/
theorem C67_within (L : Libm) (hL : L.Ok) (ps : List (List Coord))
    (hps : ∀ v ∈ ps.flatten, v.Geo) (found : Point → List (Option (Point × Point)))
    (hf : ∀ p e, some e ∈ found p → FromLoops L ps e) (c : Coord) :
    (∀ s ∈ within L found c,
      ∃ vs ∈ ps, ∃ t ∈ Polygon.segments vs, s = t ∨ s = ⟨t.q, t.p⟩) ∧
    (∀ e, FromLoops L ps e →
      ((∃ s ∈ within L found c, s.sameAs (ofEdge L e) = true) ↔
        some e ∈ found (toPoint L c) ∨ some e.swap ∈ found (toPoint L c))) := by
  have hm : ∀ s, s ∈ within L found c ↔ ∃ e, some e ∈ found (toPoint L c) ∧ s = ofEdge L e := by
    intro s
    unfold within
    rw [List.mem_filterMap]
    constructor
    · rintro ⟨r, hr, h⟩
      obtain ⟨e, rfl, rfl⟩ := Option.map_eq_some_iff.1 h
      exact ⟨e, hr, rfl⟩
    · rintro ⟨e, he, rfl⟩
      exact ⟨some e, he, rfl⟩
  constructor
  · intro s hs
    obtain ⟨e, he, rfl⟩ := (hm s).1 hs
    exact C67_edge L hL ps hps e (hf _ e he)
  · intro e he
    constructor
    · rintro ⟨s, hs, h⟩
      obtain ⟨f, hf', rfl⟩ := (hm s).1 hs
      rcases (C67_recognised L hL ps hps f e (hf _ f hf') he).1 h with rfl | rfl
      · exact Or.inl hf'
      · exact Or.inr hf'
    · rintro (h | h)
      · exact ⟨_, (hm _).2 ⟨e, h, rfl⟩, (C67_recognised L hL ps hps e e he he).2 (Or.inl rfl)⟩
      · exact ⟨_, (hm _).2 ⟨e.swap, h, rfl⟩,
          (C67_recognised L hL ps hps e.swap e (hf _ _ h) he).2 (Or.inr rfl)⟩

/-- **C67** What blocks the direct line: the edges of the index that S2 reports, except those an
endpoint was moved to. -/
theorem C67_blocking (L : Libm) (hL : L.Ok) (ps : List (List Coord))
    (hps : ∀ v ∈ ps.flatten, v.Geo) (S : Queries) (hS : S.Over L ps) (E : ShortestPath.Env)
    (s d : Coord) (f g : Option (Point × Point)) (hf : ∀ e ∈ f, FromLoops L ps e)
    (hg : ∀ e ∈ g, FromLoops L ps e) :
    ShortestPath.blocking (env L S E) ⟨s, d, f.map (ofEdge L), g.map (ofEdge L)⟩ =
      ((S.crossing (toPoint L s) (toPoint L d)).filter fun e =>
        decide (¬ (e ∈ f ∨ e.swap ∈ f) ∧ ¬ (e ∈ g ∨ e.swap ∈ g))).map (ofEdge L) := by
  have key : ∀ e, FromLoops L ps e → ∀ o : Option (Point × Point), (∀ e ∈ o, FromLoops L ps e) →
      (ShortestPath.notEdge (ofEdge L e) (o.map (ofEdge L)) = true ↔ ¬ (e ∈ o ∨ e.swap ∈ o)) := by
    intro e he o ho
    cases o with
    | none => simp [ShortestPath.notEdge]
    | some a =>
      have := C67_recognised L hL ps hps e a he (ho a rfl)
      have e1 : (a = e ↔ e = a) := eq_comm
      have e2 : (a = e.swap ↔ e = a.swap) :=
        ⟨fun h => by rw [h, Prod.swap_swap], fun h => by rw [h, Prod.swap_swap]⟩
      simp only [Option.map_some, ShortestPath.notEdge, Bool.not_eq_true', Option.mem_def,
        Option.some.injEq, e1, e2, ← this, Bool.not_eq_true]
  show List.filter _ ((S.crossing (toPoint L s) (toPoint L d)).map (ofEdge L)) = _
  rw [List.filter_map]
  congr 1
  apply List.filter_congr
  intro e he
  have hl := hS.crossing _ _ e he
  rw [Bool.eq_iff_iff, decide_eq_true_iff, Function.comp_apply, Bool.and_eq_true,
    key e hl f hf, key e hl g hg]

/-- **C67** A point on land that S2 moves to a corner ends up at that very vertex. -/
theorem C67_corner (L : Libm) (hL : L.Ok) (S : Queries) (s : Seg) (c v : Coord) (hc : c.Geo)
    (hv : v.Geo) (h : S.project (toPoint L s.p) (toPoint L s.q) (toPoint L c) = toPoint L v) :
    project L S s c = .ok v := by
  unfold project
  rw [C59_default L.sqrt hL.sqrt _ _ (C67_geographic L hL _) hc, h, C67_roundtrip L hL v hv]

/-- **C67** Corrections made with answers of S2, whatever they are, stay in range, as C57 asks. -/
theorem C67_land (L : Libm) (hL : L.Ok) (S : Queries) (E : ShortestPath.Env) :
    LandOk (env L S E) := by
  refine C59_land L.sqrt hL.sqrt
    (fun s v => ofPoint L (S.project (toPoint L s.p) (toPoint L s.q) (toPoint L v)))
    (fun s v => C67_geographic L hL _) (env L S E) (fun s v => rfl) fun v => ?_
  show closest L S v = _ ∨ ∃ e, closest L S v = _ ∧ _
  unfold closest
  cases S.nearest (toPoint L v) with
  | none => exact Or.inl rfl
  | some e =>
    right
    have per : ∀ {c : Coord}, c.Geo → c.Per := by
      intro c h
      obtain ⟨h1, h2, h3, h4⟩ := h
      exact ⟨by omega, by omega, h3, h4⟩
    exact ⟨_, rfl, per (C67_geographic L hL _), per (C67_geographic L hL _)⟩

/-- **C67** Calls from Python for degrees in range have no undefined behaviour, whatever S2
answers. -/
theorem C67_calls {D : Type} [LinearOrder D] (A : ShortestPath.Arith D) (hA : A.Sound) (L : Libm)
    (hL : L.Ok) (S : Queries) (E : ShortestPath.Env) (hg : UserGraph E.graph)
    (hord : ∀ l, (E.ord l).Perm l) (ps : List (List Coord)) (hps : ∀ v ∈ ps.flatten, v.Geo)
    (hv : E.graph.verts = ps.flatten) (hr : ShortestPath.IsReach ps E.reach) (allow : Bool) :
    (∀ s d : ℚ × ℚ, |s.1| ≤ 180 → |s.2| ≤ 90 → |d.1| ≤ 180 → |d.2| ≤ 90 → ∀ r,
      Frontend.Interpolate A (env L S E) s d allow r → r ≠ .error .ub) ∧
    (∀ qs : List ((ℚ × ℚ) × (ℚ × ℚ)),
      (∀ q ∈ qs, |q.1.1| ≤ 180 ∧ |q.1.2| ≤ 90 ∧ |q.2.1| ≤ 180 ∧ |q.2.2| ≤ 90) → ∀ r,
      Frontend.BatchInterpolate A (env L S E) qs allow r → ∃ rs, r = .ok rs) :=
  C57_geographic A hA (env L S E) hg hord ps hps hv hr allow fun _ => C67_land L hL S E

/-! ### Such a library -/

/-- A C library as assumed exists. -/
theorem exists_libm : ∃ L : Libm, L.Ok := by
  have near : ∀ x : ℝ, ∃ q : ℚ, |(q : ℝ) - x| ≤ 1 / 2 ^ 50 * |x| := by
    intro x
    rcases eq_or_ne x 0 with rfl | hx
    · exact ⟨0, by simp⟩
    · have hx' := abs_pos.2 hx
      obtain ⟨q, h1, h2⟩ := exists_rat_btwn (show x < x + 1 / 2 ^ 50 * |x| by
        have : (0 : ℝ) < 1 / 2 ^ 50 * |x| := by positivity
        linarith)
      exact ⟨q, by rw [abs_of_pos (by linarith)]; linarith⟩
  have near' : ∀ x : ℝ, ∃ q : ℚ, |(q : ℝ) - x| ≤ 1 / 2 ^ 48 := by
    intro x
    obtain ⟨q, h1, h2⟩ := exists_rat_btwn (show x < x + 1 / 2 ^ 48 by norm_num)
    exact ⟨q, by rw [abs_of_pos (by linarith)]; linarith⟩
  choose f hf using near
  choose g hg using near'
  obtain ⟨sq, hsq⟩ := exists_sqrt
  exact ⟨⟨fun x => f (Real.sin x), fun x => f (Real.cos x), fun y x => g (Complex.arg ⟨x, y⟩), sq,
    fun q => round q⟩, fun x => hf _, fun x => hf _, fun x y => hg _, hsq,
    fun q => by rw [abs_sub_comm]; exact abs_sub_round q⟩

/-- Non-vacuity of C67: a triangle with corners at both poles, the northern one on the meridian; an
index that always answers with its last edge, turned around. -/
def exPoles : List Coord := [⟨-180000000, 90000000⟩, ⟨90000000, -90000000⟩, ⟨0, 1⟩]

example : ∃ (L : Libm) (S : Queries), L.Ok ∧ (∀ v ∈ [exPoles].flatten, v.Geo) ∧
    S.Over L [exPoles] ∧ (∀ c, closest L S c = .ok ⟨⟨-180000000, 90000000⟩, ⟨0, 1⟩⟩) ∧
    (∀ l, crossings L S l = [⟨⟨-180000000, 90000000⟩, ⟨0, 1⟩⟩]) := by
  obtain ⟨L, hL⟩ := exists_libm
  have hgeo : ∀ v ∈ [exPoles].flatten, v.Geo := by decide
  let e : Point × Point := (toPoint L ⟨-180000000, 90000000⟩, toPoint L ⟨0, 1⟩)
  have he : FromLoops L [exPoles] e := by
    refine ⟨exPoles, by simp, Or.inr ?_⟩
    rw [loopEdges_loop]
    exact List.mem_map.2 ⟨⟨⟨0, 1⟩, ⟨-180000000, 90000000⟩⟩, by decide, rfl⟩
  have ho : ofEdge L e = ⟨⟨-180000000, 90000000⟩, ⟨0, 1⟩⟩ := by
    show (⟨_, _⟩ : Seg) = _
    rw [C67_roundtrip L hL _ (by decide), C67_roundtrip L hL _ (by decide)]
  refine ⟨L, ⟨fun _ => true, fun _ => some e, fun _ _ => [e], fun _ _ p => p⟩, hL, hgeo, ⟨?_, ?_⟩,
    ?_, ?_⟩
  · intro p f h
    injection h with h
    rw [← h]; exact he
  · intro p q f h
    rw [List.mem_singleton.1 h]; exact he
  · intro c
    show Except.ok (ofEdge L e) = _
    rw [ho]
  · intro l
    show [ofEdge L e] = _
    rw [ho]

/-- An index that finds one edge of the same triangle near every point, after an empty result. -/
example : ∃ (L : Libm) (found : Point → List (Option (Point × Point))), L.Ok ∧
    (∀ p e, some e ∈ found p → FromLoops L [exPoles] e) ∧
    ∀ c, within L found c = [⟨⟨90000000, -90000000⟩, ⟨0, 1⟩⟩] := by
  obtain ⟨L, hL⟩ := exists_libm
  let e : Point × Point := (toPoint L ⟨90000000, -90000000⟩, toPoint L ⟨0, 1⟩)
  refine ⟨L, fun _ => [none, some e], hL, fun p f h => ?_, fun c => ?_⟩
  · simp only [List.mem_cons, reduceCtorEq, Option.some.injEq, List.not_mem_nil, or_false,
      false_or] at h
    rw [h]
    refine ⟨exPoles, by simp, Or.inl ?_⟩
    rw [loopEdges_loop]
    exact List.mem_map.2 ⟨⟨⟨90000000, -90000000⟩, ⟨0, 1⟩⟩, by decide, rfl⟩
  · show [ofEdge L e] = _
    congr 1
    show (⟨_, _⟩ : Seg) = _
    rw [C67_roundtrip L hL _ (by decide), C67_roundtrip L hL _ (by decide)]

end Capi
