import Verif.Lemmas.Islet
import Verif.Props.Loop

/-!
# C99: convex islands of moderate size

Whether a place is land is decided by S2 on the sphere, while islands are drawn on the map.  For convex
islands of at most a degree both agree, up to a margin of third order in the size.
-/

namespace Capi

open Sphere ShortestPath

namespace Sphere

theorem Stout.geo {W : ℤ} {vs : List Coord} (h : Stout W vs) : ∀ v ∈ vs, v.Geo := by
  intro v hv
  obtain ⟨h1, h2⟩ := h.place v hv
  rw [abs_le] at h1 h2
  exact ⟨by omega, by omega, by omega, by omega⟩

theorem segment_ends {vs : List Coord} {e : Seg} (he : e ∈ Polygon.segments vs) :
    e.p ∈ vs ∧ e.q ∈ vs := by
  obtain ⟨i, hi, rfl⟩ := List.mem_map.1 he
  have h0 : 0 < vs.length := lt_of_le_of_lt (Nat.zero_le i) (List.mem_range.1 hi)
  have key : ∀ j, ringAt vs j ∈ vs := fun j => by
    unfold ringAt
    rw [List.getD_eq_getElem?_getD, List.getElem?_eq_getElem (Nat.mod_lt j h0)]
    exact List.getElem_mem _
  exact ⟨key _, key _⟩

end Sphere

/-- **C99** A stout island becomes a convex loop on the sphere, drawn counter-clockwise. -/
theorem C99_convex (L : Libm) (hL : L.Ok) {W : ℤ} {vs : List Coord} (h : Stout W vs) :
    ConvexLoop (loop L vs) := by
  have hg := Stout.geo h
  refine ⟨by unfold loop; rw [List.length_map]; exact h.three, ?_, ?_⟩
  · exact h.nodup.map_on fun a ha b hb e => C67_injective L hL a b (hg a ha) (hg b hb) e
  · intro e he v hv h1 h2
    rw [loopEdges_loop] at he
    obtain ⟨s, hs, rfl⟩ := List.mem_map.1 he
    obtain ⟨c, hc, rfl⟩ := List.mem_map.1 hv
    obtain ⟨m1, m2⟩ := segment_ends hs
    refine det_pos hL (hg _ m1) (hg _ m2) (hg _ hc) ?_
    exact sphereDet_left (h.most.trans (by norm_num)) (h.place _ m1).2 (h.near _ m1 _ m2)
      (h.near _ m1 _ hc) (h.turn s hs c hc (fun e => h1 (by rw [e])) fun e => h2 (by rw [e]))

/-- **C99** A place to the left of all sides on the map, by the margin, is land; queries from or to it
are refused. -/
theorem C99_ashore {D : Type} [LinearOrder D] (A : Arith D) (L : Libm) (hL : L.Ok)
    (inside : List Point → Point → Prop) (hi : ConvexRules L inside) {W : ℤ} {vs : List Coord}
    (h : Stout W vs) (ps : List (List Coord)) (hm : vs ∈ ps) (S : Queries)
    (hS : S.ByLoops L ps inside) (p : Coord) (hp : p.Geo) (hw : ∀ v ∈ vs, Nearby W v p)
    (hl : ∀ e ∈ Polygon.segments vs, Beyond W (area2 e.p e.q p)) :
    onLand L S p = true ∧ ∀ (E : Env) (q : Coord), q.Geo → ∀ r : Res (List Coord),
      (Query A (env L S E) p q false r ↔ r = .error .exn) ∧
      (Query A (env L S E) q p false r ↔ r = .error .exn) := by
  have hg := Stout.geo h
  have land : onLand L S p = true := by
    refine (hS p hp).2 ⟨vs, hm, hi.inner vs p hg hp (C99_convex L hL h) ?_⟩
    intro e he
    rw [loopEdges_loop] at he
    obtain ⟨s, hs, rfl⟩ := List.mem_map.1 he
    obtain ⟨m1, m2⟩ := segment_ends hs
    exact det_pos hL (hg _ m1) (hg _ m2) hp (sphereDet_left (h.most.trans (by norm_num))
      (h.place _ m1).2 (h.near _ m1 _ m2) (hw _ m1) (hl s hs))
  exact ⟨land, fun E q hq r => ⟨refused A L S E hp hq (Or.inl land) r,
    refused A L S E hq hp (Or.inr land) r⟩⟩

/-- **C99** A place that is, for every island, either far from it or to the right of one of its sides on
the map, by the margin for three times its size, is water. -/
theorem C99_afloat (L : Libm) (hL : L.Ok) (inside : List Point → Point → Prop)
    (hi : ConvexRules L inside) (ps : List (List Coord)) (S : Queries) (hS : S.ByLoops L ps inside)
    (p : Coord) (hp : p.Geo)
    (h : ∀ vs ∈ ps, ∃ W, Stout W vs ∧ ((∃ v ∈ vs, ¬ Nearby (3 * W) v p) ∨
      ∃ e ∈ Polygon.segments vs, Beyond (3 * W) (-area2 e.p e.q p))) :
    onLand L S p = false := by
  by_contra hcon
  rw [Bool.not_eq_false] at hcon
  obtain ⟨vs, hv, hin⟩ := (hS p hp).1 hcon
  obtain ⟨W, hs, hout⟩ := h vs hv
  have hg := Stout.geo hs
  have hcx := C99_convex L hL hs
  have hc := hi.outer vs p hg hp hcx hin
  have hW1 := hs.least
  have hW2 := hs.most
  have w2 : ((W : ℝ) * micro) ^ 2 ≤ 1 / 2 := by
    have h1 : (W : ℝ) ≤ 1000000 := by exact_mod_cast hW2
    have h0 : (0 : ℝ) ≤ W := by exact_mod_cast (by omega : (0 : ℤ) ≤ W)
    have h2 : (W : ℝ) * micro ≤ 1 / 2 := by nlinarith [micro_hi, micro_pos]
    have h3 : 0 ≤ (W : ℝ) * micro := mul_nonneg h0 micro_pos.le
    nlinarith
  have near : ∀ u ∈ vs, Nearby (3 * W) u p := by
    intro u hu
    refine near_of_dot (hs.place u hu) hp hW1 hW2 (inCone_dot_ge hL hg hp (hg u hu) w2 ?_ hc)
    intro v hv'
    obtain ⟨n1, n2⟩ := hs.near u hu v hv'
    exact sphereDot_ge (by rw [rad_diff]; exact rad_abs_le n1) (by rw [rad_diff]; exact rad_abs_le n2)
  rcases hout with ⟨v, hv', hn⟩ | ⟨e, he, hr⟩
  · exact hn (near v hv')
  · obtain ⟨m1, m2⟩ := segment_ends he
    have hE : (toPoint L e.p, toPoint L e.q) ∈ loopEdges (loop L vs) := by
      rw [loopEdges_loop]
      exact List.mem_map.2 ⟨e, he, rfl⟩
    have pos : 0 ≤ det (toPoint L e.p) (toPoint L e.q) (toPoint L p) := by
      refine inCone_det hc _ _ fun v hv' => ?_
      by_cases h1 : v = toPoint L e.p
      · rw [h1]; apply le_of_eq; simp only [det]; ring
      by_cases h2 : v = toPoint L e.q
      · rw [h2]; apply le_of_eq; simp only [det]; ring
      exact (hcx.2.2 _ hE v hv' h1 h2).le
    have mono : Nearby (3 * W) e.p e.q := by
      obtain ⟨n1, n2⟩ := hs.near _ m1 _ m2
      exact ⟨n1.trans (by omega), n2.trans (by omega)⟩
    exact absurd (det_neg hL (hg _ m1) (hg _ m2) hp (sphereDet_right (by omega) (hs.place _ m1).2
      mono (near _ m1) hr)) (not_lt.2 pos)

/-- **C99** The constructor keeps a stout island, drawn in either direction, when its area exceeds the
rounding error of the winding sum (C12). -/
theorem C99_polygon (T : ℕ → Polygon.SumTree) (hT : Polygon.PlanOk T) {W : ℤ} {vs : List Coord}
    (h : Stout W vs) (hd : (T vs.length).depth ≤ 2 ^ 40)
    (hA : vs.length * (156 + 44 * (T vs.length).depth) < twiceArea vs) :
    Polygon.mk T vs = vs ∧ Polygon.mk T vs.reverse = vs := by
  have hg := Stout.geo h
  have h3 := h.three
  have hper : ∀ v ∈ vs, v.Per := by
    intro v hv
    obtain ⟨g1, g2, g3, g4⟩ := hg v hv
    exact ⟨by omega, by omega, g3, g4⟩
  have at' : ∀ i, ringAt vs i = vs[i % vs.length]'(Nat.mod_lt _ (by omega)) := fun i => by
    unfold ringAt
    rw [List.getD_eq_getElem?_getD, List.getElem?_eq_getElem (Nat.mod_lt _ (by omega))]; rfl
  have e : Polygon.removeCollinear vs = vs := by
    have all : ∀ i < vs.length, Polygon.keeps (ringAt vs (i + vs.length - 1)) (ringAt vs i)
        (ringAt vs (i + 1)) = true := by
      intro i hi
      by_contra hk
      have hc := ((keeps_false_iff_cross _ _ _).1 (by simpa using hk)).1
      have hmod : (i + vs.length - 1 + 1) % vs.length = i % vs.length := by
        rw [show i + vs.length - 1 + 1 = i + vs.length by omega, Nat.add_mod_right]
      have hseg : (⟨ringAt vs (i + vs.length - 1), ringAt vs i⟩ : Seg) ∈ Polygon.segments vs := by
        refine List.mem_map.2 ⟨(i + vs.length - 1) % vs.length,
          List.mem_range.2 (Nat.mod_lt _ (by omega)), ?_⟩
        have e1 : ringAt vs ((i + vs.length - 1) % vs.length) = ringAt vs (i + vs.length - 1) := by
          rw [at', at']; simp only [Nat.mod_mod]
        have e2 : ringAt vs ((i + vs.length - 1) % vs.length + 1) = ringAt vs i := by
          rw [at', at']; simp only [Nat.mod_add_mod, hmod]
        rw [e1, e2]
      have hmem : ringAt vs (i + 1) ∈ vs := by rw [at']; exact List.getElem_mem _
      have inj : ∀ a b, ringAt vs a = ringAt vs b → a % vs.length = b % vs.length := by
        intro a b hab
        rw [at', at'] at hab
        exact (h.nodup.getElem_inj_iff).1 hab
      have n1 : ringAt vs (i + 1) ≠ ringAt vs (i + vs.length - 1) := by
        intro hab
        have := inj _ _ hab
        rcases Nat.eq_zero_or_pos i with rfl | hi0
        · rw [Nat.mod_eq_of_lt (by omega), Nat.mod_eq_of_lt (by omega)] at this
          omega
        · rw [show i + vs.length - 1 = (i - 1) + vs.length by omega, Nat.add_mod_right,
            Nat.mod_eq_of_lt (show i - 1 < vs.length by omega)] at this
          rcases Nat.lt_or_ge (i + 1) vs.length with hl | hl
          · rw [Nat.mod_eq_of_lt hl] at this; omega
          · rw [show i + 1 = vs.length by omega, Nat.mod_self] at this; omega
      have n2 : ringAt vs (i + 1) ≠ ringAt vs i := by
        intro hab
        have := inj _ _ hab
        rw [Nat.mod_eq_of_lt hi] at this
        rcases Nat.lt_or_ge (i + 1) vs.length with hl | hl
        · rw [Nat.mod_eq_of_lt hl] at this; omega
        · rw [show i + 1 = vs.length by omega, Nat.mod_self] at this; omega
      have hb := h.turn _ hseg _ hmem n1 n2
      have hz : area2 (ringAt vs (i + vs.length - 1)) (ringAt vs i) (ringAt vs (i + 1)) = 0 := by
        rw [← hc]
        simp only [area2, Coord.cross, sub_lon, sub_lat]
        ring
      simp only at hb
      unfold Beyond at hb
      rw [hz] at hb
      have : 0 ≤ W ^ 3 := by have := h.least; positivity
      omega
    unfold Polygon.removeCollinear
    rw [List.filter_eq_self.2 fun i hi => all i (List.mem_range.1 hi)]
    apply List.ext_getElem
    · simp
    · intro i h1 h2
      simp only [List.getElem_map, List.getElem_range, at', Nat.mod_eq_of_lt h2]
  have hA' : AreaResolved (T vs.length) vs := lt_of_lt_of_le hA (le_abs_self _)
  have hpos : 0 < twiceArea vs := lt_of_le_of_lt (by positivity) hA
  have e1 : Polygon.mk T vs = vs := by
    unfold Polygon.mk
    rw [e, mk_of_resolved hT hper hd hA', if_pos hpos]
  refine ⟨e1, ?_⟩
  rw [C13_direction T hT vs hper (by rw [e]; exact hd) (by rw [e]; exact hA'), e1]

/-! ### The margin is needed -/

/-- A square of a degree in latitude 45. -/
def exIslet : List Coord :=
  [⟨0, 45000000⟩, ⟨1000000, 45000000⟩, ⟨1000000, 46000000⟩, ⟨0, 46000000⟩]

theorem exIslet_stout : Stout 1000000 exIslet where
  least := by decide
  most := by decide
  three := by decide
  nodup := by decide
  place := by unfold exIslet; decide
  near := by unfold exIslet Nearby; decide
  turn := by unfold exIslet Beyond; decide +kernel

theorem exIslet_det : sphereDet ⟨0, 45000000⟩ ⟨1000000, 45000000⟩ ⟨500000, 45000100⟩ <
    -(1 / 2 ^ 41) := by
  rw [sphereDet_tangent]
  unfold east north
  have m0 := micro_pos
  have m1 := micro_lo
  have m2 := micro_hi
  have e45 : rad 45000000 = Real.pi / 4 := by unfold rad; push_cast; ring
  have e0 : rad 0 = 0 := by unfold rad; simp
  have e1 : rad 1000000 = 2 * rad 500000 := by rw [rad_eq, rad_eq]; push_cast; ring
  have ed : rad 45000100 - Real.pi / 4 = 100 * micro := by
    rw [← e45, rad_diff, rad_eq]; push_cast; ring
  have et : rad 500000 = 500000 * micro := by rw [rad_eq]; push_cast; ring
  simp only [e45, e0, e1, sub_zero, sub_self, Real.sin_zero, zero_add, ed, et]
  have ec : |Real.cos (rad 45000100) - Real.cos (Real.pi / 4)| ≤ 100 * micro := by
    refine (Real.abs_cos_sub_cos_le _ _).trans (le_of_eq ?_)
    rw [ed, abs_of_pos (by positivity)]
  rw [Real.sin_two_mul, Real.cos_two_mul', Real.sin_pi_div_four, Real.cos_pi_div_four] at *
  set t : ℝ := 500000 * micro with ht
  have t0 : 0 < t := by positivity
  have tl : 8726 / 1000000 ≤ t := by rw [ht]; linarith
  have th : t ≤ 8727 / 1000000 := by rw [ht]; linarith
  have hsc := Real.sin_sq_add_cos_sq t
  have hS : t / 2 ≤ Real.sin t := by
    have := (abs_le.1 (sin_sub_self_le (x := t) (w := t) (abs_of_pos t0).le (by linarith))).1
    have q : t ^ 3 ≤ t := by
      have := pow_le_pow_of_le_one t0.le (by linarith : t ≤ 1) (by norm_num : 1 ≤ 3)
      simpa using this
    linarith
  have hC1 := Real.cos_le_one t
  have hv : t ^ 2 ≤ 4.935 * (1 - Real.cos t) :=
    sq_le_five (by rw [abs_of_pos t0]; linarith [Real.pi_gt_three])
  have hC0 : 0 ≤ Real.cos t := Real.cos_nonneg_of_mem_Icc ⟨by linarith [Real.pi_pos],
    by linarith [Real.pi_gt_three]⟩
  have hd : Real.sin (100 * micro) ≤ 100 * micro := Real.sin_le (by positivity)
  have hd0 : 0 ≤ Real.sin (100 * micro) := Real.sin_nonneg_of_nonneg_of_le_pi (by positivity)
    (by linarith [Real.pi_gt_three])
  have k2 : √2 ^ 2 = 2 := Real.sq_sqrt (by norm_num)
  have k0 : 1.4 ≤ √2 := by rw [Real.le_sqrt' (by norm_num)]; norm_num
  have k1 : √2 ≤ 1.5 := by rw [Real.sqrt_le_left (by norm_num)]; norm_num
  generalize Real.sin (100 * micro) = d at *
  generalize Real.cos (rad 45000100) = c at *
  generalize Real.sin t = s at *
  generalize Real.cos t = C at *
  have hc : 0.6 ≤ c := by have := (abs_le.1 ec).1; linarith
  have e : √2 / 2 * (2 * s * C) * (d + √2 / 2 * c * (1 - C)) -
      c * s * (√2 / 2 * (√2 / 2) * (1 - (C ^ 2 - s ^ 2))) = s * (√2 * C * d - c * (1 - C)) := by
    have hs2 : s ^ 2 = 1 - C ^ 2 := by linarith
    have e2 : √2 / 2 * (√2 / 2) = 1 / 2 := by nlinarith
    linear_combination (s * C * c * (1 - C) / 2) * k2 - (c * s * (1 - (C ^ 2 - s ^ 2))) * e2 -
      (c * s / 2) * hs2
  rw [e]
  have b1 : √2 * C * d ≤ 1.5 * 1 * (100 * micro) := by
    refine mul_le_mul (mul_le_mul k1 hC1 hC0 (by norm_num)) hd hd0 (by norm_num)
  have b2 : 0.6 * (1 - C) ≤ c * (1 - C) := mul_le_mul_of_nonneg_right hc (by linarith)
  have b3 : (8726 / 1000000 : ℝ) ^ 2 ≤ t ^ 2 := pow_le_pow_left₀ (by norm_num) tl 2
  have b4 : √2 * C * d - c * (1 - C) ≤ -(1 / 1000000) := by
    norm_num at *
    linarith
  have b5 : 1 / 1000 ≤ s := by linarith
  have b6 : s * (√2 * C * d - c * (1 - C)) ≤ s * -(1 / 1000000) :=
    mul_le_mul_of_nonneg_left b4 (by linarith)
  norm_num at *
  linarith

/-- The rules are consistent. -/
theorem exists_convex (L : Libm) : ∃ inside, ConvexRules L inside :=
  ⟨InCone, fun _ _ _ _ _ h => h, fun _ _ _ _ h hp => inCone_of_left h hp⟩

/-- **C99** Without a margin it is false: a place strictly inside a square on the map, to the left of
all its sides, may be water, as its southern side on the sphere is north of that of the map. -/
theorem C99_margin_false (L : Libm) (hL : L.Ok) (inside : List Point → Point → Prop)
    (hi : ConvexRules L inside) :
    ¬ ∀ (W : ℤ) (vs : List Coord), Stout W vs → ∀ S : Queries, S.ByLoops L [vs] inside →
      ∀ p : Coord, p.Geo → (∀ e ∈ Polygon.segments vs, 0 < area2 e.p e.q p) →
      onLand L S p = true := by
  intro h
  obtain ⟨S, hS⟩ := exists_queries L inside [exIslet]
  have hs := exIslet_stout
  have hp : (⟨500000, 45000100⟩ : Coord).Geo := by decide
  have hl := h _ _ hs S hS ⟨500000, 45000100⟩ hp (by decide +kernel)
  obtain ⟨vs, hv, hin⟩ := (hS _ hp).1 hl
  rw [List.mem_singleton] at hv
  subst hv
  have hcx := C99_convex L hL hs
  have hc := hi.outer _ _ (Stout.geo hs) hp hcx hin
  have hE : (toPoint L ⟨0, 45000000⟩, toPoint L ⟨1000000, 45000000⟩) ∈
      loopEdges (loop L exIslet) := by
    rw [loopEdges_loop]
    exact List.mem_map.2 ⟨⟨⟨0, 45000000⟩, ⟨1000000, 45000000⟩⟩, by decide, rfl⟩
  refine absurd (det_neg hL (by decide) (by decide) hp exIslet_det)
    (not_lt.2 (inCone_det hc _ _ fun v hv' => ?_))
  by_cases h1 : v = toPoint L ⟨0, 45000000⟩
  · rw [h1]; apply le_of_eq; simp only [det]; ring
  by_cases h2 : v = toPoint L ⟨1000000, 45000000⟩
  · rw [h2]; apply le_of_eq; simp only [det]; ring
  exact (hcx.2.2 _ hE v hv' h1 h2).le

/-- Non-vacuity of C99: the square drawn clockwise, a place in its middle, and one in the sea a degree
from it. -/
example : ∃ (L : Libm) (inside : List Point → Point → Prop) (S : Queries), L.Ok ∧
    ConvexRules L inside ∧ Stout 1000000 exIslet ∧
    (Polygon.SumTree.sequential 4).depth ≤ 2 ^ 40 ∧
    Polygon.mk Polygon.SumTree.sequential exIslet.reverse = exIslet ∧
    S.ByLoops L [Polygon.mk Polygon.SumTree.sequential exIslet.reverse] inside ∧
    onLand L S ⟨500000, 45500000⟩ = true ∧ onLand L S ⟨-5000000, 45500000⟩ = false ∧
    onLand L S ⟨500000, 40000000⟩ = false := by
  obtain ⟨L, hL⟩ := exists_libm
  obtain ⟨inside, hi⟩ := exists_convex L
  obtain ⟨S, hS⟩ := exists_queries L inside [exIslet]
  have e := (C99_polygon Polygon.SumTree.sequential sequential_ok exIslet_stout (by decide)
    (by decide +kernel)).2
  refine ⟨L, inside, S, hL, hi, exIslet_stout, by decide, e, by rw [e]; exact hS, ?_, ?_, ?_⟩
  · exact (C99_ashore (exactArith 1 none) L hL inside hi exIslet_stout _ (List.mem_singleton.2 rfl) S hS _
      (by decide) (by unfold exIslet Nearby; decide) (by unfold Beyond; decide +kernel)).1
  · refine C99_afloat L hL inside hi _ S hS _ (by decide) ?_
    intro vs hv
    rw [List.mem_singleton] at hv
    subst hv
    exact ⟨_, exIslet_stout, Or.inl ⟨_, List.mem_cons_self, by unfold Nearby; decide⟩⟩
  · refine C99_afloat L hL inside hi _ S hS _ (by decide) ?_
    intro vs hv
    rw [List.mem_singleton] at hv
    subst hv
    exact ⟨_, exIslet_stout, Or.inr ⟨⟨⟨0, 45000000⟩, ⟨1000000, 45000000⟩⟩, by decide, by
      unfold Beyond; decide⟩⟩

end Capi
