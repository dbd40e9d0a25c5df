import Verif.Lemmas.Islet
import Verif.Lemmas.Islands
import Verif.Spec.Coast
import Verif.Spec.Passage

/-! # Lemmas on courses over islands -/

namespace Capi

namespace Sphere

/-- The edges before and after an edge of a convex loop. -/
theorem convexLoop_neighbours {vs : List Point} (h : ConvexLoop vs) {e : Point × Point}
    (he : e ∈ loopEdges vs) :
    ∃ u w, (u, e.1) ∈ loopEdges vs ∧ (e.2, w) ∈ loopEdges vs ∧ 0 < det e.1 e.2 u ∧
      0 < det e.1 e.2 w ∧ e.1 ∈ vs ∧ e.2 ∈ vs := by
  obtain ⟨h3, hnd, hpos⟩ := h
  obtain ⟨i, hi, rfl⟩ := List.mem_map.1 he
  have hi := List.mem_range.1 hi
  have hn : 0 < vs.length := by omega
  have at' : ∀ j, vs.getD (j % vs.length) default = vs[j % vs.length]'(Nat.mod_lt _ hn) := by
    intro j
    rw [List.getD_eq_getElem?_getD, List.getElem?_eq_getElem (Nat.mod_lt _ hn)]
    rfl
  have mem : ∀ j, vs.getD (j % vs.length) default ∈ vs := fun j => by
    rw [at']
    exact List.getElem_mem _
  have edge : ∀ j, (vs.getD (j % vs.length) default, vs.getD ((j + 1) % vs.length) default) ∈
      loopEdges vs := by
    intro j
    refine List.mem_map.2 ⟨j % vs.length, List.mem_range.2 (Nat.mod_lt _ hn), ?_⟩
    rw [Nat.mod_mod, Nat.mod_add_mod]
  have ne : ∀ {j k}, j % vs.length ≠ k % vs.length →
      vs.getD (j % vs.length) default ≠ vs.getD (k % vs.length) default := by
    intro j k hjk e
    rw [at', at'] at e
    exact hjk ((List.Nodup.getElem_inj_iff hnd).1 e)
  have m0 : i % vs.length = i := Nat.mod_eq_of_lt hi
  have m1 : (i + vs.length - 1 + 1) % vs.length = i % vs.length := by
    rw [show i + vs.length - 1 + 1 = i + vs.length by omega, Nat.add_mod_right]
  have cases1 : (i + 1) % vs.length = if i + 1 = vs.length then 0 else i + 1 := by
    split_ifs with h
    · rw [h, Nat.mod_self]
    · exact Nat.mod_eq_of_lt (by omega)
  have cases2 : (i + 1 + 1) % vs.length =
      if i + 1 = vs.length then 1 else if i + 2 = vs.length then 0 else i + 2 := by
    split_ifs with h h'
    · rw [h, show vs.length + 1 = 1 + vs.length by omega, Nat.add_mod_right]
      exact Nat.mod_eq_of_lt (by omega)
    · rw [show i + 1 + 1 = vs.length by omega, Nat.mod_self]
    · exact Nat.mod_eq_of_lt (by omega)
  have cases0 : (i + vs.length - 1) % vs.length = if i = 0 then vs.length - 1 else i - 1 := by
    split_ifs with h
    · rw [h, Nat.zero_add]
      exact Nat.mod_eq_of_lt (by omega)
    · rw [show i + vs.length - 1 = i - 1 + vs.length by omega, Nat.add_mod_right]
      exact Nat.mod_eq_of_lt (by omega)
  refine ⟨vs.getD ((i + vs.length - 1) % vs.length) default,
    vs.getD ((i + 1 + 1) % vs.length) default, ?_, edge (i + 1), ?_, ?_, mem _, mem _⟩
  · have := edge (i + vs.length - 1)
    rwa [m1] at this
  · refine hpos _ he _ (mem _) (ne ?_) (ne ?_)
    · rw [cases0, m0]; split_ifs <;> omega
    · rw [cases0, cases1]; split_ifs <;> omega
  · refine hpos _ he _ (mem _) (ne ?_) (ne ?_)
    · rw [cases2, m0]; split_ifs <;> omega
    · rw [cases2, cases1]; split_ifs <;> omega

/-- The edge by which an arc from outside comes into a convex loop is crossed properly, unless the arc
goes exactly through a corner. -/
theorem entry {vs : List Point} (h : ConvexLoop vs) {s d : Point}
    (hout : ∃ e ∈ loopEdges vs, det e.1 e.2 s < 0) {t : ℝ} (t0 : 0 ≤ t) (t1 : t ≤ 1)
    (hin : ∀ e ∈ loopEdges vs, 0 < (1 - t) * (det e.1 e.2 s : ℝ) + t * (det e.1 e.2 d : ℝ))
    (hv : ∀ v ∈ vs, det s d v ≠ 0) : ∃ e ∈ loopEdges vs, SameTurn s d e.1 e.2 := by
  classical
  set F := (loopEdges vs).toFinset.filter fun e => det e.1 e.2 s < 0 with hF
  have hFne : F.Nonempty := by
    obtain ⟨e, he, h1⟩ := hout
    exact ⟨e, Finset.mem_filter.2 ⟨List.mem_toFinset.2 he, h1⟩⟩
  obtain ⟨e, heF, hmax⟩ := F.exists_max_image (fun e => -det e.1 e.2 s / det e.1 e.2 d) hFne
  obtain ⟨he, hA⟩ := Finset.mem_filter.1 heF
  have he := List.mem_toFinset.1 he
  have pos : ∀ e ∈ loopEdges vs, det e.1 e.2 s < 0 → 0 < det e.1 e.2 d := by
    intro e he hs
    have k := hin e he
    have hs' : (det e.1 e.2 s : ℝ) < 0 := by exact_mod_cast hs
    by_contra hcon
    have hd' : (det e.1 e.2 d : ℝ) ≤ 0 := by exact_mod_cast not_lt.1 hcon
    nlinarith [mul_nonneg t0 (neg_nonneg.2 hd'), mul_nonneg (sub_nonneg.2 t1) (neg_nonneg.2 hs'.le)]
  have hB := pos e he hA
  -- the point where the arc meets the edge is to the left of all others
  have key : ∀ f ∈ loopEdges vs,
      0 ≤ det e.1 e.2 d * det f.1 f.2 s - det e.1 e.2 s * det f.1 f.2 d := by
    intro f hf
    by_cases hs : det f.1 f.2 s < 0
    · have hd := pos f hf hs
      have := hmax f (Finset.mem_filter.2 ⟨List.mem_toFinset.2 hf, hs⟩)
      rw [div_le_div_iff₀ hd hB] at this
      linarith
    · rw [not_lt] at hs
      by_cases hd : 0 ≤ det f.1 f.2 d
      · nlinarith [mul_nonneg hB.le hs, mul_nonneg (neg_nonneg.2 hA.le) hd]
      · rw [not_le] at hd
        have k1 := hin e he
        have k2 := hin f hf
        have a1 : (det e.1 e.2 s : ℝ) < 0 := by exact_mod_cast hA
        have a2 : (0 : ℝ) < det e.1 e.2 d := by exact_mod_cast hB
        have a3 : (0 : ℝ) ≤ det f.1 f.2 s := by exact_mod_cast hs
        have a4 : (det f.1 f.2 d : ℝ) < 0 := by exact_mod_cast hd
        have tpos : 0 < t := by
          rcases t0.lt_or_eq with h | h
          · exact h
          · rw [← h] at k1; linarith
        have tlt : 0 < 1 - t := by
          rcases t1.lt_or_eq with h | h
          · linarith
          · rw [h] at k2; linarith
        have goal : (0 : ℝ) ≤ det e.1 e.2 d * det f.1 f.2 s - det e.1 e.2 s * det f.1 f.2 d := by
          set A : ℝ := (det e.1 e.2 s : ℝ)
          set B : ℝ := (det e.1 e.2 d : ℝ)
          set A' : ℝ := (det f.1 f.2 s : ℝ)
          set B' : ℝ := (det f.1 f.2 d : ℝ)
          have b1 : -((1 - t) * A) < t * B := by linarith
          have b2 : -(t * B') < (1 - t) * A' := by linarith
          have c1 : 0 ≤ -((1 - t) * A) := by nlinarith
          have c2 : 0 ≤ -(t * B') := by nlinarith
          have m := mul_le_mul b1.le b2.le c2 (c1.trans b1.le)
          have tt : 0 < t * (1 - t) := mul_pos tpos tlt
          have : 0 ≤ t * (1 - t) * (B * A' - A * B') := by nlinarith
          exact nonneg_of_mul_nonneg_right this tt
        exact_mod_cast goal
  obtain ⟨u, w, hu, hw, pu, pw, m1, m2⟩ := convexLoop_neighbours h he
  have kX : det s d e.1 * det e.1 e.2 u =
      det e.1 e.2 d * det u e.1 s - det e.1 e.2 s * det u e.1 d := by
    simp only [det]; ring
  have kY : det s d e.2 * det e.1 e.2 w =
      -(det e.1 e.2 d * det e.2 w s - det e.1 e.2 s * det e.2 w d) := by
    simp only [det]; ring
  have kX' := key _ hu
  have kY' := key _ hw
  dsimp only at kX' kY'
  have X : 0 < det s d e.1 := by
    refine lt_of_le_of_ne ?_ (hv _ m1).symm
    by_contra hcon
    rw [not_le] at hcon
    have := mul_neg_of_neg_of_pos hcon pu
    linarith
  have Y : det s d e.2 < 0 := by
    refine lt_of_le_of_ne ?_ (hv _ m2)
    by_contra hcon
    rw [not_le] at hcon
    have := mul_pos hcon pw
    linarith
  refine ⟨e, he, Or.inr ⟨?_, ?_, ?_, ?_⟩⟩
  · have : det s e.1 d = -det s d e.1 := by simp only [det]; ring
    rw [this]; linarith
  · have : det e.1 d e.2 = -det e.1 e.2 d := by simp only [det]; ring
    rw [this]; linarith
  · have : det d e.2 s = det s d e.2 := by simp only [det]; ring
    rw [this]; exact Y
  · have : det e.2 s e.1 = det e.1 e.2 s := by simp only [det]; ring
    rw [this]; exact hA

/-- What is left of an edge on the map by the margin is so on the sphere, for a point between two others
of which the computed products are known. -/
theorem mix_left {W : ℤ} (hW0 : 0 ≤ W) {c x D : ℝ} (hc : 1 / 2 ≤ c)
    (hx : (W : ℝ) ^ 3 ≤ 7000000 * (x - 3000))
    (hD : |D - c * (x * micro ^ 2)| ≤ 4 * (W * micro) ^ 3 + 1 / 2 ^ 41) : 0 < D := by
  have hW0' : (0 : ℝ) ≤ W := by exact_mod_cast hW0
  have k := (abs_le.1 hD).1
  have hm := micro_pos
  have m1 := micro_lo
  have m2 := micro_hi
  have hx' : 3000 + (W : ℝ) ^ 3 / 7000000 ≤ x := by linarith
  have h3 : 0 ≤ (W : ℝ) ^ 3 := by positivity
  have hm2 : 0 < micro ^ 2 := by positivity
  have s1 : (3000 + (W : ℝ) ^ 3 / 7000000) * micro ^ 2 ≤ x * micro ^ 2 :=
    mul_le_mul_of_nonneg_right hx' hm2.le
  have hx0 : 0 ≤ x * micro ^ 2 := le_trans (by positivity) s1
  have s2 : 1 / 2 * (x * micro ^ 2) ≤ c * (x * micro ^ 2) := mul_le_mul_of_nonneg_right hc hx0
  have s3 : 4 * ((W : ℝ) * micro) ^ 3 ≤ 1 / 2 * ((W : ℝ) ^ 3 / 7000000 * micro ^ 2) := by
    have : 4 * ((W : ℝ) * micro) ^ 3 = (W : ℝ) ^ 3 * micro ^ 2 * (4 * micro) := by ring
    rw [this]
    have e2 : 1 / 2 * ((W : ℝ) ^ 3 / 7000000 * micro ^ 2) =
        (W : ℝ) ^ 3 * micro ^ 2 * (1 / 14000000) := by ring
    rw [e2]
    exact mul_le_mul_of_nonneg_left (by linarith) (by positivity)
  have s4 : (1 : ℝ) / 2 ^ 41 < 1 / 2 * (3000 * micro ^ 2) := by
    have : (17453288 / 10 ^ 15 : ℝ) ^ 2 < micro ^ 2 := by
      apply pow_lt_pow_left₀ m1 (by norm_num) (by norm_num)
    norm_num at *
    linarith
  linarith

/-- The computed triple product in terms of the map. -/
theorem det_micro {L : Libm} (hL : L.Ok) {W : ℤ} (hW : W ≤ 10000000) {a b c : Coord} (ha : a.Geo)
    (hb : b.Geo) (hc : c.Geo) (nb : Nearby W a b) (nc : Nearby W a c) :
    |(det (toPoint L a) (toPoint L b) (toPoint L c) : ℝ) -
      Real.cos (rad a.lat) * (area2 a b c * micro ^ 2)| ≤ 4 * (W * micro) ^ 3 + 1 / 2 ^ 41 := by
  have h1 := det_close hL ha hb hc
  have h2 := sphereDet_micro hW nb nc
  have := abs_sub_le (det (toPoint L a) (toPoint L b) (toPoint L c) : ℝ) (sphereDet a b c)
    (Real.cos (rad a.lat) * (area2 a b c * micro ^ 2))
  linarith

end Sphere

/-! ### Convex islands on the map -/

theorem corner_extent_lat {a v b x : ℂ} (h0 : 0 < turn a v b) (h1 : 0 ≤ turn a v x)
    (h2 : 0 ≤ turn v b x) :
    ((a.im ≤ v.im ∧ b.im ≤ v.im) → x.im ≤ v.im) ∧ ((v.im ≤ a.im ∧ v.im ≤ b.im) → v.im ≤ x.im) := by
  have e : ∀ p q r : ℂ, turn (Complex.I * p) (Complex.I * q) (Complex.I * r) = turn p q r := by
    intro p q r
    simp only [turn, Complex.mul_re, Complex.mul_im, Complex.I_re, Complex.I_im]
    ring
  have key := corner_extent (a := Complex.I * a) (v := Complex.I * v) (b := Complex.I * b)
    (x := Complex.I * x) (by rw [e]; exact h0) (by rw [e]; exact h1) (by rw [e]; exact h2)
  simp only [Complex.mul_re, Complex.I_re, Complex.I_im, zero_mul, one_mul, zero_sub,
    neg_le_neg_iff] at key
  exact ⟨key.2, key.1⟩

/-- What is to the left of all edges is not north or south of all vertices. -/
theorem convex_extent_lat {p : List Coord} (hc : Convex p) (hnd : p.Nodup) (hlen : 3 ≤ p.length)
    {x : ℂ} (h : ∀ e, EdgeOf [p] e → 0 ≤ turn e.p.pt e.q.pt x) :
    (∃ v ∈ p, x.im ≤ v.lat) ∧ ∃ v ∈ p, (v.lat : ℝ) ≤ x.im := by
  have hne : p.toFinset.Nonempty := by
    obtain ⟨c, hc⟩ := List.exists_mem_of_length_pos (show 0 < p.length by omega)
    exact ⟨c, List.mem_toFinset.2 hc⟩
  have key : ∀ v ∈ p, ∃ a b, a ∈ p ∧ b ∈ p ∧
      (a.lat ≤ v.lat ∧ b.lat ≤ v.lat → x.im ≤ v.lat) ∧
      (v.lat ≤ a.lat ∧ v.lat ≤ b.lat → (v.lat : ℝ) ≤ x.im) := by
    intro v hv
    obtain ⟨a, b, hcor⟩ := corner_of_mem hv
    have hpos := convex_corner hc hnd hlen hcor
    obtain ⟨ea, eb⟩ := Vistree.corner_edges hcor
    have := corner_extent_lat (a := a.pt) (v := v.pt) (b := b.pt) (x := x)
      (by rw [turn_pt]; exact_mod_cast hpos) (h _ ea) (h _ eb)
    simp only [Coord.pt, Int.cast_le] at this
    exact ⟨a, b, (edge_in ea).1, (edge_in eb).2, this⟩
  constructor
  · obtain ⟨v, hv, hmax⟩ := p.toFinset.exists_max_image (fun c => c.lat) hne
    rw [List.mem_toFinset] at hv
    obtain ⟨a, b, ha, hb, h1, -⟩ := key v hv
    exact ⟨v, hv, h1 ⟨hmax a (List.mem_toFinset.2 ha), hmax b (List.mem_toFinset.2 hb)⟩⟩
  · obtain ⟨v, hv, hmax⟩ := p.toFinset.exists_min_image (fun c => c.lat) hne
    rw [List.mem_toFinset] at hv
    obtain ⟨a, b, ha, hb, -, h1⟩ := key v hv
    exact ⟨v, hv, h1 ⟨hmax a (List.mem_toFinset.2 ha), hmax b (List.mem_toFinset.2 hb)⟩⟩

theorem segments_edge {vs : List Coord} {e : Seg} : e ∈ Polygon.segments vs ↔ EdgeOf [vs] e := by
  constructor
  · intro h
    obtain ⟨i, hi, rfl⟩ := List.mem_map.1 h
    exact ⟨vs, by simp, i, List.mem_range.1 hi, rfl⟩
  · rintro ⟨q, hq, i, hi, rfl⟩
    rw [List.mem_singleton] at hq
    subst hq
    exact List.mem_map.2 ⟨i, List.mem_range.2 hi, rfl⟩

theorem beyond_pos {V x : ℤ} (hV : 0 ≤ V) (h : Beyond V x) : 0 < x := by
  unfold Beyond at h
  have : 0 ≤ V ^ 3 := by positivity
  omega

theorem stout_convex {W : ℤ} {vs : List Coord} (h : Stout W vs) : Convex vs := by
  intro i hi w hw h1 h2
  exact beyond_pos (by have := h.least; omega)
    (h.turn ⟨ringAt vs i, ringAt vs (i + 1)⟩ (List.mem_map.2 ⟨i, List.mem_range.2 hi, rfl⟩) w hw h1 h2)

/-- What is in the offing of a stout island is not on it, nor on its coast. -/
theorem offing_out {W : ℤ} {vs : List Coord} (h : Stout W vs) {p : Coord}
    (ho : (∃ v ∈ vs, ¬ Nearby (3 * W) v p) ∨
      ∃ e ∈ Polygon.segments vs, Beyond (3 * W) (-area2 e.p e.q p)) :
    ∃ e, EdgeOf [vs] e ∧ turn e.p.pt e.q.pt p.pt < 0 := by
  have hW := h.least
  rcases ho with ⟨v, hv, hn⟩ | ⟨e, he, hb⟩
  · by_contra hcon
    push Not at hcon
    apply hn
    have hcx := stout_convex h
    obtain ⟨⟨a, ha, a1⟩, b, hb, b1⟩ := convex_extent hcx h.nodup h.three hcon
    obtain ⟨⟨c, hc, c1⟩, d, hd, d1⟩ := convex_extent_lat hcx h.nodup h.three hcon
    simp only [Coord.pt, Int.cast_le] at a1 b1 c1 d1
    have na := (h.near v hv a ha).1
    have nb := (h.near v hv b hb).1
    have nc := (h.near v hv c hc).2
    have nd := (h.near v hv d hd).2
    rw [abs_le] at na nb nc nd
    exact ⟨abs_le.2 ⟨by omega, by omega⟩, abs_le.2 ⟨by omega, by omega⟩⟩
  · refine ⟨e, segments_edge.1 he, ?_⟩
    rw [turn_pt]
    have := beyond_pos (by omega) hb
    exact_mod_cast (by omega : area2 e.p e.q p < 0)

/-- The coast of a convex island is to the left of all sides or on them. -/
theorem coast_left {p : List Coord} (hc : Convex p) (hp : 0 < p.length) {z : ℂ} (hz : z ∈ Coast p)
    {e : Seg} (he : EdgeOf [p] e) : 0 ≤ turn e.p.pt e.q.pt z := by
  obtain ⟨i, hi, r, s, hr, hs, hrs, rfl⟩ := hz
  obtain ⟨q, hq, j, hj, rfl⟩ := he
  rw [List.mem_singleton] at hq
  subst hq
  dsimp only
  have vert : ∀ k, 0 ≤ turn (ringAt q j).pt (ringAt q (j + 1)).pt (ringAt q k).pt := by
    intro k
    rw [turn_pt]
    by_cases h1 : ringAt q k = ringAt q j
    · rw [h1]; simp [area2]
    by_cases h2 : ringAt q k = ringAt q (j + 1)
    · rw [h2]
      have : area2 (ringAt q j) (ringAt q (j + 1)) (ringAt q (j + 1)) = 0 := by unfold area2; ring
      rw [this]; simp
    · exact_mod_cast (hc j hj _ (Vistree.ringAt_mem hp) h1 h2).le
  rw [turn_comb2 _ _ _ _ hrs]
  have := mul_nonneg hr (vert i)
  have := mul_nonneg hs (vert (i + 1))
  linarith

end Capi
