import Verif.Lemmas.SerializerLoad
import Verif.Props.Polygon

/-!
# Helper lemmas about files cut off inside header and polygons
-/

namespace Capi

namespace Serial

/-- `B` has the bytes of `F` before position `n` and zeros from there on. -/
structure CutOff (B F : Buf) (n : ℕ) : Prop where
  byte : ∀ k, B.getD k 0 = if k < n then F.getD k 0 else 0
  size : F.length ≤ B.length

theorem CutOff.keep {B F x t : Buf} {n off : ℕ} (h : CutOff B F n) (hd : F.drop off = x ++ t)
    (hn : off + x.length ≤ n) : ∃ t', B.drop off = x ++ t' := by
  refine ⟨(B.drop off).drop x.length, ?_⟩
  have hF : off + x.length ≤ F.length ∨ x = [] := by
    by_cases hx : x = []
    · exact Or.inr hx
    · left
      have h1 := congrArg List.length hd
      have h2 : 0 < x.length := List.length_pos_iff.2 hx
      rw [List.length_drop, List.length_append] at h1
      omega
  rcases hF with hF | hx
  swap
  · subst hx; simp
  have hs := h.size
  conv_lhs => rw [← List.take_append_drop x.length (B.drop off)]
  congr 1
  apply List.ext_getElem?
  intro k
  rw [List.getElem?_take]
  split_ifs with hk
  · have h1 := h.byte (off + k)
    rw [if_pos (by omega), List.getD_eq_getElem?_getD, List.getD_eq_getElem?_getD,
      List.getElem?_eq_getElem (by omega), List.getElem?_eq_getElem (by omega)] at h1
    have h2 := getElem?_of_drop hd hk
    rw [List.getElem?_eq_getElem (by omega)] at h2
    rw [← h2, List.getElem?_drop, List.getElem?_eq_getElem (by omega)]
    simpa using h1
  · rw [List.getElem?_eq_none (by omega)]

theorem CutOff.zero {B F : Buf} {n k : ℕ} (h : CutOff B F n) (hk : n ≤ k) : B.getD k 0 = 0 := by
  rw [h.byte, if_neg (by omega)]

theorem CutOff.count_le {B F : Buf} {n : ℕ} (h : CutOff B F n) (off : ℕ) :
    (word B off).toNat ≤ (word F off).toNat := by
  apply word_le
  intro k _
  rw [h.byte]
  split_ifs
  · exact Or.inl rfl
  · exact Or.inr rfl

/-! ### Signed numbers -/

/-- A 4-byte number whose last byte is zero is read as a number below `2^24`. -/
theorem getI32_cut {b : Buf} {off : ℕ} (h : off + 4 ≤ b.length) (h3 : b.getD (off + 3) 0 = 0) :
    ∃ v, getI32 b off = .ok v ∧ 0 ≤ v ∧ v < 2 ^ 24 := by
  have hg := get32Loop_ok b off (fun k => b.getD (off + k) 0) (List.range 4) (by
    intro k hk
    rw [List.mem_range] at hk
    rw [List.getD_eq_getElem?_getD, List.getElem?_eq_getElem (by omega)]
    rfl) 0
  set w := (List.range 4).foldl
    (fun acc k => acc ||| ((b.getD (off + k) 0).setWidth 32 <<< (k * 8))) (0 : BitVec 32) with hw
  have hlt : w.toNat < 2 ^ 24 := by
    have hz : w &&& 0xFFFFFF#32 = w := by
      rw [hw]
      simp only [List.range_succ, List.range_zero, List.nil_append, List.cons_append, List.foldl, h3]
      apply BitVec.eq_of_getLsbD_eq
      intro i hi
      interval_cases i <;> simp
    rw [← hz, BitVec.toNat_and]
    exact lt_of_le_of_lt Nat.and_le_right (by decide)
  refine ⟨w.toInt, ?_, ?_, ?_⟩
  · unfold getI32 get32
    rw [hg]
    rfl
  · rw [BitVec.toInt_eq_toNat_of_lt (by omega)]; omega
  · rw [BitVec.toInt_eq_toNat_of_lt (by omega)]; omega

theorem loadVertices_cut {B F t : Buf} {n off : ℕ} {vs : List Coord} (h : CutOff B F n)
    (hg : ∀ c ∈ vs, c.Geo) (hd : F.drop off = encVertices vs ++ t) :
    ∃ ws, loadVertices B off vs.length = .ok ws ∧ ws.length = vs.length ∧ ∀ c ∈ ws, c.Geo := by
  induction vs generalizing off with
  | nil => exact ⟨[], rfl, rfl, by simp⟩
  | cons c r ih =>
    have hl := congrArg List.length hd
    rw [List.length_drop, List.length_append, encVertices_length, List.length_cons] at hl
    have hs := h.size
    have he : encVertices (c :: r) = le32 (BitVec.ofInt 32 c.lon) ++
      (le32 (BitVec.ofInt 32 c.lat) ++ encVertices r) := by simp [encVertices]
    rw [he, List.append_assoc, List.append_assoc] at hd
    have h2 := drop_of_drop hd
    have h3 := drop_of_drop h2
    rw [le32_length] at h2 h3
    rw [le32_length, Nat.add_assoc] at h3
    have hc := hg c (by simp)
    have hw := hc.per.wf
    obtain ⟨ws, i1, i2, i3⟩ := ih (fun x hx => hg x (by simp [hx])) h3
    have key : ∀ (o : ℕ) (x : ℤ) (u : Buf), FitsI32 x → o + 4 ≤ B.length →
        F.drop o = le32 (BitVec.ofInt 32 x) ++ u →
        ∃ v, getI32 B o = .ok v ∧ (v = x ∨ (0 ≤ v ∧ v < 2 ^ 24)) := by
      intro o x u hx ho hu
      by_cases hn : o + 4 ≤ n
      · obtain ⟨t', ht⟩ := h.keep hu (by rw [le32_length]; exact hn)
        exact ⟨x, getI32_of_drop hx ht, Or.inl rfl⟩
      · obtain ⟨v, g1, g2⟩ := getI32_cut ho (h.zero (by omega))
        exact ⟨v, g1, Or.inr g2⟩
    obtain ⟨lon, l1, l2⟩ := key off c.lon _ hw.1 (by omega) hd
    obtain ⟨lat, m1, m2⟩ := key (off + 4) c.lat _ hw.2 (by omega) h2
    refine ⟨⟨lon, lat⟩ :: ws, ?_, by simp [i2], ?_⟩
    · rw [List.length_cons, loadVertices, l1, Res.bind_ok, m1, Res.bind_ok, i1]
      rfl
    · intro x hx
      rcases List.mem_cons.1 hx with rfl | hx
      · unfold Coord.Geo at hc ⊢
        simp only
        refine ⟨?_, ?_, ?_, ?_⟩ <;> norm_num at l2 m2 <;> omega
      · exact i3 x hx

theorem loadVertices_zero {B : Buf} {off c : ℕ} (hz : ∀ k, off ≤ k → B.getD k 0 = 0)
    (hl : off + 8 * c ≤ B.length) :
    ∃ ws, loadVertices B off c = .ok ws ∧ ws.length = c ∧ ∀ v ∈ ws, v.Geo := by
  induction c generalizing off with
  | zero => exact ⟨[], rfl, rfl, by simp⟩
  | succ c ih =>
    obtain ⟨ws, i1, i2, i3⟩ := ih (off := off + 8) (fun k hk => hz k (by omega)) (by omega)
    obtain ⟨lon, l1, l2, l3⟩ := getI32_cut (b := B) (off := off) (by omega) (hz _ (by omega))
    obtain ⟨lat, m1, m2, m3⟩ := getI32_cut (b := B) (off := off + 4) (by omega) (hz _ (by omega))
    refine ⟨⟨lon, lat⟩ :: ws, ?_, by simp [i2], ?_⟩
    · rw [loadVertices, l1, Res.bind_ok, m1, Res.bind_ok, i1]
      rfl
    · intro x hx
      rcases List.mem_cons.1 hx with rfl | hx
      · unfold Coord.Geo
        simp only
        norm_num at l3 m3
        omega
      · exact i3 x hx

/-! ### Polygons -/

theorem polygonC_geo (T : ℕ → Polygon.SumTree) {vs : List Coord} (h : ∀ c ∈ vs, c.Geo) :
    ∃ p, polygonC T vs = .ok p ∧ p.length ≤ vs.length := by
  unfold polygonC
  rw [C03_polygon vs fun v hv => (h v hv).per, Res.bind_ok]
  refine ⟨_, rfl, ?_⟩
  have hr : (Polygon.removeCollinear vs).length ≤ vs.length := by
    unfold Polygon.removeCollinear
    rw [List.length_map]
    exact (List.length_filter_le _ _).trans (by simp)
  unfold Polygon.normalizeOrient
  split_ifs
  · exact hr
  · rw [List.length_reverse]; exact hr
  · exact hr

theorem loadPolygons_zero {T : ℕ → Polygon.SumTree} {B : Buf} {off c : ℕ}
    (hz : ∀ k, off ≤ k → B.getD k 0 = 0) (hl : off + 8 * c ≤ B.length) :
    loadPolygons T B off c = .ok (List.replicate c [], off + 8 * c) := by
  induction c generalizing off with
  | zero => rfl
  | succ c ih =>
    have h0 : word B off = 0 := word_zero fun k _ => hz _ (by omega)
    rw [loadPolygons, get64_word (by omega), Res.bind_ok, h0]
    have e : (0 : BitVec 64).toNat = 0 := rfl
    have hp : polygonC T [] = .ok [] := rfl
    rw [e, loadVertices, Res.bind_ok, hp, Res.bind_ok,
      ih (off := off + 8 + 0 * 2 * 4) (fun k hk => hz k (by omega)) (by omega)]
    simp only [Res.bind_ok, Res.pure_eq, List.replicate_succ]
    congr 2
    omega

theorem word_of_drop {F t : Buf} {off : ℕ} {v : BitVec 64} (h : F.drop off = le64 v ++ t) :
    word F off = v := by
  have hlen : off + 8 ≤ F.length := by
    have := congrArg List.length h
    rw [List.length_drop, List.length_append, le64_length] at this
    omega
  have h1 := get64_of_drop h
  rw [get64_word hlen] at h1
  exact Except.ok.inj h1

/-- Loading the polygons of a file cut off among them. -/
theorem loadPolygons_cut {T : ℕ → Polygon.SumTree} {B F t : Buf} {n off : ℕ}
    {ps : List (List Coord)} (h : CutOff B F n) (hg : ∀ p ∈ ps, ∀ c ∈ p, c.Geo)
    (hl : ∀ p ∈ ps, p.length < 2 ^ 64) (hp : ∀ p ∈ ps, polygonC T p = .ok p)
    (hd : F.drop off = encPolygons ps ++ t) (hn : n ≤ polygonsEnd off ps) (hF : off ≤ F.length) :
    ∃ qs e, loadPolygons T B off ps.length = .ok (qs, e) ∧ qs.length = ps.length ∧ n ≤ e ∧
      e ≤ polygonsEnd off ps ∧ qs.flatten.length ≤ ps.flatten.length ∧
      (∀ i, polygonsEnd off (ps.take i) ≤ n → qs.take i = ps.take i) ∧
      (∀ i, n ≤ polygonsEnd off (ps.take i) → ∀ q ∈ qs.drop i, q = []) := by
  have hs := h.size
  induction ps generalizing off with
  | nil =>
    refine ⟨[], off, rfl, rfl, hn, le_refl _, by simp, by simp, by simp⟩
  | cons p r ih =>
    have hlen := congrArg List.length hd
    rw [List.length_drop, List.length_append, encPolygons_length, List.length_cons,
      List.flatten_cons, List.length_append] at hlen
    have hd0 := hd
    rw [encPolygons_cons, List.append_assoc, List.append_assoc] at hd
    have h2 := drop_of_drop hd
    have h3 := drop_of_drop h2
    rw [le64_length] at h2 h3
    rw [encVertices_length] at h3
    have hpl : (BitVec.ofNat 64 p.length).toNat = p.length := by
      rw [BitVec.toNat_ofNat, Nat.mod_eq_of_lt (hl p (by simp))]
    have e' : off + 8 + p.length * 4 * 2 = off + 8 + 8 * p.length := by omega
    have hend : polygonsEnd off (p :: r) =
        off + 8 * (r.length + 1) + 8 * (p.length + r.flatten.length) := by
      rw [polygonsEnd_eq, List.length_cons, List.flatten_cons, List.length_append]
    by_cases hz : n ≤ off
    · -- nothing of these polygons was written
      have hzero := loadPolygons_zero (T := T) (B := B) (off := off) (c := (p :: r).length)
        (fun k hk => h.zero (by omega)) (by rw [List.length_cons]; omega)
      refine ⟨_, _, hzero, by simp, by omega, ?_, ?_, ?_, ?_⟩
      · rw [hend, List.length_cons]; omega
      · simp
      · intro i hi
        cases i with
        | zero => simp
        | succ i =>
          rw [List.take_succ_cons, polygonsEnd_eq, List.length_cons] at hi
          omega
      · intro i _ q hq
        exact List.eq_of_mem_replicate (List.mem_of_mem_drop hq)
    -- what follows the first polygon when the cut is inside it
    have later : ∀ (c : ℕ) (q : List Coord), c ≤ p.length → q.length ≤ c →
        n ≤ off + 8 + 8 * c → n < off + 8 + 8 * p.length →
        get64 B off = .ok (BitVec.ofNat 64 c) →
        (∃ ws, loadVertices B (off + 8) c = .ok ws ∧ polygonC T ws = .ok q) →
        ∃ qs e, loadPolygons T B off (p :: r).length = .ok (qs, e) ∧
          qs.length = (p :: r).length ∧ n ≤ e ∧
          e ≤ polygonsEnd off (p :: r) ∧ qs.flatten.length ≤ (p :: r).flatten.length ∧
          (∀ i, polygonsEnd off ((p :: r).take i) ≤ n → qs.take i = (p :: r).take i) ∧
          (∀ i, n ≤ polygonsEnd off ((p :: r).take i) → ∀ q ∈ qs.drop i, q = []) := by
      intro c q hc hq hn1 hn2 hget ⟨ws, hw1, hw2⟩
      have hcl : (BitVec.ofNat 64 c).toNat = c := by
        have := hl p (by simp)
        rw [BitVec.toNat_ofNat, Nat.mod_eq_of_lt (by omega)]
      have ec : off + 8 + c * 2 * 4 = off + 8 + 8 * c := by omega
      have hzero := loadPolygons_zero (T := T) (B := B) (off := off + 8 + 8 * c) (c := r.length)
        (fun k hk => h.zero (by omega)) (by omega)
      refine ⟨q :: List.replicate r.length [], off + 8 + 8 * c + 8 * r.length, ?_, by simp,
        by omega, by rw [hend]; omega, ?_, ?_, ?_⟩
      · rw [List.length_cons, loadPolygons, hget, Res.bind_ok, hcl, hw1, Res.bind_ok, hw2,
          Res.bind_ok, ec, hzero]
        rfl
      · rw [List.flatten_cons, List.flatten_cons, List.length_append, List.length_append]
        simp
        omega
      · intro i hi
        cases i with
        | zero => simp
        | succ i =>
          rw [List.take_succ_cons, polygonsEnd, e', polygonsEnd_eq] at hi
          omega
      · intro i hi x hx
        cases i with
        | zero => simp [polygonsEnd] at hi; omega
        | succ i =>
          rw [List.drop_succ_cons] at hx
          exact List.eq_of_mem_replicate (List.mem_of_mem_drop hx)
    by_cases ha : off + 8 + 8 * p.length ≤ n
    · -- the first polygon is complete
      obtain ⟨qs, e, i1, i2, i3, i4, i5, i6, i7⟩ := ih (fun x hx => hg x (by simp [hx]))
        (fun x hx => hl x (by simp [hx])) (fun x hx => hp x (by simp [hx])) h3
        (by rw [polygonsEnd, e'] at hn; exact hn) (by omega)
      obtain ⟨t1, ht1⟩ := h.keep hd (by rw [le64_length]; omega)
      obtain ⟨t2, ht2⟩ := h.keep h2 (by rw [encVertices_length]; omega)
      refine ⟨p :: qs, e, ?_, by simp [i2], i3, by rw [polygonsEnd, e']; exact i4, ?_, ?_, ?_⟩
      · have ev : off + 8 + p.length * 2 * 4 = off + 8 + 8 * p.length := by omega
        rw [List.length_cons, loadPolygons, get64_of_drop ht1, Res.bind_ok, hpl,
          loadVertices_ok (fun c hc => (hg p (by simp) c hc).per.wf) ht2, Res.bind_ok,
          hp p (by simp), Res.bind_ok, ev, i1]
        rfl
      · rw [List.flatten_cons, List.flatten_cons, List.length_append, List.length_append]; omega
      · intro i hi
        cases i with
        | zero => simp
        | succ i =>
          rw [List.take_succ_cons, polygonsEnd, e'] at hi
          rw [List.take_succ_cons, List.take_succ_cons, i6 i hi]
      · intro i hi
        cases i with
        | zero => simp [polygonsEnd] at hi; omega
        | succ i =>
          rw [List.take_succ_cons, polygonsEnd, e'] at hi
          rw [List.drop_succ_cons]
          exact i7 i hi
    · by_cases hb : off + 8 ≤ n
      · -- cut among the vertices
        obtain ⟨t1, ht1⟩ := h.keep hd (by rw [le64_length]; omega)
        obtain ⟨ws, w1, w2, w3⟩ := loadVertices_cut h (hg p (by simp)) h2
        obtain ⟨q, q1, q2⟩ := polygonC_geo T w3
        exact later p.length q (le_refl _) (by omega) (by omega) (by omega) (get64_of_drop ht1)
          ⟨ws, w1, q1⟩
      · -- cut inside the number of vertices
        have hc : (word B off).toNat ≤ p.length := by
          have := h.count_le off
          rw [word_of_drop hd, hpl] at this
          exact this
        obtain ⟨ws, w1, w2, w3⟩ := loadVertices_zero (B := B) (off := off + 8)
          (c := (word B off).toNat) (fun k hk => h.zero (by omega)) (by omega)
        obtain ⟨q, q1, q2⟩ := polygonC_geo T w3
        exact later (word B off).toNat q hc (by omega) (by omega) (by omega)
          (by rw [get64_word (by omega), BitVec.ofNat_toNat, BitVec.setWidth_eq])
          ⟨ws, w1, q1⟩

theorem rowOff_mono {a b m k : ℕ} (h : a ≤ b) (hm : m ≤ k) : rowOff a m ≤ rowOff b k := by
  have h1 : rowOff a m ≤ rowOff b m := by rw [rowOff_add a, rowOff_add b]; omega
  refine h1.trans ?_
  induction k with
  | zero => rw [Nat.le_zero.1 hm]
  | succ k ih =>
    rcases Nat.lt_or_ge m (k + 1) with h2 | h2
    · rw [rowOff]; exact (ih (by omega)).trans (Nat.le_add_right _ _)
    · rw [show m = k + 1 by omega]

end Serial

end Capi
