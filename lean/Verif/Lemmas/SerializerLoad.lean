import Verif.Lemmas.Serializer
import Verif.Spec.Storage

/-!
# Helper lemmas about loading a file
-/

namespace Capi

namespace Serial

open Graph (Op)

theorem loadVertices_ok {b t : Buf} {off : ℕ} {vs : List Coord} (hv : ∀ c ∈ vs, c.Wf)
    (h : b.drop off = encVertices vs ++ t) : loadVertices b off vs.length = .ok vs := by
  induction vs generalizing off with
  | nil => rfl
  | cons c r ih =>
    have he : encVertices (c :: r) = le32 (BitVec.ofInt 32 c.lon) ++
      (le32 (BitVec.ofInt 32 c.lat) ++ encVertices r) := by simp [encVertices]
    rw [he, List.append_assoc, List.append_assoc] at h
    have h2 := drop_of_drop h
    have h3 := drop_of_drop h2
    rw [le32_length] at h2 h3
    rw [le32_length, Nat.add_assoc] at h3
    have hc := hv c (by simp)
    rw [List.length_cons, loadVertices, getI32_of_drop hc.1 h, Res.bind_ok,
      getI32_of_drop hc.2 h2, Res.bind_ok, ih (fun x hx => hv x (by simp [hx])) h3]
    rfl

theorem loadPolygons_ok {T : ℕ → Polygon.SumTree} {b t : Buf} {off : ℕ} {ps : List (List Coord)}
    (hv : ∀ p ∈ ps, ∀ c ∈ p, c.Wf) (hn : ∀ p ∈ ps, p.length < 2 ^ 64)
    (hp : ∀ p ∈ ps, polygonC T p = .ok p) (h : b.drop off = encPolygons ps ++ t) :
    loadPolygons T b off ps.length = .ok (ps, polygonsEnd off ps) := by
  induction ps generalizing off with
  | nil => rfl
  | cons p r ih =>
    rw [encPolygons_cons, List.append_assoc, List.append_assoc] at h
    have h2 := drop_of_drop h
    have h3 := drop_of_drop h2
    rw [le64_length] at h2 h3
    rw [encVertices_length] at h3
    have hl : (BitVec.ofNat 64 p.length).toNat = p.length := by
      rw [BitVec.toNat_ofNat, Nat.mod_eq_of_lt (hn p (by simp))]
    have e : off + 8 + p.length * 2 * 4 = off + 8 + 8 * p.length := by omega
    have e' : off + 8 + p.length * 4 * 2 = off + 8 + 8 * p.length := by omega
    rw [List.length_cons, loadPolygons, get64_of_drop h, Res.bind_ok, hl,
      loadVertices_ok (hv p (by simp)) h2, Res.bind_ok, hp p (by simp), Res.bind_ok, e,
      ih (fun x hx => hv x (by simp [hx])) (fun x hx => hn x (by simp [hx]))
        (fun x hx => hp x (by simp [hx])) h3, polygonsEnd, e']
    rfl

/-- Bits set by OR-ing shifted booleans. -/
theorem foldl_or_bit (f : ℕ → Bool) (s : ℕ) (ls : List ℕ) (acc : Byte) (k : ℕ) (hk : k < 8) :
    (ls.foldl (fun acc l => acc ||| ((if f l then 1#8 else 0#8) <<< (l - s))) acc).getLsbD k =
      (acc.getLsbD k || ls.any fun l => f l && (l - s == k)) := by
  induction ls generalizing acc with
  | nil => simp
  | cons l r ih =>
    rw [List.foldl_cons, ih, BitVec.getLsbD_or, List.any_cons, Bool.or_assoc]
    congr 2
    rw [BitVec.getLsbD_shiftLeft]
    simp only [hk, decide_true, Bool.true_and]
    cases hf : f l with
    | false => simp
    | true =>
      simp only [if_true, Bool.true_and, BitVec.getLsbD_one]
      rw [Bool.eq_iff_iff]
      simp only [Bool.and_eq_true, Bool.not_eq_true', decide_eq_false_iff_not, decide_eq_true_eq,
        beq_iff_eq]
      omega

theorem byteOf_bit (g : Graph) (i j k : ℕ) (hk : k < 8) :
    (byteOf g i j).getLsbD k = (decide (j * 8 + k ≤ i) && adj g i (j * 8 + k)) := by
  unfold byteOf
  rw [foldl_or_bit _ _ _ _ _ hk]
  rw [Bool.eq_iff_iff]
  simp only [BitVec.ofNat_eq_ofNat, BitVec.getLsbD_zero, Bool.false_or, List.any_eq_true,
    List.mem_range'_1, Bool.and_eq_true, beq_iff_eq, decide_eq_true_eq]
  constructor
  · rintro ⟨l, ⟨h1, h2⟩, h3, h4⟩
    have : l = j * 8 + k := by omega
    subst this
    exact ⟨by omega, h3⟩
  · rintro ⟨h1, h2⟩
    exact ⟨j * 8 + k, ⟨by omega, by omega⟩, h2, by omega⟩

theorem bit_test (x : Byte) (l : ℕ) : (x >>> l) &&& 0x1#8 ≠ 0 ↔ x.getLsbD l = true := by
  constructor
  · intro h
    by_contra hn
    apply h
    apply BitVec.eq_of_getLsbD_eq
    intro i hi
    rw [BitVec.getLsbD_and, BitVec.getLsbD_ushiftRight, BitVec.getLsbD_one]
    by_cases h0 : i = 0
    · subst h0; simpa using hn
    · simp [h0]
  · intro h h0
    have : ((x >>> l) &&& 0x1#8).getLsbD 0 = true := by
      rw [BitVec.getLsbD_and, BitVec.getLsbD_ushiftRight]; simp [h]
    rw [h0] at this
    simp at this

/-- The pair of numbers `i`, `l` is marked in the bytes `x`. -/
def Marked (n : ℕ) (x : ℕ → ℕ → Byte) (i l : ℕ) : Prop :=
  i < n ∧ l < n ∧ l / 8 < ceilDiv i 8 ∧ (x i (l / 8)).getLsbD (l % 8) = true

theorem decodeByte_ok (g : Graph) (ns : List (BitVec 64)) (i j : ℕ) (x : Byte)
    (hi : i < g.verts.length) :
    decodeByte g ns i j x = .ok ((List.range (min 8 (g.verts.length - j * 8))).flatMap fun l =>
      if x.getLsbD l = true then
        [.add (vAt g i) (vAt g (j * 8 + l))
          (ns.contains (BitVec.ofNat 64 (edgeNumber i (j * 8 + l))))] else []) := by
  unfold decodeByte
  apply collect_ok
  intro l hl
  rw [List.mem_range] at hl
  by_cases hb : x.getLsbD l = true
  · rw [if_pos ((bit_test x l).2 hb), if_pos hb, vertexAt_ok hi, Res.bind_ok,
      vertexAt_ok (by omega)]
    rfl
  · rw [if_neg (fun h => hb ((bit_test x l).1 h)), if_neg hb]
    rfl

theorem loadOps_ok (b : Buf) (g : Graph) (ns : List (BitVec 64)) (off : ℕ) (x : ℕ → ℕ → Byte)
    (hx : ∀ i < g.verts.length, ∀ j < ceilDiv i 8, b[rowOff off i + j]? = some (x i j)) :
    ∃ ops, loadOps b g ns off = .ok ops ∧ ∀ o, o ∈ ops ↔ ∃ i l, Marked g.verts.length x i l ∧
      o = .add (vAt g i) (vAt g l) (ns.contains (BitVec.ofNat 64 (edgeNumber i l))) := by
  have key : ∀ i ∈ List.range g.verts.length, (collect (fun j => do
      let x ← getByte b (rowOff off i + j)
      decodeByte g ns i j x) (List.range (ceilDiv i 8)) : Res (List Op)) =
      .ok ((List.range (ceilDiv i 8)).flatMap fun j =>
        (List.range (min 8 (g.verts.length - j * 8))).flatMap fun l =>
        if (x i j).getLsbD l = true then
        [.add (vAt g i) (vAt g (j * 8 + l))
          (ns.contains (BitVec.ofNat 64 (edgeNumber i (j * 8 + l))))] else []) := by
    intro i hi
    rw [List.mem_range] at hi
    apply collect_ok
    intro j hj
    rw [List.mem_range] at hj
    rw [getByte_ok (hx i hi j hj), Res.bind_ok, decodeByte_ok g ns i j _ hi]
  refine ⟨_, collect_ok key, fun o => ?_⟩
  simp only [List.mem_flatMap, List.mem_range]
  constructor
  · rintro ⟨i, hi, j, hj, l, hl, ho⟩
    split_ifs at ho with hb
    · rw [List.mem_singleton] at ho
      have h1 : (j * 8 + l) / 8 = j := by omega
      have h2 : (j * 8 + l) % 8 = l := by omega
      refine ⟨i, j * 8 + l, ⟨hi, by omega, by rw [h1]; exact hj, ?_⟩, ho⟩
      rw [h1, h2]; exact hb
    · simp at ho
  · rintro ⟨i, l, ⟨hi, hl, hj, hb⟩, rfl⟩
    refine ⟨i, hi, l / 8, hj, l % 8, by omega, ?_⟩
    rw [if_pos hb, Nat.div_add_mod']
    simp

/-- What loading the matrix region produces. -/
theorem loadMatrix_ok (b : Buf) (ps : List (List Coord)) (off : ℕ) (x : ℕ → ℕ → Byte)
    (count : BitVec 64) (ns : List (BitVec 64))
    (hx : ∀ i < ps.flatten.length, ∀ j < ceilDiv i 8, b[rowOff off i + j]? = some (x i j))
    (hc : get64 b (rowOff off ps.flatten.length) = .ok count)
    (hn : loadNumbers b (rowOff off ps.flatten.length) count.toNat = .ok ns) :
    ∃ g, loadMatrix b (Graph.ofPolygons ps) off = .ok g ∧ UserGraph g ∧ g.polygons = ps ∧
      g.verts = ps.flatten ∧
      ∀ a ∈ g.verts, ∀ b ∈ g.verts, a ≠ b →
        (g.bits a b ≠ 0 ↔ ∃ i l, Marked ps.flatten.length x i l ∧
          ((vAt g i = a ∧ vAt g l = b) ∨ (vAt g i = b ∧ vAt g l = a))) ∧
        (g.bits a b = 2 ↔ g.bits a b ≠ 0 ∧ ∀ i l, Marked ps.flatten.length x i l →
          ((vAt g i = a ∧ vAt g l = b) ∨ (vAt g i = b ∧ vAt g l = a)) →
          BitVec.ofNat 64 (edgeNumber i l) ∈ ns) := by
  obtain ⟨ops, h1, h2⟩ := loadOps_ok b (Graph.ofPolygons ps) ns off x hx
  have hon : OpsOn ps.flatten ops := by
    intro o ho c hcm
    obtain ⟨i, l, hm, rfl⟩ := (h2 o).1 ho
    simp only [opCoords, List.mem_cons, List.not_mem_nil, or_false] at hcm
    rcases hcm with rfl | rfl
    · exact vAt_mem (g := Graph.ofPolygons ps) hm.1
    · exact vAt_mem (g := Graph.ofPolygons ps) hm.2.1
  obtain ⟨g, h3, h4, h5⟩ := (Graph.ok_fresh ps).run ops hon
  have hv : ∀ i, vAt g i = vAt (Graph.ofPolygons ps) i := by
    intro i; unfold vAt; rw [h4.verts]
  have hlive : ∀ a b m, Live (history ops) a b m ↔ ∃ i l, Marked ps.flatten.length x i l ∧
      ((vAt g i = a ∧ vAt g l = b) ∨ (vAt g i = b ∧ vAt g l = a)) ∧
      m = ns.contains (BitVec.ofNat 64 (edgeNumber i l)) := by
    intro a b m
    rw [Graph.Live_of_no_removal]
    · unfold history
      rw [List.mem_flatMap]
      constructor
      · rintro ⟨o, ho, he⟩
        obtain ⟨i, l, hm, rfl⟩ := (h2 o).1 ho
        simp only [eventsOf, List.mem_cons, Event.added.injEq, List.not_mem_nil, or_false] at he
        refine ⟨i, l, hm, ?_⟩
        rw [hv, hv]
        rcases he with ⟨rfl, rfl, rfl⟩ | ⟨rfl, rfl, rfl⟩
        · exact ⟨Or.inl ⟨rfl, rfl⟩, rfl⟩
        · exact ⟨Or.inr ⟨rfl, rfl⟩, rfl⟩
      · rintro ⟨i, l, hm, hab, rfl⟩
        refine ⟨_, (h2 _).2 ⟨i, l, hm, rfl⟩, ?_⟩
        rw [hv, hv] at hab
        rcases hab with ⟨rfl, rfl⟩ | ⟨rfl, rfl⟩ <;> simp [eventsOf]
    · intro a b hr
      unfold history at hr
      obtain ⟨o, ho, he⟩ := List.mem_flatMap.1 hr
      obtain ⟨i, l, hm, rfl⟩ := (h2 o).1 ho
      simp [eventsOf] at he
  refine ⟨g, ?_, ⟨ps, ops, ?_, hon, h3⟩, h4.polygons, h5.verts, ?_⟩
  · unfold loadMatrix
    have : (Graph.ofPolygons ps).verts = ps.flatten := rfl
    simp only [this, hc, hn, h1, Res.bind_ok, h3]
  · intro o ho
    obtain ⟨i, l, hm, rfl⟩ := (h2 o).1 ho
    trivial
  · intro a ha b hb hab
    have hrep := h5.rep.has ha hb hab
    rw [List.nil_append] at hrep
    have e1 : (∃ m, Live (history ops) a b m) ↔ ∃ i l, Marked ps.flatten.length x i l ∧
          ((vAt g i = a ∧ vAt g l = b) ∨ (vAt g i = b ∧ vAt g l = a)) := by
      constructor
      · rintro ⟨m, hm⟩
        obtain ⟨i, l, h, h', _⟩ := (hlive a b m).1 hm
        exact ⟨i, l, h, h'⟩
      · rintro ⟨i, l, h, h'⟩
        exact ⟨_, (hlive a b _).2 ⟨i, l, h, h', rfl⟩⟩
    refine ⟨hrep.1.trans e1, hrep.2.trans ?_⟩
    rw [← hrep.1]
    refine and_congr_right fun _ => ?_
    constructor
    · intro h i l hm hp
      have := h _ ((hlive a b _).2 ⟨i, l, hm, hp, rfl⟩)
      simpa using this
    · intro h m hm
      obtain ⟨i, l, hm', hp, rfl⟩ := (hlive a b m).1 hm
      simpa using h i l hm' hp

theorem edgeNumber_inj {i l i' l' : ℕ} (h : l ≤ i) (h' : l' ≤ i')
    (he : edgeNumber i l = edgeNumber i' l') : i = i' ∧ l = l' := by
  unfold edgeNumber at he
  have key : ∀ m k : ℕ, m < k → (m * m + m) / 2 + m + 1 ≤ (k * k + k) / 2 := by
    intro m k hmk
    have h1 : (m + 1) * (m + 1) ≤ k * k := Nat.mul_le_mul hmk hmk
    have h2 : (m * m + m) / 2 * 2 ≤ m * m + m := Nat.div_mul_le_self _ _
    rw [Nat.le_div_iff_mul_le (by simp)]
    have : (m + 1) * (m + 1) = m * m + 2 * m + 1 := by ring
    omega
  rcases lt_trichotomy i i' with hi | hi | hi
  · have := key i i' hi; omega
  · subst hi; exact ⟨rfl, by omega⟩
  · have := key i' i hi; omega

theorem edgeNumber_lt {i l : ℕ} (hi : i < 2 ^ 32) (hl : l ≤ i) : edgeNumber i l < 2 ^ 64 := by
  unfold edgeNumber
  have h1 : i * i ≤ (2 ^ 32 - 1) * (2 ^ 32 - 1) := Nat.mul_le_mul (by omega) (by omega)
  have : (2 ^ 32 - 1) * (2 ^ 32 - 1) = 18446744065119617025 := by norm_num
  rw [this] at h1
  norm_num at hi ⊢
  omega

theorem Storable.sizes {T : ℕ → Polygon.SumTree} {g : Graph} (h : Storable T g) (hb : g.Built) :
    ∀ p ∈ g.polygons, p.length < 2 ^ 64 := by
  intro p hp
  have h1 : p.length ≤ g.polygons.flatten.length := by
    rw [List.length_flatten]
    exact List.le_sum_of_mem (List.mem_map_of_mem hp)
  rw [← hb.verts] at h1
  have := h.verts
  omega

/-- Loading a file that begins with header and polygons of `g` reduces to loading the matrix. -/
theorem load_head {T : ℕ → Polygon.SumTree} {g : Graph} (hst : Storable T g) (hb : g.Built)
    (t : Buf) : load T (head g ++ t) =
      loadMatrix (head g ++ t) (Graph.ofPolygons g.polygons) (polygonsEnd 8 g.polygons) := by
  unfold load
  have hne : head g ++ t ≠ [] := by
    intro h
    have := congrArg List.length h
    rw [List.length_append, head_length, polygonsEnd_eq] at this
    simp at this
  have h0 : (head g ++ t).drop 0 =
      le64 (BitVec.ofNat 64 g.polygons.length) ++ (encPolygons g.polygons ++ t) := by
    simp [head]
  have h8 := drop_of_drop h0
  rw [le64_length, Nat.zero_add] at h8
  have hl : (BitVec.ofNat 64 g.polygons.length).toNat = g.polygons.length := by
    rw [BitVec.toNat_ofNat, Nat.mod_eq_of_lt hst.polygons]
  rw [if_neg hne, get64_of_drop h0, Res.bind_ok, hl,
    loadPolygons_ok hst.wf (hst.sizes hb) hst.stable h8]
  rfl

theorem drop_rows {b t : Buf} {g : Graph} {off k : ℕ} (h : b.drop off = rows g 0 k ++ t) (i : ℕ)
    (hi : i ≤ k) : b.drop (rowOff off i) = rows g i (k - i) ++ t := by
  induction i with
  | zero => simpa [rowOff] using h
  | succ i ih =>
    have h1 := ih (by omega)
    obtain ⟨m, hm⟩ : ∃ m, k - i = m + 1 := ⟨k - i - 1, by omega⟩
    rw [hm, rows_succ, List.append_assoc] at h1
    have h2 := drop_of_drop h1
    rw [row_length] at h2
    rw [rowOff, h2, show k - (i + 1) = m by omega]

theorem byte_of_rows {b t : Buf} {g : Graph} {off k : ℕ} (h : b.drop off = rows g 0 k ++ t) {i j : ℕ}
    (hi : i < k) (hj : j < ceilDiv i 8) : b[rowOff off i + j]? = some (byteOf g i j) := by
  have h1 := drop_rows h i hi.le
  obtain ⟨m, hm⟩ : ∃ m, k - i = m + 1 := ⟨k - i - 1, by omega⟩
  rw [hm, rows_succ, List.append_assoc] at h1
  rw [getElem?_of_drop h1 (by rw [row_length]; exact hj)]
  simp [row, List.getElem?_range hj]

/-- In the bytes written for `g`, exactly the edges are marked. -/
theorem marked_byteOf {g : Graph} {i l : ℕ} :
    Marked g.verts.length (byteOf g) i l ↔ i < g.verts.length ∧ l < i ∧ adj g i l = true := by
  unfold Marked
  constructor
  · rintro ⟨h1, h2, h3, h4⟩
    rw [byteOf_bit _ _ _ _ (Nat.mod_lt _ (by simp)), Nat.div_add_mod', Bool.and_eq_true,
      decide_eq_true_eq] at h4
    refine ⟨h1, lt_of_le_of_ne h4.1 ?_, h4.2⟩
    rintro rfl
    have := h4.2
    simp [adj] at this
  · rintro ⟨h1, h2, h3⟩
    refine ⟨h1, h2.trans h1, by rw [ceilDiv_eight]; omega, ?_⟩
    rw [byteOf_bit _ _ _ _ (Nat.mod_lt _ (by simp)), Nat.div_add_mod', Bool.and_eq_true,
      decide_eq_true_eq]
    exact ⟨h2.le, h3⟩

theorem mem_crossList {g : Graph} {e : ℕ} :
    e ∈ crossList g ↔ ∃ i j, i < g.verts.length ∧ j < i ∧ crosses g i j = true ∧
      e = edgeNumber i j := by
  unfold crossList
  simp only [List.mem_flatMap, List.mem_range]
  constructor
  · rintro ⟨i, hi, j, hj, he⟩
    split_ifs at he with hc
    · rw [List.mem_singleton] at he
      exact ⟨i, j, hi, hj, hc, he⟩
    · simp at he
  · rintro ⟨i, j, hi, hj, hc, rfl⟩
    exact ⟨i, hi, j, hj, by simp [hc]⟩

/-- The word read at an offset, as a total function. -/
def word (b : Buf) (off : ℕ) : BitVec 64 :=
  (List.range 8).foldl (fun acc k => acc ||| ((b.getD (off + k) 0).setWidth 64 <<< (k * 8))) 0

theorem get64_word {b : Buf} {off : ℕ} (h : off + 8 ≤ b.length) : get64 b off = .ok (word b off) := by
  refine get64Loop_ok b off (fun k => b.getD (off + k) 0) _ ?_ 0
  intro k hk
  rw [List.mem_range] at hk
  rw [List.getD_eq_getElem?_getD, List.getElem?_eq_getElem (by omega)]
  rfl

theorem word_zero {b : Buf} {off : ℕ} (h : ∀ k < 8, b.getD (off + k) 0 = 0) : word b off = 0 := by
  unfold word
  simp only [List.range_succ, List.range_zero, List.nil_append, List.cons_append, List.foldl]
  rw [h 0 (by simp), h 1 (by simp), h 2 (by simp), h 3 (by simp), h 4 (by simp), h 5 (by simp),
    h 6 (by simp), h 7 (by simp)]
  decide

theorem loadNumbers_ok {b : Buf} {back n : ℕ} (h : back + 8 + 8 * n ≤ b.length) :
    loadNumbers b back n = .ok ((List.range n).map fun i => word b (back + (i + 1) * 8)) := by
  unfold loadNumbers
  rw [collect_ok (k := fun i => [word b (back + (i + 1) * 8)])]
  · rw [List.map_eq_flatMap]
  · intro i hi
    rw [List.mem_range] at hi
    rw [get64_word (by omega)]
    rfl

theorem words_encNumbers {b t : Buf} {es : List ℕ} {off i : ℕ}
    (h : b.drop off = encNumbers es ++ t) (hi : i < es.length) :
    word b (off + i * 8) = BitVec.ofNat 64 (es.getD i 0) := by
  induction es generalizing off i with
  | nil => simp at hi
  | cons e r ih =>
    have he : encNumbers (e :: r) = le64 (BitVec.ofNat 64 e) ++ encNumbers r := rfl
    rw [he, List.append_assoc] at h
    cases i with
    | zero =>
      have h1 := get64_of_drop h
      have hlen : off + 8 ≤ b.length := by
        have := congrArg List.length h
        rw [List.length_drop, List.length_append, le64_length] at this
        omega
      rw [get64_word hlen] at h1
      have := Except.ok.inj h1
      simpa using this
    | succ i =>
      have h2 := drop_of_drop h
      rw [le64_length] at h2
      have := ih h2 (by simpa using hi)
      rw [show off + 8 + i * 8 = off + (i + 1) * 8 by ring] at this
      simpa using this

/-- Loading a file with at least the bytes that are read, whatever follows the written bytes.  `stale` are the words in
the unwritten slots of the list of edge numbers. -/
theorem load_room {T : ℕ → Polygon.SumTree} {g : Graph} (hst : Storable T g) (hr : g.Regular)
    (rest : Buf) (hroom : rowOff (polygonsEnd 8 g.polygons) g.verts.length + 8 + 8 * crossCount g ≤
      (encode g ++ rest).length) :
    ∃ g', load T (encode g ++ rest) = .ok g' ∧ UserGraph g' ∧ g'.polygons = g.polygons ∧
      g'.verts = g.verts ∧
      ∀ a ∈ g.verts, ∀ b ∈ g.verts, a ≠ b →
        (g'.bits a b ≠ 0 ↔ g.bits a b ≠ 0) ∧
        (g'.bits a b = 2 ↔ g.bits a b = 2 ∨ (g.bits a b ≠ 0 ∧ ∀ i l, i < g.verts.length → l < i →
          ((vAt g i = a ∧ vAt g l = b) ∨ (vAt g i = b ∧ vAt g l = a)) →
          ∃ k, (crossList g).length ≤ k ∧ k < crossCount g ∧
            word (encode g ++ rest)
              (rowOff (polygonsEnd 8 g.polygons) g.verts.length + (k + 1) * 8) =
            BitVec.ofNat 64 (edgeNumber i l))) := by
  have hb := hr.built
  set off := polygonsEnd 8 g.polygons with hoff
  set back := rowOff off g.verts.length with hback
  set B := encode g ++ rest with hB
  have hK : crossCount g < 2 ^ 64 := by
    have h1 := crossCount_le g
    have h2 : g.verts.length * g.verts.length ≤ (2 ^ 32 - 1) * (2 ^ 32 - 1) :=
      Nat.mul_le_mul (by have := hst.verts; omega) (by have := hst.verts; omega)
    norm_num at h2 ⊢
    omega
  have hKn : (BitVec.ofNat 64 (crossCount g)).toNat = crossCount g := by
    rw [BitVec.toNat_ofNat, Nat.mod_eq_of_lt hK]
  -- regions
  have hd0 : B.drop off = rows g 0 g.verts.length ++
      (le64 (BitVec.ofNat 64 (crossCount g)) ++ (encNumbers (crossList g) ++ rest)) := by
    have h0 : B.drop 0 = head g ++ (rows g 0 g.verts.length ++
      (le64 (BitVec.ofNat 64 (crossCount g)) ++ (encNumbers (crossList g) ++ rest))) := by
      simp [hB, encode]
    have := drop_of_drop h0
    rwa [head_length, Nat.zero_add] at this
  have hd1 : B.drop back =
      le64 (BitVec.ofNat 64 (crossCount g)) ++ (encNumbers (crossList g) ++ rest) := by
    have := drop_rows hd0 g.verts.length (le_refl _)
    rw [Nat.sub_self] at this
    simpa [rows] using this
  have hd2 : B.drop (back + 8) = encNumbers (crossList g) ++ rest := by
    have := drop_of_drop hd1
    rwa [le64_length] at this
  have hv : g.polygons.flatten = g.verts := hb.verts.symm
  obtain ⟨g', h1, h2, h3, h4, h5⟩ := loadMatrix_ok B g.polygons off (byteOf g)
    (BitVec.ofNat 64 (crossCount g))
    ((List.range (crossCount g)).map fun i => word B (back + (i + 1) * 8))
    (by rw [hv]; intro i hi j hj; exact byte_of_rows hd0 hi hj)
    (by rw [hv]; exact get64_of_drop hd1)
    (by rw [hv, hKn]; exact loadNumbers_ok hroom)
  rw [hv] at h4 h5
  refine ⟨g', ?_, h2, h3, h4, ?_⟩
  · rw [← h1]
    have : B = head g ++ (rows g 0 g.verts.length ++
      (le64 (BitVec.ofNat 64 (crossCount g)) ++ (encNumbers (crossList g) ++ rest))) := by
      simp [hB, encode]
    rw [this]
    exact load_head hst hb _
  · intro a ha b hb' hab
    rw [h4] at h5
    obtain ⟨h6, h7⟩ := h5 a ha b hb' hab
    have hv' : ∀ i, vAt g' i = vAt g i := by intro i; unfold vAt; rw [h4]
    simp only [hv', marked_byteOf] at h6 h7
    have hadj : ∀ i l, ((vAt g i = a ∧ vAt g l = b) ∨ (vAt g i = b ∧ vAt g l = a)) →
        (adj g i l = true ↔ g.bits a b ≠ 0) ∧ (crosses g i l = true ↔ g.bits a b = 2) := by
      intro i l hp
      have hba : b ≠ a := fun h => hab h.symm
      unfold adj crosses
      rcases hp with ⟨h8, h9⟩ | ⟨h8, h9⟩
      · rw [h8, h9, Bool.and_eq_true, bne_iff_ne, bne_iff_ne, Bool.and_eq_true, bne_iff_ne,
          beq_iff_eq]
        exact ⟨⟨fun h => h.2, fun h => ⟨hab, h⟩⟩, ⟨fun h => h.2, fun h => ⟨hab, h⟩⟩⟩
      · rw [h8, h9, Bool.and_eq_true, bne_iff_ne, bne_iff_ne, Bool.and_eq_true, bne_iff_ne,
          beq_iff_eq, hr.sym b a]
        exact ⟨⟨fun h => h.2, fun h => ⟨hba, h⟩⟩, ⟨fun h => h.2, fun h => ⟨hba, h⟩⟩⟩
    have hex : ∃ i l, i < g.verts.length ∧ l < i ∧
        ((vAt g i = a ∧ vAt g l = b) ∨ (vAt g i = b ∧ vAt g l = a)) := by
      obtain ⟨i, hi, rfl⟩ := exists_vAt ha
      obtain ⟨l, hl, rfl⟩ := exists_vAt hb'
      rcases lt_trichotomy l i with h | h | h
      · exact ⟨i, l, hi, h, Or.inl ⟨rfl, rfl⟩⟩
      · exact absurd (by rw [h]) hab
      · exact ⟨l, i, hl, h, Or.inr ⟨rfl, rfl⟩⟩
    have e1 : g'.bits a b ≠ 0 ↔ g.bits a b ≠ 0 := by
      rw [h6]
      constructor
      · rintro ⟨i, l, ⟨_, _, h⟩, hp⟩; exact (hadj i l hp).1.1 h
      · intro h
        obtain ⟨i, l, hi, hl, hp⟩ := hex
        exact ⟨i, l, ⟨hi, hl, (hadj i l hp).1.2 h⟩, hp⟩
    refine ⟨e1, ?_⟩
    rw [h7, e1]
    have hmem : ∀ i l, i < g.verts.length → l < i →
        ((vAt g i = a ∧ vAt g l = b) ∨ (vAt g i = b ∧ vAt g l = a)) →
        (BitVec.ofNat 64 (edgeNumber i l) ∈
          (List.range (crossCount g)).map (fun i => word B (back + (i + 1) * 8)) ↔
        g.bits a b = 2 ∨ ∃ k, (crossList g).length ≤ k ∧ k < crossCount g ∧
          word B (back + (k + 1) * 8) = BitVec.ofNat 64 (edgeNumber i l)) := by
      intro i l hi hl hp
      have hi32 : i < 2 ^ 32 := hi.trans hst.verts
      rw [List.mem_map]
      have hw : ∀ k < (crossList g).length,
          word B (back + (k + 1) * 8) = BitVec.ofNat 64 ((crossList g).getD k 0) := by
        intro k hk
        have := words_encNumbers hd2 hk
        rwa [show back + 8 + k * 8 = back + (k + 1) * 8 by ring] at this
      constructor
      · rintro ⟨k, hk, hke⟩
        rw [List.mem_range] at hk
        rcases lt_or_ge k (crossList g).length with hlt | hge
        · left
          rw [hw k hlt] at hke
          have hm : (crossList g).getD k 0 ∈ crossList g := by
            rw [List.getD_eq_getElem?_getD, List.getElem?_eq_getElem hlt]
            exact List.getElem_mem hlt
          obtain ⟨i', l', hi', hl', hc', he'⟩ := mem_crossList.1 hm
          rw [he'] at hke
          have := congrArg BitVec.toNat hke
          rw [BitVec.toNat_ofNat, BitVec.toNat_ofNat,
            Nat.mod_eq_of_lt (edgeNumber_lt (hi'.trans hst.verts) hl'.le),
            Nat.mod_eq_of_lt (edgeNumber_lt hi32 hl.le)] at this
          obtain ⟨rfl, rfl⟩ := edgeNumber_inj hl'.le hl.le this
          exact (hadj i' l' hp).2.1 hc'
        · exact Or.inr ⟨k, hge, hk, hke⟩
      · rintro (h2 | ⟨k, _, hk, hke⟩)
        · have hm : edgeNumber i l ∈ crossList g :=
            mem_crossList.2 ⟨i, l, hi, hl, (hadj i l hp).2.2 h2, rfl⟩
          obtain ⟨k, hk, hke⟩ := List.getElem_of_mem hm
          refine ⟨k, List.mem_range.2 (hk.trans_le (crossList_length_le g)), ?_⟩
          rw [hw k hk, List.getD_eq_getElem?_getD, List.getElem?_eq_getElem hk, hke]
          rfl
        · exact ⟨k, List.mem_range.2 hk, hke⟩
    constructor
    · rintro ⟨hne, hall⟩
      by_cases h2 : g.bits a b = 2
      · exact Or.inl h2
      · refine Or.inr ⟨hne, fun i l hi hl hp => ?_⟩
        rcases (hmem i l hi hl hp).1 (hall i l ⟨hi, hl, (hadj i l hp).1.2 hne⟩ hp) with h | h
        · exact absurd h h2
        · exact h
    · rintro (h2 | ⟨hne, hall⟩)
      · refine ⟨by rw [h2]; decide, fun i l ⟨hi, hl, _⟩ hp => ?_⟩
        exact (hmem i l hi hl hp).2 (Or.inl h2)
      · refine ⟨hne, fun i l ⟨hi, hl, _⟩ hp => ?_⟩
        exact (hmem i l hi hl hp).2 (Or.inr (hall i l hi hl hp))

/-- Loading a file as long as the program writes it. -/
theorem load_complete {T : ℕ → Polygon.SumTree} {g : Graph} (hst : Storable T g) (hr : g.Regular)
    (rest : Buf) (hlen : (encode g).length + rest.length = fileSize g (crossCount g)) :
    ∃ g', load T (encode g ++ rest) = .ok g' ∧ UserGraph g' ∧ g'.polygons = g.polygons ∧
      g'.verts = g.verts ∧
      ∀ a ∈ g.verts, ∀ b ∈ g.verts, a ≠ b →
        (g'.bits a b ≠ 0 ↔ g.bits a b ≠ 0) ∧
        (g'.bits a b = 2 ↔ g.bits a b = 2 ∨ (g.bits a b ≠ 0 ∧ ∀ i l, i < g.verts.length → l < i →
          ((vAt g i = a ∧ vAt g l = b) ∨ (vAt g i = b ∧ vAt g l = a)) →
          ∃ k, (crossList g).length ≤ k ∧ k < crossCount g ∧
            word (encode g ++ rest)
              (rowOff (polygonsEnd 8 g.polygons) g.verts.length + (k + 1) * 8) =
            BitVec.ofNat 64 (edgeNumber i l))) := by
  apply load_room hst hr
  have h1 := encode_le hr.built
  rw [List.length_append, hlen, ← h1, encode_length]
  have h2 := crossList_length_le g
  omega

/-! ### Interrupted saves -/

theorem word_bit (b : Buf) (off i : ℕ) (hi : i < 64) :
    (word b off).getLsbD i = (b.getD (off + i / 8) 0).getLsbD (i % 8) := by
  unfold word
  simp only [List.range_succ, List.range_zero, List.nil_append, List.cons_append, List.foldl]
  generalize hf : (fun k => b.getD (off + k) 0) = f
  have e : ∀ k, b.getD (off + k) 0 = f k := fun k => by rw [← hf]
  simp only [e]
  interval_cases i <;> simp [BitVec.getLsbD_of_ge]

/-- A word with some bytes cleared is not larger. -/
theorem word_le {b c : Buf} {off : ℕ}
    (h : ∀ k < 8, b.getD (off + k) 0 = c.getD (off + k) 0 ∨ b.getD (off + k) 0 = 0) :
    (word b off).toNat ≤ (word c off).toNat := by
  have : word b off &&& word c off = word b off := by
    apply BitVec.eq_of_getLsbD_eq
    intro i hi
    rw [BitVec.getLsbD_and, word_bit _ _ _ hi, word_bit _ _ _ hi]
    rcases h (i / 8) (by omega) with h1 | h1 <;> rw [h1] <;> simp
  rw [← this, BitVec.toNat_and]
  exact Nat.and_le_right

theorem crashed_getD {g : Graph} {n m k : ℕ} :
    ((encode g).take n ++ (allocate [] m).drop ((encode g).take n).length).getD k 0 =
      if k < n then (encode g).getD k 0 else 0 := by
  have hz : ∀ q, ((allocate [] m).drop q).getD k 0 = 0 ∧ ∀ k', ((allocate [] m).drop q).getD k' 0 = 0 := by
    intro q
    have : ∀ k', ((allocate [] m).drop q).getD k' 0 = 0 := by
      intro k'
      simp only [allocate, List.take_nil, List.nil_append, List.length_nil, Nat.sub_zero,
        List.drop_replicate, List.getD_eq_getElem?_getD, List.getElem?_replicate]
      split_ifs <;> rfl
    exact ⟨this k, this⟩
  rw [List.getD_eq_getElem?_getD]
  by_cases hk : k < ((encode g).take n).length
  · rw [List.getElem?_append_left hk]
    rw [List.length_take] at hk
    rw [List.getElem?_take, if_pos (by omega), if_pos (by omega), List.getD_eq_getElem?_getD]
  · rw [List.getElem?_append_right (by omega), ← List.getD_eq_getElem?_getD, (hz _).2]
    rw [List.length_take] at hk
    split_ifs with h
    · rw [List.getD_eq_getElem?_getD, List.getElem?_eq_none (by omega)]; rfl
    · rfl

end Serial

end Capi
