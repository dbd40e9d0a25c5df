import Verif.Model.Serializer
import Verif.Lemmas.Merge
import Mathlib.Tactic.IntervalCases

/-!
# Helper lemmas about the file format
-/

namespace Capi

namespace Serial

open Graph (Op)

/-! ### Stores -/

/-- Consecutive stores. -/
def storeAt (off : ℕ) : Buf → List Write
  | [] => []
  | x :: r => (off, x) :: storeAt (off + 1) r

theorem storeAt_append (off : ℕ) (x y : Buf) :
    storeAt off (x ++ y) = storeAt off x ++ storeAt (off + x.length) y := by
  induction x generalizing off with
  | nil => simp [storeAt]
  | cons a r ih => simp [storeAt, ih, Nat.add_assoc, Nat.add_comm 1]

theorem storeAt_take (off n : ℕ) (x : Buf) :
    (storeAt off x).take n = storeAt off (x.take n) := by
  induction x generalizing off n with
  | nil => simp [storeAt]
  | cons a r ih =>
    cases n with
    | zero => simp [storeAt]
    | succ n => simp [storeAt, ih]

theorem storeAt_length (off : ℕ) (x : Buf) : (storeAt off x).length = x.length := by
  induction x generalizing off with
  | nil => rfl
  | cons a r ih => simp [storeAt, ih]

theorem storeAt_fst (off : ℕ) (x : Buf) :
    (storeAt off x).map Prod.fst = List.range' off x.length := by
  induction x generalizing off with
  | nil => rfl
  | cons a r ih => simp [storeAt, ih, List.range'_succ]

theorem applyWrites_append (b : Buf) (x y : List Write) :
    applyWrites b (x ++ y) = (applyWrites b x >>= fun b1 => applyWrites b1 y) := by
  induction x generalizing b with
  | nil => rfl
  | cons w r ih =>
    simp only [List.cons_append, applyWrites]
    cases applyWrite b w with
    | error e => rfl
    | ok b1 => simp only [Res.bind_ok, ih]

theorem applyWrites_storeAt (pre x post y : Buf) (h : x.length = y.length) :
    applyWrites (pre ++ x ++ post) (storeAt pre.length y) = .ok (pre ++ y ++ post) := by
  induction y generalizing pre x with
  | nil =>
    have : x = [] := List.length_eq_zero_iff.1 h
    subst this
    rfl
  | cons a r ih =>
    cases x with
    | nil => simp at h
    | cons c s =>
      simp only [List.length_cons, Nat.add_right_cancel_iff] at h
      have := ih (pre ++ [a]) s h
      simp only [List.length_append, List.length_cons, List.length_nil, Nat.zero_add,
        List.append_assoc, List.cons_append, List.nil_append] at this
      simp only [storeAt, applyWrites, applyWrite, List.append_assoc, List.cons_append]
      rw [if_pos (by simp), Res.bind_ok, ← this]
      congr 1
      rw [List.set_append_right _ _ (le_refl _)]
      simp

/-- Storing `y` from the start of `b`. -/
theorem applyWrites_start (b y : Buf) (h : y.length ≤ b.length) :
    applyWrites b (storeAt 0 y) = .ok (y ++ b.drop y.length) := by
  have := applyWrites_storeAt [] (b.take y.length) (b.drop y.length) y (by simp [h])
  simpa using this

/-! ### Integers -/

/-- Little-endian bytes. -/
def le64 (v : BitVec 64) : Buf :=
  (List.range 8).map fun k => ((v >>> (k * 8)) &&& 0xFF#64).setWidth 8

/-- Little-endian bytes. -/
def le32 (v : BitVec 32) : Buf :=
  (List.range 4).map fun k => ((v >>> (k * 8)) &&& 0xFF#32).setWidth 8

@[simp] theorem le64_length (v : BitVec 64) : (le64 v).length = 8 := by simp [le64]
@[simp] theorem le32_length (v : BitVec 32) : (le32 v).length = 4 := by simp [le32]

theorem put64_eq (v : BitVec 64) (off : ℕ) : put64 v off = storeAt off (le64 v) := by
  simp [put64, le64, List.range_succ, storeAt]

theorem put32_eq (v : BitVec 32) (off : ℕ) : put32 v off = storeAt off (le32 v) := by
  simp [put32, le32, List.range_succ, storeAt]

theorem join64 (v : BitVec 64) :
    ((List.range 8).foldl (fun acc k => acc |||
      ((((v >>> (k * 8)) &&& 0xFF#64).setWidth 8).setWidth 64 <<< (k * 8))) 0) = v := by
  simp only [List.range_succ, List.range_zero, List.nil_append, List.cons_append, List.foldl]
  apply BitVec.eq_of_getLsbD_eq
  intro i hi
  interval_cases i <;> simp

theorem join32 (v : BitVec 32) :
    ((List.range 4).foldl (fun acc k => acc |||
      ((((v >>> (k * 8)) &&& 0xFF#32).setWidth 8).setWidth 32 <<< (k * 8))) 0) = v := by
  simp only [List.range_succ, List.range_zero, List.nil_append, List.cons_append, List.foldl]
  apply BitVec.eq_of_getLsbD_eq
  intro i hi
  interval_cases i <;> simp

theorem getByte_ok {b : Buf} {off : ℕ} {x : Byte} (h : b[off]? = some x) :
    getByte b off = .ok x := by simp [getByte, h]

theorem get64Loop_ok (b : Buf) (off : ℕ) (f : ℕ → Byte) (ks : List ℕ)
    (h : ∀ k ∈ ks, b[off + k]? = some (f k)) (acc : BitVec 64) :
    get64Loop b off acc ks =
      .ok (ks.foldl (fun acc k => acc ||| ((f k).setWidth 64 <<< (k * 8))) acc) := by
  induction ks generalizing acc with
  | nil => rfl
  | cons k r ih =>
    rw [get64Loop, getByte_ok (h k (by simp)), Res.bind_ok, ih fun x hx => h x (by simp [hx])]
    rfl

theorem get32Loop_ok (b : Buf) (off : ℕ) (f : ℕ → Byte) (ks : List ℕ)
    (h : ∀ k ∈ ks, b[off + k]? = some (f k)) (acc : BitVec 32) :
    get32Loop b off acc ks =
      .ok (ks.foldl (fun acc k => acc ||| ((f k).setWidth 32 <<< (k * 8))) acc) := by
  induction ks generalizing acc with
  | nil => rfl
  | cons k r ih =>
    rw [get32Loop, getByte_ok (h k (by simp)), Res.bind_ok, ih fun x hx => h x (by simp [hx])]
    rfl

/-- Bytes at an offset. -/
theorem getElem?_of_drop {b x t : Buf} {off k : ℕ} (h : b.drop off = x ++ t) (hk : k < x.length) :
    b[off + k]? = x[k]? := by
  rw [← List.getElem?_drop, h, List.getElem?_append_left hk]

theorem drop_of_drop {b x t : Buf} {off : ℕ} (h : b.drop off = x ++ t) :
    b.drop (off + x.length) = t := by
  rw [← List.drop_drop, h, List.drop_left]

theorem get64_of_drop {b t : Buf} {off : ℕ} {v : BitVec 64} (h : b.drop off = le64 v ++ t) :
    get64 b off = .ok v := by
  unfold get64
  rw [get64Loop_ok b off (fun k => ((v >>> (k * 8)) &&& 0xFF#64).setWidth 8), join64]
  intro k hk
  rw [List.mem_range] at hk
  rw [getElem?_of_drop h (by simpa using hk)]
  simp [le64, List.getElem?_range hk]

theorem get32_of_drop {b t : Buf} {off : ℕ} {v : BitVec 32} (h : b.drop off = le32 v ++ t) :
    get32 b off = .ok v := by
  unfold get32
  rw [get32Loop_ok b off (fun k => ((v >>> (k * 8)) &&& 0xFF#32).setWidth 8), join32]
  intro k hk
  rw [List.mem_range] at hk
  rw [getElem?_of_drop h (by simpa using hk)]
  simp [le32, List.getElem?_range hk]

theorem toInt_ofInt {x : ℤ} (h : FitsI32 x) : (BitVec.ofInt 32 x).toInt = x := by
  rw [BitVec.toInt_ofInt]
  unfold FitsI32 at h
  simp only [Int.bmod]
  norm_num
  split_ifs <;> omega

theorem getI32_of_drop {b t : Buf} {off : ℕ} {x : ℤ} (hx : FitsI32 x)
    (h : b.drop off = le32 (BitVec.ofInt 32 x) ++ t) : getI32 b off = .ok x := by
  simp [getI32, get32_of_drop h, toInt_ofInt hx]

/-- Reading inside the file always succeeds. -/
theorem get64_inside {b : Buf} {off : ℕ} (h : off + 8 ≤ b.length) : ∃ v, get64 b off = .ok v := by
  refine ⟨_, get64Loop_ok b off (fun k => b.getD (off + k) 0) _ ?_ 0⟩
  intro k hk
  rw [List.mem_range] at hk
  rw [List.getD_eq_getElem?_getD, List.getElem?_eq_getElem (by omega)]
  rfl

/-! ### Loops -/

theorem collect_ok {α β : Type} {f : α → Res (List β)} {l : List α} {k : α → List β}
    (h : ∀ a ∈ l, f a = .ok (k a)) : collect f l = .ok (l.flatMap k) := by
  induction l with
  | nil => rfl
  | cons a r ih =>
    rw [collect, h a (by simp), Res.bind_ok, ih fun x hx => h x (by simp [hx])]
    simp

theorem total_ok {α : Type} {f : α → Res ℕ} {l : List α} {k : α → ℕ}
    (h : ∀ a ∈ l, f a = .ok (k a)) : total f l = .ok (l.map k).sum := by
  induction l with
  | nil => rfl
  | cons a r ih =>
    rw [total, h a (by simp), Res.bind_ok, ih fun x hx => h x (by simp [hx])]
    simp

theorem collect_mem {α β : Type} {f : α → Res (List β)} {l : List α} {r : List β}
    (h : collect f l = .ok r) (y : β) : y ∈ r ↔ ∃ a ∈ l, ∃ z, f a = .ok z ∧ y ∈ z := by
  induction l generalizing r with
  | nil => cases h; simp
  | cons a s ih =>
    rw [collect] at h
    cases hf : f a with
    | error e => rw [hf] at h; simp at h
    | ok x =>
      rw [hf, Res.bind_ok] at h
      cases hc : collect f s with
      | error e => rw [hc] at h; simp at h
      | ok z =>
        rw [hc] at h
        simp only [Res.bind_ok, Res.pure_eq, Except.ok.injEq] at h
        subst h
        rw [List.mem_append, ih hc]
        constructor
        · rintro (h | ⟨b, hb, w, hw, hy⟩)
          · exact ⟨a, by simp, x, hf, h⟩
          · exact ⟨b, by simp [hb], w, hw, hy⟩
        · rintro ⟨b, hb, w, hw, hy⟩
          rcases List.mem_cons.1 hb with rfl | hb
          · rw [hf] at hw; cases hw; exact Or.inl hy
          · exact Or.inr ⟨b, hb, w, hw, hy⟩

/-! ### Sizes -/

theorem ceilDiv_eight (n : ℕ) : ceilDiv n 8 = (n + 7) / 8 := by
  unfold ceilDiv; split_ifs <;> omega

theorem rowOff_add (off n : ℕ) : rowOff off n = off + rowOff 0 n := by
  induction n with
  | zero => simp [rowOff]
  | succ n ih => simp [rowOff, ih, Nat.add_assoc]

theorem half_sq (f : ℕ) : 8 * ((f * f + f) / 2) = 4 * (f * f + f) := by
  have : (f * f + f) % 2 = 0 := by
    rcases Nat.even_or_odd' f with ⟨k, rfl | rfl⟩
    · ring_nf; omega
    · ring_nf; omega
  omega

theorem matrixBytes_succ (n : ℕ) : matrixBytes (n + 1) = matrixBytes n + ceilDiv (n + 1) 8 := by
  simp only [matrixBytes, half_sq, ceilDiv_eight]
  obtain ⟨f, r, hr, rfl⟩ : ∃ f r, r < 8 ∧ n = 8 * f + r := ⟨n / 8, n % 8, Nat.mod_lt _ (by simp),
    (Nat.div_add_mod n 8).symm⟩
  have h1 : (8 * f + r) / 8 = f := by omega
  have h2 : 8 * f + r - 8 * f = r := by omega
  rw [h1, h2]
  by_cases h7 : r = 7
  · subst h7
    have h3 : (8 * f + 7 + 1) / 8 = f + 1 := by omega
    have h4 : 8 * f + 7 + 1 - 8 * (f + 1) = 0 := by omega
    have h5 : (8 * f + 7 + 7) / 8 = f + 1 := by omega
    have h6 : (8 * f + 7 + 1 + 7) / 8 = f + 1 := by omega
    rw [h3, h4, h5, h6]; ring
  · have h3 : (8 * f + r + 1) / 8 = f := by omega
    have h4 : 8 * f + r + 1 - 8 * f = r + 1 := by omega
    have h6 : (8 * f + r + 1 + 7) / 8 = f + 1 := by omega
    rw [h3, h4, h6]
    rcases Nat.eq_zero_or_pos r with rfl | hp
    · have h5 : (8 * f + 0 + 7) / 8 = f := by omega
      rw [h5]; ring
    · have h5 : (8 * f + r + 7) / 8 = f + 1 := by omega
      rw [h5]; ring

/-- The matrix region is `⌈n/8⌉` bytes longer than needed. -/
theorem matrixBytes_eq (n : ℕ) : matrixBytes n = rowOff 0 n + ceilDiv n 8 := by
  induction n with
  | zero => rfl
  | succ n ih => rw [matrixBytes_succ, ih, rowOff]

theorem polygonsEnd_eq (off : ℕ) (ps : List (List Coord)) :
    polygonsEnd off ps = off + 8 * ps.length + 8 * ps.flatten.length := by
  induction ps generalizing off with
  | nil => simp [polygonsEnd]
  | cons p r ih => simp only [polygonsEnd, ih, List.flatten_cons, List.length_append,
      List.length_cons]; omega

/-! ### Encoding -/

/-- Bytes of the vertices. -/
def encVertices (vs : List Coord) : Buf :=
  vs.flatMap fun c => le32 (BitVec.ofInt 32 c.lon) ++ le32 (BitVec.ofInt 32 c.lat)

/-- Bytes of the polygons. -/
def encPolygons (ps : List (List Coord)) : Buf :=
  ps.flatMap fun p => le64 (BitVec.ofNat 64 p.length) ++ encVertices p

theorem encVertices_length (vs : List Coord) : (encVertices vs).length = 8 * vs.length := by
  induction vs with
  | nil => rfl
  | cons c r ih =>
    have : encVertices (c :: r) = le32 (BitVec.ofInt 32 c.lon) ++ le32 (BitVec.ofInt 32 c.lat) ++
      encVertices r := rfl
    rw [this]; simp [ih]; omega

theorem putVertices_eq (off : ℕ) (vs : List Coord) :
    putVertices off vs = storeAt off (encVertices vs) := by
  induction vs generalizing off with
  | nil => rfl
  | cons c r ih =>
    have : encVertices (c :: r) = le32 (BitVec.ofInt 32 c.lon) ++ le32 (BitVec.ofInt 32 c.lat) ++
      encVertices r := rfl
    rw [this, putVertices, ih, storeAt_append, storeAt_append, putI32, putI32, put32_eq, put32_eq]
    simp

theorem encPolygons_cons (p : List Coord) (r : List (List Coord)) :
    encPolygons (p :: r) = le64 (BitVec.ofNat 64 p.length) ++ encVertices p ++ encPolygons r := by
  simp [encPolygons]

theorem encPolygons_length (ps : List (List Coord)) :
    (encPolygons ps).length = 8 * ps.length + 8 * ps.flatten.length := by
  induction ps with
  | nil => rfl
  | cons p r ih =>
    rw [encPolygons_cons]
    simp only [List.length_append, le64_length, encVertices_length, ih, List.length_cons,
      List.flatten_cons]
    omega

theorem putPolygons_eq (off : ℕ) (ps : List (List Coord)) :
    putPolygons off ps = storeAt off (encPolygons ps) := by
  induction ps generalizing off with
  | nil => rfl
  | cons p r ih =>
    rw [encPolygons_cons, putPolygons, ih, storeAt_append, storeAt_append, put64_eq,
      putVertices_eq]
    simp only [List.length_append, le64_length, encVertices_length]
    congr 2; omega

/-- The vertex with number `i`. -/
def vAt (g : Graph) (i : ℕ) : Coord := g.verts.getD i default

theorem vertexAt_ok {g : Graph} {i : ℕ} (h : i < g.verts.length) :
    vertexAt g i = .ok (vAt g i) := by
  simp [vertexAt, vAt, List.getElem?_eq_getElem h]

theorem vAt_mem {g : Graph} {i : ℕ} (h : i < g.verts.length) : vAt g i ∈ g.verts := by
  simp [vAt, List.getElem?_eq_getElem h]

theorem exists_vAt {g : Graph} {c : Coord} (h : c ∈ g.verts) :
    ∃ i, i < g.verts.length ∧ vAt g i = c := by
  obtain ⟨i, hi, rfl⟩ := List.getElem_of_mem h
  exact ⟨i, hi, by simp [vAt, List.getElem?_eq_getElem hi]⟩

/-- Is there an edge between the vertices with these numbers? -/
def adj (g : Graph) (i l : ℕ) : Bool := vAt g i != vAt g l && g.bits (vAt g i) (vAt g l) != 0

/-- Is it crossing? -/
def crosses (g : Graph) (i l : ℕ) : Bool := vAt g i != vAt g l && g.bits (vAt g i) (vAt g l) == 2

/-- The byte `j` of row `i`. -/
def byteOf (g : Graph) (i j : ℕ) : Byte :=
  (List.range' (j * 8) (min ((j + 1) * 8) (i + 1) - j * 8)).foldl
    (fun acc l => acc ||| ((if adj g i l then 1#8 else 0#8) <<< (l - j * 8))) 0

theorem encodeByte_ok {g : Graph} (hs : g.Shape) {i j : ℕ} (hi : i < g.verts.length) (ls : List ℕ)
    (hl : ∀ l ∈ ls, l < g.verts.length) (acc : Byte) :
    encodeByte g i j acc ls = .ok (ls.foldl
      (fun acc l => acc ||| ((if adj g i l then 1#8 else 0#8) <<< (l - j * 8))) acc) := by
  induction ls generalizing acc with
  | nil => rfl
  | cons l r ih =>
    have h1 := hl l (by simp)
    rw [encodeByte, vertexAt_ok hi, Res.bind_ok, vertexAt_ok h1, Res.bind_ok,
      Graph.hasEdge_ok hs (vAt_mem hi) (vAt_mem h1), Res.bind_ok,
      ih fun x hx => hl x (by simp [hx])]
    rfl

/-- The bytes of row `i`. -/
def row (g : Graph) (i : ℕ) : Buf := (List.range (ceilDiv i 8)).map (byteOf g i)

theorem storeAt_map (off : ℕ) (f : ℕ → Byte) (n : ℕ) :
    storeAt off ((List.range n).map f) = (List.range n).map fun j => (off + j, f j) := by
  induction n with
  | zero => rfl
  | succ n ih =>
    rw [List.range_succ, List.map_append, storeAt_append, ih]
    simp [storeAt]

/-- The rows `i, …, i+k-1`. -/
def rows (g : Graph) (i k : ℕ) : Buf := (List.range' i k).flatMap (row g)

theorem rows_succ (g : Graph) (i k : ℕ) : rows g i (k + 1) = row g i ++ rows g (i + 1) k := by
  simp [rows, List.range'_succ]

theorem row_length (g : Graph) (i : ℕ) : (row g i).length = ceilDiv i 8 := by simp [row]

theorem rows_length (g : Graph) (i k : ℕ) : rowOff 0 i + (rows g i k).length = rowOff 0 (i + k) := by
  induction k generalizing i with
  | zero => simp [rows]
  | succ k ih =>
    rw [rows_succ, List.length_append, row_length]
    have := ih (i + 1)
    rw [rowOff] at this
    rw [show i + (k + 1) = i + 1 + k by omega, ← this]
    omega

theorem storeAt_rows (g : Graph) (off i k : ℕ) :
    storeAt (rowOff off i) (rows g i k) =
      (List.range' i k).flatMap fun i => storeAt (rowOff off i) (row g i) := by
  induction k generalizing i with
  | zero => rfl
  | succ k ih =>
    rw [rows_succ, storeAt_append, row_length, List.range'_succ, List.flatMap_cons, ← ih (i + 1)]
    rfl

theorem byte_range {g : Graph} {i j : ℕ} (hi : i < g.verts.length) :
    ∀ l ∈ List.range' (j * 8) (min ((j + 1) * 8) (i + 1) - j * 8), l < g.verts.length := by
  intro l hl
  rw [List.mem_range'_1] at hl
  omega

theorem putRows_ok {g : Graph} (hs : g.Shape) (off : ℕ) :
    putRows g off = .ok (storeAt off (rows g 0 g.verts.length)) := by
  unfold putRows
  rw [collect_ok (k := fun i => storeAt (rowOff off i) (row g i))]
  · rw [show off = rowOff off 0 from rfl, storeAt_rows, List.range_eq_range']
    rfl
  · intro i hi
    rw [List.mem_range] at hi
    rw [collect_ok (k := fun j => [(rowOff off i + j, byteOf g i j)])]
    · rw [row, storeAt_map, List.map_eq_flatMap]
    · intro j _
      rw [encodeByte_ok hs hi _ (byte_range hi)]
      rfl

/-- The numbers of the crossing edges. -/
def crossList (g : Graph) : List ℕ :=
  (List.range g.verts.length).flatMap fun i =>
    (List.range i).flatMap fun j => if crosses g i j then [edgeNumber i j] else []

theorem crossingNumbers_ok {g : Graph} (hs : g.Shape) :
    crossingNumbers g = .ok (crossList g) := by
  unfold crossingNumbers crossList
  apply collect_ok
  intro i hi
  rw [List.mem_range] at hi
  apply collect_ok
  intro j hj
  rw [List.mem_range] at hj
  rw [vertexAt_ok hi, Res.bind_ok, vertexAt_ok (hj.trans hi), Res.bind_ok,
    Graph.isCrossing_ok hs (vAt_mem hi) (vAt_mem (hj.trans hi))]
  rfl

/-- The number of crossing ordered pairs. -/
def crossCount (g : Graph) : ℕ :=
  ((List.range g.verts.length).map fun i =>
    ((List.range g.verts.length).map fun j => if crosses g i j then 1 else 0).sum).sum

theorem verts_eq (g : Graph) : g.verts = (List.range g.verts.length).map (vAt g) := by
  apply List.ext_getElem
  · simp
  · intro i h1 h2
    simp [vAt, List.getElem?_eq_getElem h1]

theorem countCrossing_ok {g : Graph} (hs : g.Shape) : countCrossing g = .ok (crossCount g) := by
  unfold countCrossing crossCount
  have key : ∀ a ∈ g.verts, total (fun b => do
      let m ← g.isCrossing a b
      pure (if m then 1 else 0)) g.verts =
      .ok (g.verts.map fun b => if (a != b && g.bits a b == 2) then 1 else 0).sum := by
    intro a ha
    apply total_ok
    intro b hb
    rw [Graph.isCrossing_ok hs ha hb]
    rfl
  rw [total_ok key]
  congr 2
  conv_lhs => rw [verts_eq g]
  rw [List.map_map]
  apply List.map_congr_left
  intro i _
  simp only [Function.comp_apply]
  rw [List.map_map]
  rfl

theorem sum_le_of_le {l : List ℕ} {f h : ℕ → ℕ} (hf : ∀ i ∈ l, f i ≤ h i) :
    (l.map f).sum ≤ (l.map h).sum := by
  induction l with
  | nil => simp
  | cons a r ih =>
    simp only [List.map_cons, List.sum_cons]
    exact Nat.add_le_add (hf a (by simp)) (ih fun x hx => hf x (by simp [hx]))

theorem sum_le_const {l : List ℕ} {f : ℕ → ℕ} {c : ℕ} (hf : ∀ i ∈ l, f i ≤ c) :
    (l.map f).sum ≤ l.length * c := by
  induction l with
  | nil => simp
  | cons a r ih =>
    simp only [List.map_cons, List.sum_cons, List.length_cons]
    have h1 := hf a (by simp)
    have h2 := ih fun x hx => hf x (by simp [hx])
    rw [Nat.add_mul]; omega

theorem crossCount_le (g : Graph) : crossCount g ≤ g.verts.length * g.verts.length := by
  unfold crossCount
  refine (sum_le_const (c := g.verts.length) fun i _ => ?_).trans (by simp)
  refine (sum_le_const (c := 1) fun j _ => ?_).trans (by simp)
  split_ifs <;> simp

theorem crossList_length_le (g : Graph) : (crossList g).length ≤ crossCount g := by
  unfold crossList crossCount
  rw [List.length_flatMap]
  apply sum_le_of_le
  intro i hi
  rw [List.mem_range] at hi
  rw [List.length_flatMap]
  have h1 : (List.range i).Sublist (List.range g.verts.length) :=
    List.range_sublist.2 hi.le
  refine le_trans ?_ (List.Sublist.sum_le_sum (h1.map _) (by simp))
  apply sum_le_of_le
  intro j _
  split_ifs <;> simp

/-- Bytes of the edge numbers. -/
def encNumbers (es : List ℕ) : Buf := es.flatMap fun e => le64 (BitVec.ofNat 64 e)

theorem encNumbers_length (es : List ℕ) : (encNumbers es).length = 8 * es.length := by
  induction es with
  | nil => rfl
  | cons e r ih =>
    have : encNumbers (e :: r) = le64 (BitVec.ofNat 64 e) ++ encNumbers r := rfl
    rw [this, List.length_append, ih, le64_length, List.length_cons]; omega

theorem putNumbers_eq (back k : ℕ) (es : List ℕ) :
    putNumbers back k es = storeAt ((k + 1) * 8 + back) (encNumbers es) := by
  induction es generalizing k with
  | nil => rfl
  | cons e r ih =>
    have : encNumbers (e :: r) = le64 (BitVec.ofNat 64 e) ++ encNumbers r := rfl
    rw [putNumbers, ih, this, storeAt_append, put64_eq, le64_length]
    congr 2; ring

/-- Header and polygons. -/
def head (g : Graph) : Buf := le64 (BitVec.ofNat 64 g.polygons.length) ++ encPolygons g.polygons

/-- All bytes written. -/
def encode (g : Graph) : Buf :=
  head g ++ rows g 0 g.verts.length ++ le64 (BitVec.ofNat 64 (crossCount g)) ++
    encNumbers (crossList g)

theorem head_length (g : Graph) : (head g).length = polygonsEnd 8 g.polygons := by
  rw [polygonsEnd_eq, head, List.length_append, le64_length, encPolygons_length]; omega

theorem encode_length (g : Graph) : (encode g).length =
    rowOff (polygonsEnd 8 g.polygons) g.verts.length + 8 + 8 * (crossList g).length := by
  have := rows_length g 0 g.verts.length
  rw [Nat.zero_add] at this
  simp only [encode, List.length_append, head_length, le64_length, encNumbers_length]
  rw [rowOff_add (polygonsEnd 8 g.polygons)]
  rw [← this]; simp [rowOff]

theorem stores_ok {g : Graph} (hs : g.Shape) :
    stores g (crossCount g) = .ok (storeAt 0 (encode g)) := by
  unfold stores
  simp only [putRows_ok hs, crossingNumbers_ok hs, Res.bind_ok, Res.pure_eq]
  congr 1
  have h1 : rowOff (polygonsEnd 8 g.polygons) g.verts.length =
      0 + (head g ++ rows g 0 g.verts.length).length := by
    have := rows_length g 0 g.verts.length
    rw [Nat.zero_add] at this
    rw [List.length_append, head_length, rowOff_add, ← this]; simp [rowOff]
  rw [encode, storeAt_append, storeAt_append, storeAt_append, head, storeAt_append, put64_eq,
    putPolygons_eq, put64_eq, putNumbers_eq, le64_length]
  have h2 : polygonsEnd 8 g.polygons = 0 + (head g).length := by rw [head_length]; simp
  have h3 : (0 + 1) * 8 + rowOff (polygonsEnd 8 g.polygons) g.verts.length =
      0 + (head g ++ rows g 0 g.verts.length ++
        le64 (BitVec.ofNat 64 (crossCount g))).length := by
    rw [h1]; simp only [List.length_append, le64_length]; omega
  rw [h3, h1]
  conv_lhs => rw [h2]
  rfl

theorem allocate_length (old : Buf) (n : ℕ) : (allocate old n).length = n := by
  simp [allocate]; omega

theorem encode_le {g : Graph} (hb : g.Built) :
    (encode g).length + ceilDiv g.verts.length 8 + 8 * (crossCount g - (crossList g).length) =
      fileSize g (crossCount g) := by
  have h := crossList_length_le g
  rw [encode_length, rowOff_add, polygonsEnd_eq, ← hb.verts, fileSize, matrixBytes_eq]
  omega

theorem save_ok {g : Graph} (hb : g.Built) (old : Buf) :
    save g old = .ok (encode g ++
      (allocate old (fileSize g (crossCount g))).drop (encode g).length) := by
  unfold save
  simp only [countCrossing_ok hb.shape, stores_ok hb.shape, Res.bind_ok]
  apply applyWrites_start
  rw [allocate_length, ← encode_le hb]; omega

theorem crashedSave_ok {g : Graph} (hb : g.Built) (old : Buf) (n : ℕ) :
    crashedSave g old n = .ok ((encode g).take n ++
      (allocate old (fileSize g (crossCount g))).drop ((encode g).take n).length) := by
  unfold crashedSave
  simp only [countCrossing_ok hb.shape, stores_ok hb.shape, Res.bind_ok]
  rw [storeAt_take]
  apply applyWrites_start
  rw [allocate_length, ← encode_le hb, List.length_take]; omega

end Serial

end Capi
