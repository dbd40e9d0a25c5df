import Verif.Lemmas.Damage
import Verif.Lemmas.Vistree
import Verif.Model.Loading
import Verif.Spec.File

/-!
# Lemmas for C88: loading arbitrary bytes
-/

namespace Capi

namespace Serial

open Polygon File

theorem byte_div (x k : ℕ) {w : ℕ} (hw : 8 ≤ w) (v : BitVec w) (hv : v.toNat = x) :
    ((v >>> (k * 8)) &&& (BitVec.ofNat w 255)).setWidth 8 = BitVec.ofNat 8 (x / 256 ^ k) := by
  apply BitVec.eq_of_toNat_eq
  have h255 : 255 % 2 ^ w = 2 ^ 8 - 1 := by
    have : 2 ^ 8 ≤ 2 ^ w := Nat.pow_le_pow_right (by norm_num) hw
    rw [Nat.mod_eq_of_lt (by omega)]
    norm_num
  rw [BitVec.toNat_setWidth, BitVec.toNat_and, BitVec.toNat_ushiftRight, BitVec.toNat_ofNat,
    BitVec.toNat_ofNat, h255, Nat.and_two_pow_sub_one_eq_mod, hv, Nat.shiftRight_eq_div_pow,
    mul_comm k 8, pow_mul, Nat.mod_mod]
  norm_num

theorem le64_bytes (v : BitVec 64) : le64 v = bytesOf 8 v.toNat := by
  unfold le64 bytesOf
  apply List.map_congr_left
  intro k _
  exact byte_div _ k (by norm_num) v rfl

theorem le32_bytes (v : BitVec 32) : le32 v = bytesOf 4 v.toNat := by
  unfold le32 bytesOf
  apply List.map_congr_left
  intro k _
  exact byte_div _ k (by norm_num) v rfl

theorem le64_nat {n : ℕ} (h : n < 2 ^ 64) : le64 (BitVec.ofNat 64 n) = bytesOf 8 n := by
  rw [le64_bytes, BitVec.toNat_ofNat, Nat.mod_eq_of_lt h]

theorem le32_int (x : ℤ) : le32 (BitVec.ofInt 32 x) = bytesOfInt x := by
  rw [le32_bytes, BitVec.toNat_ofInt]
  rfl

theorem encVertices_bytes (vs : List Coord) :
    encVertices vs = vs.flatMap fun c => bytesOfInt c.lon ++ bytesOfInt c.lat := by
  unfold encVertices
  apply List.flatMap_congr
  intro c _
  rw [le32_int, le32_int]

theorem encPolygons_bytes {rs : List (List Coord)} (h : ∀ r ∈ rs, r.length < 2 ^ 64) :
    encPolygons rs = rs.flatMap ringBytes := by
  unfold encPolygons
  apply List.flatMap_congr
  intro r hr
  rw [le64_nat (h r hr), encVertices_bytes]
  rfl

theorem head_bytes {rs : List (List Coord)} (h : Writable rs) :
    le64 (BitVec.ofNat 64 rs.length) ++ encPolygons rs = headBytes rs := by
  rw [le64_nat h.1, encPolygons_bytes fun r hr => (h.2 r hr).1]
  rfl

/-! ### Reading backwards -/

theorem drop_split {b : Buf} {off k : ℕ} (h : off + k ≤ b.length) :
    b.drop off = (List.range k).map (fun i => b.getD (off + i) 0) ++ b.drop (off + k) := by
  apply List.ext_getElem?
  intro i
  by_cases hi : i < k
  · rw [List.getElem?_append_left (by simpa using hi), List.getElem?_drop, List.getElem?_map,
      List.getElem?_range hi, Option.map_some, List.getD_eq_getElem?_getD,
      List.getElem?_eq_getElem (by omega)]
    rfl
  · rw [List.getElem?_append_right (by simpa using hi), List.getElem?_drop, List.getElem?_drop,
      List.length_map, List.length_range]
    congr 1
    omega

theorem get64_inv {b : Buf} {off : ℕ} {v : BitVec 64} (h : get64 b off = .ok v) :
    off + 8 ≤ b.length ∧ b.drop off = le64 v ++ b.drop (off + 8) := by
  have hl := get64_length h
  refine ⟨hl, ?_⟩
  rw [get64_word hl] at h
  rw [← Except.ok.inj h]
  rw [drop_split hl]
  congr 1
  unfold le64
  apply List.map_congr_left
  intro k hk
  rw [List.mem_range] at hk
  apply BitVec.eq_of_getLsbD_eq
  intro i hi
  rw [BitVec.getLsbD_setWidth, BitVec.getLsbD_and, BitVec.getLsbD_ushiftRight,
    word_bit _ _ _ (by omega), show (k * 8 + i) / 8 = k by omega,
    show (k * 8 + i) % 8 = i by omega]
  interval_cases i <;> simp

theorem get32Loop_length {b : Buf} {off : ℕ} {x : BitVec 32} (ks : List ℕ) (acc : BitVec 32)
    (h : get32Loop b off acc ks = .ok x) : ∀ k ∈ ks, off + k < b.length := by
  induction ks generalizing acc with
  | nil => intro k hk; cases hk
  | cons k r ih =>
    intro j hj
    unfold get32Loop at h
    cases hg : getByte b (off + k) with
    | error e => rw [hg] at h; cases h
    | ok y =>
      rw [hg, Res.bind_ok] at h
      rcases List.mem_cons.1 hj with rfl | hj
      · exact getByte_inside hg
      · exact ih _ h j hj

theorem split32 (f : ℕ → Byte) (k : ℕ) (hk : k < 4) :
    ((((List.range 4).foldl (fun acc k => acc ||| ((f k).setWidth 32 <<< (k * 8))) 0) >>> (k * 8)) &&&
      0xFF#32).setWidth 8 = f k := by
  simp only [List.range_succ, List.range_zero, List.nil_append, List.cons_append, List.foldl]
  apply BitVec.eq_of_getLsbD_eq
  intro i hi
  interval_cases k <;> interval_cases i <;> simp [BitVec.getLsbD_of_ge]

theorem get32_inv {b : Buf} {off : ℕ} {v : BitVec 32} (h : get32 b off = .ok v) :
    off + 4 ≤ b.length ∧ b.drop off = le32 v ++ b.drop (off + 4) := by
  have hl : off + 4 ≤ b.length := by
    have := get32Loop_length _ _ h 3 (by decide)
    omega
  refine ⟨hl, ?_⟩
  unfold get32 at h
  rw [get32Loop_ok b off (fun k => b.getD (off + k) 0) _ (by
    intro k hk
    rw [List.mem_range] at hk
    rw [List.getD_eq_getElem?_getD, List.getElem?_eq_getElem (by omega)]
    rfl)] at h
  rw [drop_split hl, ← Except.ok.inj h]
  congr 1
  apply List.map_congr_left
  intro k hk
  exact (split32 (fun k => b.getD (off + k) 0) k (List.mem_range.1 hk)).symm

theorem getI32_inv {b : Buf} {off : ℕ} {x : ℤ} (h : getI32 b off = .ok x) :
    off + 4 ≤ b.length ∧ FitsI32 x ∧ b.drop off = le32 (BitVec.ofInt 32 x) ++ b.drop (off + 4) := by
  unfold getI32 at h
  cases hv : get32 b off with
  | error e => rw [hv] at h; cases h
  | ok v =>
    rw [hv] at h
    have hx : v.toInt = x := Except.ok.inj h
    obtain ⟨h1, h2⟩ := get32_inv hv
    refine ⟨h1, ?_, ?_⟩
    · have h3 := BitVec.toInt_lt (x := v)
      have h4 := BitVec.le_toInt v
      rw [hx] at h3 h4
      unfold FitsI32
      norm_num at h3 h4 ⊢
      omega
    · rw [← hx, BitVec.ofInt_toInt]
      exact h2

theorem bind_ok_inv {α β : Type} {x : Res α} {f : α → Res β} {b : β}
    (h : (x >>= f) = .ok b) : ∃ a, x = .ok a ∧ f a = .ok b := by
  cases x with
  | error e => cases h
  | ok a => exact ⟨a, rfl, h⟩

theorem loadVertices_inv {b : Buf} {off n : ℕ} {vs : List Coord}
    (h : loadVertices b off n = .ok vs) :
    vs.length = n ∧ (∀ c ∈ vs, c.Wf) ∧ b.drop off = encVertices vs ++ b.drop (off + 8 * n) := by
  induction n generalizing off vs with
  | zero => cases h; exact ⟨rfl, by simp, by simp [encVertices]⟩
  | succ n ih =>
    unfold loadVertices at h
    obtain ⟨x, hx, h⟩ := bind_ok_inv h
    obtain ⟨y, hy, h⟩ := bind_ok_inv h
    obtain ⟨r, hr, h⟩ := bind_ok_inv h
    cases h
    obtain ⟨-, x1, x2⟩ := getI32_inv hx
    obtain ⟨-, y1, y2⟩ := getI32_inv hy
    obtain ⟨i1, i2, i3⟩ := ih hr
    refine ⟨by rw [List.length_cons, i1], ?_, ?_⟩
    · intro c hc
      rcases List.mem_cons.1 hc with rfl | hc
      · exact ⟨x1, y1⟩
      · exact i2 c hc
    · have he : encVertices (⟨x, y⟩ :: r) = le32 (BitVec.ofInt 32 x) ++
        (le32 (BitVec.ofInt 32 y) ++ encVertices r) := by simp [encVertices]
      rw [he, x2, y2, Nat.add_assoc off 4 4, i3, show off + 8 + 8 * n = off + 8 * (n + 1) by omega]
      simp only [List.append_assoc]

theorem ensure_ok {b : Bool} {u : Unit} (h : ensure b = .ok u) : b = true := by
  unfold ensure at h
  split at h
  · assumption
  · cases h

theorem loadPolygonsM_inv {M : Memory} {T : ℕ → SumTree} {b : Buf} {off n : ℕ}
    {ps : List (List Coord)} {e : ℕ} (h : loadPolygonsM M T b off n = .ok (ps, e)) :
    ∃ rs : List (List Coord), rs.length = n ∧
      (∀ r ∈ rs, r.length < 2 ^ 64 ∧ (∀ c ∈ r, c.Wf) ∧ M.vertices r.length = true) ∧
      List.Forall₂ (fun r p => polygonC T r = .ok p) rs ps ∧
      b.drop off = encPolygons rs ++ b.drop e ∧ e = off + (encPolygons rs).length := by
  induction n generalizing off ps e with
  | zero =>
    cases h
    exact ⟨[], rfl, by simp, .nil, by simp [encPolygons], by simp [encPolygons]⟩
  | succ n ih =>
    unfold loadPolygonsM at h
    obtain ⟨nv, h1, h⟩ := bind_ok_inv h
    obtain ⟨u, h2, h⟩ := bind_ok_inv h
    obtain ⟨vs, h3, h⟩ := bind_ok_inv h
    obtain ⟨p, h4, h⟩ := bind_ok_inv h
    obtain ⟨⟨ps', e'⟩, h5, h⟩ := bind_ok_inv h
    cases h
    obtain ⟨-, a2⟩ := get64_inv h1
    obtain ⟨b1, b2, b3⟩ := loadVertices_inv h3
    obtain ⟨rs, c1, c2, c3, c4, c5⟩ := ih h5
    have hnv : nv = BitVec.ofNat 64 vs.length := by rw [b1, BitVec.ofNat_toNat]; simp
    refine ⟨vs :: rs, by rw [List.length_cons, c1], ?_, .cons h4 c3, ?_, ?_⟩
    · intro r hr
      rcases List.mem_cons.1 hr with rfl | hr
      · exact ⟨by rw [b1]; exact nv.isLt, b2, by rw [b1]; exact ensure_ok h2⟩
      · exact c2 r hr
    · rw [encPolygons_cons, a2, b3,
        show off + 8 + 8 * nv.toNat = off + 8 + nv.toNat * 2 * 4 by omega, c4, ← hnv]
      simp only [List.append_assoc]
    · rw [c5, encPolygons_cons]
      simp only [List.length_append, le64_length, encVertices_length, b1]
      omega

theorem loadPolygonsM_ok {M : Memory} {T : ℕ → SumTree} {b t : Buf} {off : ℕ}
    {rs ps : List (List Coord)} (hr : ∀ r ∈ rs, r.length < 2 ^ 64 ∧ ∀ c ∈ r, c.Wf)
    (hM : ∀ r ∈ rs, M.vertices r.length = true)
    (hp : List.Forall₂ (fun r p => polygonC T r = .ok p) rs ps)
    (h : b.drop off = encPolygons rs ++ t) :
    loadPolygonsM M T b off rs.length = .ok (ps, off + (encPolygons rs).length) := by
  induction hp generalizing off with
  | nil => simp [loadPolygonsM, encPolygons]
  | @cons r p rs ps hrp _ ih =>
    rw [encPolygons_cons, List.append_assoc, List.append_assoc] at h
    have h2 := drop_of_drop h
    have h3 := drop_of_drop h2
    rw [le64_length] at h2 h3
    rw [encVertices_length] at h3
    have hl : (BitVec.ofNat 64 r.length).toNat = r.length := by
      rw [BitVec.toNat_ofNat, Nat.mod_eq_of_lt (hr r (by simp)).1]
    have e : off + 8 + r.length * 2 * 4 = off + 8 + 8 * r.length := by omega
    have hm : ensure (M.vertices r.length) = .ok () := by rw [hM r (by simp)]; rfl
    rw [List.length_cons, loadPolygonsM, get64_of_drop h, Res.bind_ok, hl, hm, Res.bind_ok,
      loadVertices_ok (hr r (by simp)).2 h2, Res.bind_ok, hrp, Res.bind_ok, e,
      ih (fun x hx => hr x (by simp [hx])) (fun x hx => hM x (by simp [hx])) h3, encPolygons_cons]
    simp only [Res.bind_ok, List.length_append, le64_length, encVertices_length]
    change Except.ok _ = Except.ok _
    congr 2
    omega

theorem loadPolygonsM_short {M : Memory} {T : ℕ → SumTree} {b t : Buf} {off : ℕ}
    {rs ps : List (List Coord)} (hr : ∀ r ∈ rs, r.length < 2 ^ 64 ∧ ∀ c ∈ r, c.Wf)
    (hM : ∃ r ∈ rs, M.vertices r.length = false)
    (hp : List.Forall₂ (fun r p => polygonC T r = .ok p) rs ps)
    (h : b.drop off = encPolygons rs ++ t) :
    loadPolygonsM M T b off rs.length = .error .exn := by
  induction hp generalizing off with
  | nil => obtain ⟨r, h1, -⟩ := hM; cases h1
  | @cons r p rs ps hrp _ ih =>
    rw [encPolygons_cons, List.append_assoc, List.append_assoc] at h
    have h2 := drop_of_drop h
    have h3 := drop_of_drop h2
    rw [le64_length] at h2 h3
    rw [encVertices_length] at h3
    have hl : (BitVec.ofNat 64 r.length).toNat = r.length := by
      rw [BitVec.toNat_ofNat, Nat.mod_eq_of_lt (hr r (by simp)).1]
    have e : off + 8 + r.length * 2 * 4 = off + 8 + 8 * r.length := by omega
    rw [List.length_cons, loadPolygonsM, get64_of_drop h, Res.bind_ok, hl]
    cases hv : M.vertices r.length with
    | false => rfl
    | true =>
      have hm : ensure true = .ok () := rfl
      have hM' : ∃ x ∈ rs, M.vertices x.length = false := by
        obtain ⟨x, hx, hf⟩ := hM
        rcases List.mem_cons.1 hx with rfl | hx
        · rw [hv] at hf; cases hf
        · exact ⟨x, hx, hf⟩
      rw [hm, Res.bind_ok, loadVertices_ok (hr r (by simp)).2 h2, Res.bind_ok, hrp, Res.bind_ok, e,
        ih (fun x hx => hr x (by simp [hx])) hM' h3]
      rfl

/-! ### Constructing polygons from arbitrary corners -/

theorem subC_fits {a b : Coord} (h : StepFits b a) : a.subC b = .ok (a.sub b) := by
  obtain ⟨h1, h2, h3, h4⟩ := h
  unfold Coord.subC Coord.negC Coord.addC Coord.sub Coord.add Coord.neg
  rw [chk32_ok h1, chk32_ok h2]
  simp only [Res.bind_ok, Res.pure_eq]
  rw [chk32_ok (by rw [← sub_eq_add_neg]; exact h3), chk32_ok (by rw [← sub_eq_add_neg]; exact h4)]
  rfl

theorem subC_unfit {a b : Coord} (h : ¬ StepFits b a) : a.subC b = .error .ub := by
  unfold Coord.subC Coord.negC Coord.addC chk32
  by_cases h1 : FitsI32 (-b.lon)
  · by_cases h2 : FitsI32 (-b.lat)
    · rw [if_pos h1, if_pos h2]
      simp only [Res.bind_ok, Res.pure_eq]
      by_cases h3 : FitsI32 (a.lon + -b.lon)
      · rw [if_pos h3, Res.bind_ok, if_neg]
        · rfl
        · intro h4
          exact h ⟨h1, h2, by rw [sub_eq_add_neg]; exact h3, by rw [sub_eq_add_neg]; exact h4⟩
      · rw [if_neg h3]; rfl
    · rw [if_pos h1, if_neg h2]; rfl
  · rw [if_neg h1]; rfl

theorem crossC_wf {a b : Coord} (ha : a.Wf) (hb : b.Wf) : a.crossC b = .ok (a.cross b) := by
  simp only [Coord.Wf, FitsI32] at ha hb
  obtain ⟨⟨a1, a2⟩, a3, a4⟩ := ha
  obtain ⟨⟨b1, b2⟩, b3, b4⟩ := hb
  have key : ∀ x y : ℤ, -2147483648 ≤ x → x ≤ 2147483647 → -2147483648 ≤ y → y ≤ 2147483647 →
      -4611686016279904256 ≤ x * y ∧ x * y ≤ 4611686018427387904 := by
    intro x y h1 h2 h3 h4
    constructor <;> nlinarith [mul_nonneg (sub_nonneg.2 h1) (sub_nonneg.2 h3),
      mul_nonneg (sub_nonneg.2 h1) (sub_nonneg.2 h4), mul_nonneg (sub_nonneg.2 h2) (sub_nonneg.2 h3),
      mul_nonneg (sub_nonneg.2 h2) (sub_nonneg.2 h4)]
  have k1 := key a.lon b.lat (by omega) (by omega) (by omega) (by omega)
  have k2 := key b.lon a.lat (by omega) (by omega) (by omega) (by omega)
  unfold Coord.crossC Coord.cross
  rw [chk64_ok (by unfold FitsI64; omega), chk64_ok (by unfold FitsI64; omega)]
  simp only [Res.bind_ok]
  rw [chk64_ok (by unfold FitsI64; omega)]

theorem sub_wf {a b : Coord} (h : StepFits a b) : (b.sub a).Wf := by
  obtain ⟨-, -, h3, h4⟩ := h
  constructor
  · change FitsI32 (b.lon + -a.lon); rw [← sub_eq_add_neg]; exact h3
  · change FitsI32 (b.lat + -a.lat); rw [← sub_eq_add_neg]; exact h4

theorem keepsC_fits {a b c : Coord} (h1 : StepFits a b) (h2 : StepFits b c) :
    keepsC a b c = .ok (keeps a b c) := by
  unfold keepsC keeps
  rw [subC_fits h1, Res.bind_ok, subC_fits h2, Res.bind_ok]
  unfold Coord.orientC
  rw [crossC_wf (sub_wf h1) (sub_wf h2), Res.bind_ok]
  change (if (b.sub a).orient (c.sub b) ≠ .collinear then _ else _) = _
  by_cases hp : (b.sub a).parallel (c.sub b) = true
  · have ho : (b.sub a).orient (c.sub b) = .collinear := by simpa [Coord.parallel] using hp
    rw [if_neg (by simpa using ho), hp]
    cases hm : (b.sub a).scalarMultiple (c.sub b) with
    | none => exact absurd hm (Vistree.scalarMultiple_isSome hp)
    | some k => rfl
  · have ho : (b.sub a).orient (c.sub b) ≠ .collinear := by simpa [Coord.parallel] using hp
    rw [if_pos ho]
    simp only [Bool.not_eq_true] at hp
    rw [hp]
    rfl

theorem keepsC_unfit {a b c : Coord} (h : ¬ (StepFits a b ∧ StepFits b c)) :
    keepsC a b c = .error .ub := by
  unfold keepsC
  by_cases h1 : StepFits a b
  · rw [subC_fits h1, Res.bind_ok, subC_unfit fun h2 => h ⟨h1, h2⟩]
    rfl
  · rw [subC_unfit h1]
    rfl

theorem removeCollinearLoopC_fits {vs : List Coord} {is : List ℕ}
    (h : ∀ i ∈ is, StepFits (ringAt vs (i + vs.length - 1)) (ringAt vs i) ∧
      StepFits (ringAt vs i) (ringAt vs (i + 1))) :
    removeCollinearLoopC vs is = .ok ((is.filter fun i =>
      keeps (ringAt vs (i + vs.length - 1)) (ringAt vs i) (ringAt vs (i + 1))).map (ringAt vs)) := by
  induction is with
  | nil => rfl
  | cons i r ih =>
    obtain ⟨h1, h2⟩ := h i (by simp)
    rw [removeCollinearLoopC, keepsC_fits h1 h2, Res.bind_ok, ih fun j hj => h j (by simp [hj]),
      Res.bind_ok]
    cases hk : keeps (ringAt vs (i + vs.length - 1)) (ringAt vs i) (ringAt vs (i + 1)) <;>
      simp [hk]

theorem removeCollinearLoopC_unfit {vs : List Coord} {is : List ℕ}
    (h : ¬ ∀ i ∈ is, StepFits (ringAt vs (i + vs.length - 1)) (ringAt vs i) ∧
      StepFits (ringAt vs i) (ringAt vs (i + 1))) :
    removeCollinearLoopC vs is = .error .ub := by
  induction is with
  | nil => exact absurd (fun i hi => by cases hi) h
  | cons i r ih =>
    unfold removeCollinearLoopC
    by_cases h1 : StepFits (ringAt vs (i + vs.length - 1)) (ringAt vs i) ∧
      StepFits (ringAt vs i) (ringAt vs (i + 1))
    · rw [keepsC_fits h1.1 h1.2, Res.bind_ok, ih]
      · rfl
      · intro hr
        apply h
        intro j hj
        rcases List.mem_cons.1 hj with rfl | hj
        · exact h1
        · exact hr j hj
    · rw [keepsC_unfit h1]
      rfl

theorem ringFits_iff (vs : List Coord) : RingFits vs ↔ ∀ i ∈ List.range vs.length,
    StepFits (ringAt vs (i + vs.length - 1)) (ringAt vs i) ∧
      StepFits (ringAt vs i) (ringAt vs (i + 1)) := by
  constructor
  · intro h i hi
    rw [List.mem_range] at hi
    constructor
    · have := h ((i + vs.length - 1) % vs.length) (Nat.mod_lt _ (by omega))
      have e : ((i + vs.length - 1) % vs.length + 1) % vs.length = i % vs.length := by
        rw [Nat.mod_add_mod, show i + vs.length - 1 + 1 = i + vs.length by omega,
          Nat.add_mod_right]
      rw [e] at this
      exact this
    · have := h i hi
      unfold ringAt
      rw [Nat.mod_eq_of_lt hi]
      exact this
  · intro h i hi
    have := (h i (List.mem_range.2 hi)).2
    unfold ringAt at this
    rw [Nat.mod_eq_of_lt hi] at this
    exact this

theorem polygonC_fits (T : ℕ → SumTree) {r : List Coord} (h : RingFits r) :
    polygonC T r = .ok (Polygon.mk T r) := by
  unfold polygonC removeCollinearC
  rw [removeCollinearLoopC_fits ((ringFits_iff r).1 h)]
  rfl

theorem polygonC_unfit (T : ℕ → SumTree) {r : List Coord} (h : ¬ RingFits r) :
    polygonC T r = .error .ub := by
  unfold polygonC removeCollinearC
  rw [removeCollinearLoopC_unfit fun h' => h ((ringFits_iff r).2 h')]
  rfl

theorem bytesOf_length (k x : ℕ) : (bytesOf k x).length = k := by simp [bytesOf]

theorem bytesOf_succ (k x : ℕ) : bytesOf (k + 1) x = BitVec.ofNat 8 x :: bytesOf k (x / 256) := by
  unfold bytesOf
  rw [List.range_succ_eq_map, List.map_cons, List.map_map]
  congr 1
  · simp
  · apply List.map_congr_left
    intro i _
    rw [Function.comp_apply, Nat.succ_eq_add_one, pow_succ', Nat.div_div_eq_div_mul]

theorem bytesOf_inj {k x y : ℕ} (hx : x < 256 ^ k) (hy : y < 256 ^ k)
    (h : bytesOf k x = bytesOf k y) : x = y := by
  induction k generalizing x y with
  | zero => rw [pow_zero] at hx hy; omega
  | succ k ih =>
    rw [bytesOf_succ, bytesOf_succ, List.cons.injEq] at h
    rw [pow_succ] at hx hy
    have h2 := ih (Nat.div_lt_of_lt_mul (by omega)) (Nat.div_lt_of_lt_mul (by omega)) h.2
    have h1 := congrArg BitVec.toNat h.1
    simp only [BitVec.toNat_ofNat] at h1
    omega

theorem bytesOf_append {k x y : ℕ} (hx : x < 256 ^ k) (hy : y < 256 ^ k) {s t : Buf}
    (h : bytesOf k x ++ s = bytesOf k y ++ t) : x = y ∧ s = t := by
  obtain ⟨h1, h2⟩ := List.append_inj h (by rw [bytesOf_length, bytesOf_length])
  exact ⟨bytesOf_inj hx hy h1, h2⟩

theorem bytesOfInt_append {x y : ℤ} (hx : FitsI32 x) (hy : FitsI32 y) {s t : Buf}
    (h : bytesOfInt x ++ s = bytesOfInt y ++ t) : x = y ∧ s = t := by
  obtain ⟨h1, h2⟩ := bytesOf_append (by omega) (by omega) h
  refine ⟨?_, h2⟩
  unfold FitsI32 at hx hy
  omega

theorem corners_append {r r' : List Coord} (hl : r.length = r'.length) (hr : ∀ c ∈ r, c.Wf)
    (hr' : ∀ c ∈ r', c.Wf) {s t : Buf}
    (h : (r.flatMap fun c => bytesOfInt c.lon ++ bytesOfInt c.lat) ++ s =
      (r'.flatMap fun c => bytesOfInt c.lon ++ bytesOfInt c.lat) ++ t) : r = r' ∧ s = t := by
  induction r generalizing r' with
  | nil =>
    cases r' with
    | nil => exact ⟨rfl, h⟩
    | cons _ _ => cases hl
  | cons c r ih =>
    cases r' with
    | nil => cases hl
    | cons c' r' =>
      simp only [List.flatMap_cons, List.append_assoc] at h
      obtain ⟨h1, h⟩ := bytesOfInt_append (hr c (by simp)).1 (hr' c' (by simp)).1 h
      obtain ⟨h2, h⟩ := bytesOfInt_append (hr c (by simp)).2 (hr' c' (by simp)).2 h
      obtain ⟨h3, h4⟩ := ih (by simpa using hl) (fun x hx => hr x (by simp [hx]))
        (fun x hx => hr' x (by simp [hx])) h
      obtain ⟨lon, lat⟩ := c
      obtain ⟨lon', lat'⟩ := c'
      simp only at h1 h2
      subst h1 h2 h3
      exact ⟨rfl, h4⟩

theorem rings_append {rs rs' : List (List Coord)} (hl : rs.length = rs'.length)
    (hr : ∀ r ∈ rs, r.length < 2 ^ 64 ∧ ∀ c ∈ r, c.Wf)
    (hr' : ∀ r ∈ rs', r.length < 2 ^ 64 ∧ ∀ c ∈ r, c.Wf) {s t : Buf}
    (h : rs.flatMap ringBytes ++ s = rs'.flatMap ringBytes ++ t) : rs = rs' ∧ s = t := by
  induction rs generalizing rs' with
  | nil =>
    cases rs' with
    | nil => exact ⟨rfl, h⟩
    | cons _ _ => cases hl
  | cons r rs ih =>
    cases rs' with
    | nil => cases hl
    | cons r' rs' =>
      simp only [List.flatMap_cons, List.append_assoc, ringBytes] at h
      have e : (256 : ℕ) ^ 8 = 2 ^ 64 := by norm_num
      obtain ⟨h1, h⟩ := bytesOf_append (by rw [e]; exact (hr r (by simp)).1)
        (by rw [e]; exact (hr' r' (by simp)).1) h
      obtain ⟨h2, h⟩ := corners_append h1 (hr r (by simp)).2 (hr' r' (by simp)).2 h
      obtain ⟨h3, h4⟩ := ih (by simpa using hl) (fun x hx => hr x (by simp [hx]))
        (fun x hx => hr' x (by simp [hx])) h
      exact ⟨by rw [h2, h3], h4⟩

/-- A file begins with the rings of one list only. -/
theorem headBytes_unique {b : Buf} {rs rs' : List (List Coord)} (hw : Writable rs)
    (hw' : Writable rs') (h : headBytes rs <+: b) (h' : headBytes rs' <+: b) : rs = rs' := by
  obtain ⟨s, rfl⟩ := h
  obtain ⟨t, h'⟩ := h'
  unfold headBytes at h'
  rw [List.append_assoc, List.append_assoc] at h'
  have e : (256 : ℕ) ^ 8 = 2 ^ 64 := by norm_num
  obtain ⟨h1, h⟩ := bytesOf_append (by rw [e]; exact hw'.1) (by rw [e]; exact hw.1) h'
  exact (rings_append h1 hw'.2 hw.2 h).1.symm

end Serial

end Capi
