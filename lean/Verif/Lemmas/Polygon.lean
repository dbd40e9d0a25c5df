import Verif.Spec.Ring
import Verif.Lemmas.Coordinate

/-!
# Helper lemmas about polygon preprocessing
-/

namespace Capi

/-! ### Same direction -/

/-- `u` and `v` are non-zero and point the same way. -/
def SD (u v : Coord) : Prop := u.cross v = 0 ∧ 0 < u.dot v

theorem Coord.ext' {a b : Coord} (h1 : a.lon = b.lon) (h2 : a.lat = b.lat) : a = b := by
  cases a; cases b; simp only [Coord.mk.injEq]; exact ⟨h1, h2⟩

theorem sub_lon (a b : Coord) : (a.sub b).lon = a.lon - b.lon := by
  simp [Coord.sub, Coord.add, Coord.neg]; ring
theorem sub_lat (a b : Coord) : (a.sub b).lat = a.lat - b.lat := by
  simp [Coord.sub, Coord.add, Coord.neg]; ring

theorem sub_eq_zero_iff {a b : Coord} : a.sub b = ⟨0, 0⟩ ↔ a = b := by
  constructor
  · intro h
    have h1 := congrArg Coord.lon h
    have h2 := congrArg Coord.lat h
    rw [sub_lon] at h1; rw [sub_lat] at h2
    exact Coord.ext' (by simp only at h1; omega) (by simp only at h2; omega)
  · rintro rfl; apply Coord.ext'
    · rw [sub_lon]; simp
    · rw [sub_lat]; simp

theorem magSq_pos {u : Coord} (h : u ≠ ⟨0, 0⟩) : 0 < u.lon * u.lon + u.lat * u.lat := by
  by_contra hc
  have h1 := mul_self_nonneg u.lon
  have h2 := mul_self_nonneg u.lat
  have h3 : u.lon * u.lon = 0 := by linarith
  have h4 : u.lat * u.lat = 0 := by linarith
  exact h (Coord.ext' (mul_self_eq_zero.1 h3) (mul_self_eq_zero.1 h4))

theorem SD.left_ne {u v : Coord} (h : SD u v) : u ≠ ⟨0, 0⟩ := by
  rintro rfl; simp [SD, Coord.dot] at h
theorem SD.right_ne {u v : Coord} (h : SD u v) : v ≠ ⟨0, 0⟩ := by
  rintro rfl; simp [SD, Coord.dot] at h

theorem SD.refl {u : Coord} (h : u ≠ ⟨0, 0⟩) : SD u u := by
  refine ⟨by simp only [Coord.cross]; ring, magSq_pos h⟩

theorem SD.symm {u v : Coord} (h : SD u v) : SD v u := by
  obtain ⟨h1, h2⟩ := h
  simp only [Coord.cross, Coord.dot] at *
  exact ⟨by simp only [Coord.cross]; linarith, by simp only [Coord.dot]; linarith⟩

theorem SD.trans {u v w : Coord} (h : SD u v) (h' : SD v w) : SD u w := by
  have hv := magSq_pos h.right_ne
  obtain ⟨h1, h2⟩ := h
  obtain ⟨h3, h4⟩ := h'
  have e1 : u.cross w * (v.lon * v.lon + v.lat * v.lat) =
      u.cross v * v.dot w + u.dot v * v.cross w := by
    simp only [Coord.cross, Coord.dot]; ring
  have e2 : u.dot w * (v.lon * v.lon + v.lat * v.lat) =
      u.dot v * v.dot w - u.cross v * v.cross w := by
    simp only [Coord.cross, Coord.dot]; ring
  rw [h1, h3] at e1 e2
  refine ⟨?_, ?_⟩
  · have : u.cross w * (v.lon * v.lon + v.lat * v.lat) = 0 := by rw [e1]; ring
    rcases mul_eq_zero.1 this with h | h
    · exact h
    · omega
  · have : 0 < u.dot w * (v.lon * v.lon + v.lat * v.lat) := by
      rw [e2]; have := mul_pos h2 h4; linarith
    exact pos_of_mul_pos_left this hv.le

/-- Chaining two steps in the same direction. -/
theorem SD.chain {a b c : Coord} (h : SD (b.sub a) (c.sub b)) : SD (c.sub a) (c.sub b) := by
  have hn := magSq_pos h.right_ne
  obtain ⟨h1, h2⟩ := h
  simp only [Coord.cross, Coord.dot, SD, sub_lon, sub_lat] at *
  constructor
  · linarith
  · nlinarith

theorem SD.chain' {a b c : Coord} (h : SD (b.sub a) (c.sub b)) : SD (b.sub a) (c.sub a) := by
  have hn := magSq_pos h.left_ne
  obtain ⟨h1, h2⟩ := h
  simp only [Coord.cross, Coord.dot, SD, sub_lon, sub_lat] at *
  constructor
  · linarith
  · nlinarith

/-! ### The keeping test -/

theorem scalarMultiple_of_parallel {a b : Coord} (h : a.parallel b = true) (ha : a ≠ ⟨0, 0⟩) :
    ∃ k : ℚ, (b.lon : ℚ) = k * a.lon ∧ (b.lat : ℚ) = k * a.lat ∧
      a.scalarMultiple b = some (fl k) := by
  obtain ⟨k, h1, h2⟩ := (cross_eq_zero_iff ha).1 ((parallel_iff a b).1 h)
  refine ⟨k, h1, h2, ?_⟩
  have hnz : ¬ (a.lon = 0 ∧ a.lat = 0) := fun hh => ha (Coord.ext' hh.1 hh.2)
  unfold Coord.scalarMultiple
  simp only [h, Bool.not_true, Bool.false_eq_true, if_false, if_neg hnz]
  split_ifs with hx
  · have hy : (a.lat : ℚ) ≠ 0 := by
      intro h; apply hnz; exact ⟨hx, by exact_mod_cast h⟩
    rw [h2]; congr 2; field_simp
  · have hxq : (a.lon : ℚ) ≠ 0 := by exact_mod_cast hx
    rw [h1]; congr 2; field_simp

theorem keeps_false_iff_cross (a b c : Coord) :
    Polygon.keeps a b c = false ↔
      (b.sub a).cross (c.sub b) = 0 ∧ 0 ≤ (b.sub a).dot (c.sub b) := by
  unfold Polygon.keeps
  rw [Bool.or_eq_false_iff, Bool.not_eq_false', parallel_iff]
  refine and_congr_right fun hcr => ?_
  by_cases hz : b.sub a = ⟨0, 0⟩
  · rw [hz]
    have : Coord.scalarMultiple ⟨0, 0⟩ (c.sub b) = some 0 := by
      unfold Coord.scalarMultiple Coord.parallel Coord.orient Coord.orientOfSign Coord.cross
      simp
    rw [this]; simp [Coord.dot]
  · obtain ⟨k, h1, h2, h3⟩ := scalarMultiple_of_parallel ((parallel_iff _ _).2 hcr) hz
    rw [h3]
    simp only [decide_eq_false_iff_not, fl_neg_iff, not_lt]
    have hm := magSq_pos hz
    have hmq : (0 : ℚ) < ((b.sub a).lon * (b.sub a).lon + (b.sub a).lat * (b.sub a).lat : ℤ) := by
      exact_mod_cast hm
    have : (((b.sub a).dot (c.sub b) : ℤ) : ℚ) =
        k * ((b.sub a).lon * (b.sub a).lon + (b.sub a).lat * (b.sub a).lat : ℤ) := by
      unfold Coord.dot; push_cast; rw [h1, h2]; ring
    constructor
    · intro hk
      have : (0 : ℚ) ≤ (((b.sub a).dot (c.sub b) : ℤ) : ℚ) := by rw [this]; positivity
      exact_mod_cast this
    · intro hd
      have hd' : (0 : ℚ) ≤ (((b.sub a).dot (c.sub b) : ℤ) : ℚ) := by exact_mod_cast hd
      rw [this] at hd'
      exact nonneg_of_mul_nonneg_left hd' hmq

theorem keeps_false_iff_SD {a b c : Coord} (h1 : a ≠ b) (h2 : b ≠ c) :
    Polygon.keeps a b c = false ↔ SD (b.sub a) (c.sub b) := by
  rw [keeps_false_iff_cross]
  unfold SD
  refine and_congr_right fun hcr => ⟨fun h => lt_of_le_of_ne h fun hd => ?_, fun h => h.le⟩
  have n1 : b.sub a ≠ ⟨0, 0⟩ := fun h => h1 (sub_eq_zero_iff.1 h).symm
  have n2 : c.sub b ≠ ⟨0, 0⟩ := fun h => h2 (sub_eq_zero_iff.1 h).symm
  have p1 := magSq_pos n1
  have p2 := magSq_pos n2
  have : ((b.sub a).lon * (b.sub a).lon + (b.sub a).lat * (b.sub a).lat) *
      ((c.sub b).lon * (c.sub b).lon + (c.sub b).lat * (c.sub b).lat) =
      (b.sub a).cross (c.sub b) ^ 2 + (b.sub a).dot (c.sub b) ^ 2 := by
    simp only [Coord.cross, Coord.dot]; ring
  rw [hcr, ← hd] at this
  have := mul_pos p1 p2
  simp at *
  omega

theorem keeps_false_iff_onSeg (a b c : Coord) :
    Polygon.keeps a b c = false ↔ OnSeg ⟨a, c⟩ b.lon b.lat := by
  rw [keeps_false_iff_cross]
  constructor
  · rintro ⟨h1, h2⟩
    by_cases hz : b = a
    · subst hz; exact ⟨0, le_refl _, zero_le_one, by simp, by simp⟩
    have hn : b.sub a ≠ ⟨0, 0⟩ := fun h => hz (sub_eq_zero_iff.1 h)
    obtain ⟨k, e1, e2⟩ := (cross_eq_zero_iff hn).1 h1
    have hk : 0 ≤ k := by
      have hm := magSq_pos hn
      have hmq : (0 : ℚ) < ((b.sub a).lon * (b.sub a).lon + (b.sub a).lat * (b.sub a).lat : ℤ) := by
        exact_mod_cast hm
      have : (((b.sub a).dot (c.sub b) : ℤ) : ℚ) =
          k * ((b.sub a).lon * (b.sub a).lon + (b.sub a).lat * (b.sub a).lat : ℤ) := by
        unfold Coord.dot; push_cast; rw [e1, e2]; ring
      have hd' : (0 : ℚ) ≤ (((b.sub a).dot (c.sub b) : ℤ) : ℚ) := by exact_mod_cast h2
      rw [this] at hd'
      exact nonneg_of_mul_nonneg_left hd' hmq
    simp only [sub_lon, sub_lat] at e1 e2
    push_cast at e1 e2
    have hk1 : (0 : ℚ) < 1 + k := by linarith
    refine ⟨1 / (1 + k), by positivity, by rw [div_le_one hk1]; linarith, ?_, ?_⟩
    · field_simp; linear_combination -e1
    · field_simp; linear_combination -e2
  · rintro ⟨t, h0, h1, hx, hy⟩
    simp only at hx hy
    have ex : ((b.lon : ℚ) - a.lon) = t * (c.lon - a.lon) := by linarith
    have ey : ((b.lat : ℚ) - a.lat) = t * (c.lat - a.lat) := by linarith
    have fx : ((c.lon : ℚ) - b.lon) = (1 - t) * (c.lon - a.lon) := by linarith
    have fy : ((c.lat : ℚ) - b.lat) = (1 - t) * (c.lat - a.lat) := by linarith
    constructor
    · have : (((b.sub a).cross (c.sub b) : ℤ) : ℚ) = 0 := by
        simp only [Coord.cross, sub_lon, sub_lat]; push_cast; rw [ex, ey, fx, fy]; ring
      exact_mod_cast this
    · have : (0 : ℚ) ≤ (((b.sub a).dot (c.sub b) : ℤ) : ℚ) := by
        simp only [Coord.dot, sub_lon, sub_lat]; push_cast; rw [ex, ey, fx, fy]
        have : 0 ≤ t * (1 - t) := mul_nonneg h0 (by linarith)
        have e : t * ((c.lon : ℚ) - a.lon) * ((1 - t) * (c.lon - a.lon)) +
          t * (c.lat - a.lat) * ((1 - t) * (c.lat - a.lat)) =
          t * (1 - t) * ((c.lon - a.lon) ^ 2 + (c.lat - a.lat) ^ 2) := by ring
        rw [e]; positivity
      exact_mod_cast this

theorem keeps_rev (a b c : Coord) : Polygon.keeps c b a = Polygon.keeps a b c := by
  rw [Bool.eq_iff_iff, ← Bool.not_eq_false, ← Bool.not_eq_false, not_iff_not,
    keeps_false_iff_cross, keeps_false_iff_cross]
  simp only [Coord.cross, Coord.dot, sub_lon, sub_lat]
  constructor <;> rintro ⟨h1, h2⟩ <;> constructor <;> linarith

/-- The keeping test depends on directions only. -/
theorem keeps_congr {a b c a' c' : Coord} (h1 : SD (b.sub a) (b.sub a'))
    (h2 : SD (c.sub b) (c'.sub b)) : Polygon.keeps a b c = Polygon.keeps a' b c' := by
  have na : a ≠ b := fun h => h1.left_ne (sub_eq_zero_iff.2 h.symm)
  have na' : a' ≠ b := fun h => h1.right_ne (sub_eq_zero_iff.2 h.symm)
  have nc : b ≠ c := fun h => h2.left_ne (sub_eq_zero_iff.2 h.symm)
  have nc' : b ≠ c' := fun h => h2.right_ne (sub_eq_zero_iff.2 h.symm)
  rw [Bool.eq_iff_iff, ← Bool.not_eq_false, ← Bool.not_eq_false, not_iff_not,
    keeps_false_iff_SD na nc, keeps_false_iff_SD na' nc']
  exact ⟨fun h => (h1.symm.trans h).trans h2, fun h => (h1.trans h).trans h2.symm⟩

/-! ### The linear form of the filter -/

/-- Filtering the open chain `l` between predecessor `a` and successor `z`. -/
def go : Coord → List Coord → Coord → List Coord
  | _, [], _ => []
  | a, b :: r, z =>
    if Polygon.keeps a b (r.headD z) then b :: go b r z else go b r z

theorem headD_append (r : List Coord) (x : Coord) (s : List Coord) (z : Coord) :
    (r ++ x :: s).headD z = r.headD x := by cases r <;> rfl

theorem getLastD_append (l : List Coord) (y : Coord) (r : List Coord) (d : Coord) :
    (l ++ y :: r).getLastD d = (y :: r).getLastD d := by
  induction l generalizing d with
  | nil => rfl
  | cons x l ih => rw [List.cons_append, List.getLastD_cons, ih, List.getLastD_cons, List.getLastD_cons]

theorem go_append (a : Coord) (l : List Coord) (x : Coord) (r : List Coord) (z : Coord) :
    go a (l ++ x :: r) z = go a l x ++ go (l.getLastD a) (x :: r) z := by
  induction l generalizing a with
  | nil => simp [go]
  | cons b l ih =>
    rw [List.cons_append, go, go, headD_append, ih]
    rw [List.getLastD_cons]
    split_ifs <;> simp

theorem go_eq_range (a : Coord) (l : List Coord) (z : Coord) :
    go a l z = ((List.range l.length).filter fun i =>
      Polygon.keeps ((a :: l).getD i default) (l.getD i default)
        ((l ++ [z]).getD (i + 1) default)).map fun i => l.getD i default := by
  induction l generalizing a with
  | nil => rfl
  | cons b r ih =>
    rw [go, List.length_cons, List.range_succ_eq_map, List.filter_cons]
    have e0 : (b :: r ++ [z]).getD (0 + 1) default = r.headD z := by cases r <;> rfl
    rw [e0]
    simp only [List.getD_cons_zero]
    rw [ih, List.filter_map]
    split_ifs <;> simp [Function.comp_def]

theorem removeCollinear_eq_go (vs : List Coord) :
    Polygon.removeCollinear vs = go (vs.getLastD default) vs (vs.headD default) := by
  rw [go_eq_range]
  unfold Polygon.removeCollinear
  have key : ∀ i ∈ List.range vs.length,
      ringAt vs (i + vs.length - 1) = (vs.getLastD default :: vs).getD i default ∧
      ringAt vs i = vs.getD i default ∧
      ringAt vs (i + 1) = (vs ++ [vs.headD default]).getD (i + 1) default := by
    intro i hi
    rw [List.mem_range] at hi
    refine ⟨?_, ?_, ?_⟩
    · unfold ringAt
      rcases Nat.eq_zero_or_pos i with h0 | h0
      · subst h0
        rw [Nat.zero_add, Nat.mod_eq_of_lt (by omega), List.getD_cons_zero]
        rcases vs with _ | ⟨x, t⟩
        · simp at hi
        · simp [List.getLastD, List.getD_eq_getElem?_getD, List.getLast_eq_getElem]
      · obtain ⟨j, rfl⟩ : ∃ j, i = j + 1 := ⟨i - 1, by omega⟩
        rw [List.getD_cons_succ]
        have : (j + 1 + vs.length - 1) % vs.length = j := by
          rw [show j + 1 + vs.length - 1 = j + vs.length by omega, Nat.add_mod_right]
          exact Nat.mod_eq_of_lt (by omega)
        rw [this]
    · unfold ringAt; rw [Nat.mod_eq_of_lt hi]
    · unfold ringAt
      by_cases h : i + 1 < vs.length
      · rw [Nat.mod_eq_of_lt h]
        simp only [List.getD_eq_getElem?_getD]
        rw [List.getElem?_append_left h]
      · have : i + 1 = vs.length := by omega
        rw [this, Nat.mod_self]
        rcases vs with _ | ⟨x, t⟩
        · simp at hi
        · simp [List.getD_eq_getElem?_getD]
  rw [List.filter_congr (q := fun i => Polygon.keeps ((vs.getLastD default :: vs).getD i default)
    (vs.getD i default) ((vs ++ [vs.headD default]).getD (i + 1) default))]
  · apply List.map_congr_left
    intro i hi
    exact (key i (List.mem_of_mem_filter hi)).2.1
  · intro i hi
    obtain ⟨h1, h2, h3⟩ := key i hi
    rw [h1, h2, h3]

theorem go_sublist (a : Coord) (l : List Coord) (z : Coord) : (go a l z).Sublist l := by
  induction l generalizing a with
  | nil => simp [go]
  | cons b r ih =>
    rw [go]; split_ifs
    · exact (ih b).cons_cons b
    · exact (ih b).cons b

theorem headD_reverse_snoc (r : List Coord) (b z : Coord) :
    (r ++ [b]).headD z = r.headD b := headD_append r b [] z

theorem go_snoc (a : Coord) (l : List Coord) (x z : Coord) :
    go a (l ++ [x]) z = go a l x ++
      (if Polygon.keeps (l.getLastD a) x z then [x] else []) := by
  rw [go_append]; simp [go]

theorem getLastD_reverse (l : List Coord) (z : Coord) : l.reverse.getLastD z = l.headD z := by
  cases l with
  | nil => rfl
  | cons x t => simp

theorem go_reverse (a : Coord) (l : List Coord) (z : Coord) :
    go z l.reverse a = (go a l z).reverse := by
  induction l generalizing a with
  | nil => rfl
  | cons b r ih =>
    rw [List.reverse_cons, go_snoc, ih, go, getLastD_reverse, keeps_rev]
    split_ifs <;> simp

theorem removeCollinear_reverse (vs : List Coord) :
    Polygon.removeCollinear vs.reverse = (Polygon.removeCollinear vs).reverse := by
  rw [removeCollinear_eq_go, removeCollinear_eq_go, ← go_reverse, getLastD_reverse]
  congr 1
  rw [← getLastD_reverse, List.reverse_reverse]

theorem removeCollinear_sublist (vs : List Coord) : (Polygon.removeCollinear vs).Sublist vs := by
  rw [removeCollinear_eq_go]; exact go_sublist _ _ _

/-- Filtering commutes with rotating the ring. -/
theorem removeCollinear_rotate (l r : List Coord) :
    ∃ l' r', Polygon.removeCollinear (l ++ r) = l' ++ r' ∧
      Polygon.removeCollinear (r ++ l) = r' ++ l' ∧ l'.Sublist l ∧ r'.Sublist r := by
  rcases l with _ | ⟨x, l⟩
  · exact ⟨[], Polygon.removeCollinear r, by simp, by simp, List.Sublist.refl _,
      removeCollinear_sublist r⟩
  rcases r with _ | ⟨y, r⟩
  · exact ⟨Polygon.removeCollinear (x :: l), [], by simp, by simp,
      removeCollinear_sublist _, List.Sublist.refl _⟩
  refine ⟨go ((y :: r).getLastD default) (x :: l) y,
    go ((x :: l).getLastD default) (y :: r) x, ?_, ?_, go_sublist _ _ _, go_sublist _ _ _⟩
  · rw [removeCollinear_eq_go, go_append]
    have e1 : ((x :: l) ++ y :: r).getLastD default = (y :: r).getLastD default :=
      getLastD_append _ _ _ _
    have e2 : (x :: l).getLastD ((y :: r).getLastD default) = (x :: l).getLastD default := by
      rw [List.getLastD_cons, List.getLastD_cons]
    rw [e1, e2]; rfl
  · rw [removeCollinear_eq_go, go_append]
    have e1 : ((y :: r) ++ x :: l).getLastD default = (x :: l).getLastD default :=
      getLastD_append _ _ _ _
    have e2 : (y :: r).getLastD ((x :: l).getLastD default) = (y :: r).getLastD default := by
      rw [List.getLastD_cons, List.getLastD_cons]
    rw [e1, e2]; rfl

/-! ### Chains of edges -/

/-- The edges of the open chain from `a` through `l` to `z`. -/
def chainPairs : Coord → List Coord → Coord → List (Coord × Coord)
  | a, [], z => [(a, z)]
  | a, b :: r, z => (a, b) :: chainPairs b r z

theorem chainPairs_append (a : Coord) (l : List Coord) (x : Coord) (r : List Coord) (z : Coord) :
    chainPairs a (l ++ x :: r) z = chainPairs a l x ++ chainPairs x r z := by
  induction l generalizing a with
  | nil => rfl
  | cons b l ih => simp [chainPairs, ih]

theorem chainPairs_eq_range (a : Coord) (l : List Coord) (z : Coord) :
    chainPairs a l z = (List.range (l.length + 1)).map fun i =>
      ((a :: l).getD i default, (l ++ [z]).getD i default) := by
  induction l generalizing a with
  | nil => rfl
  | cons b r ih =>
    rw [chainPairs, ih, List.length_cons, List.range_succ_eq_map (n := r.length + 1), List.map_cons,
      List.map_map]
    rfl

theorem ringPairs_eq (x : Coord) (t : List Coord) :
    ((List.range (x :: t).length).map fun i => (ringAt (x :: t) i, ringAt (x :: t) (i + 1))) =
      chainPairs x t x := by
  rw [chainPairs_eq_range, List.length_cons]
  apply List.map_congr_left
  intro i hi
  rw [List.mem_range] at hi
  unfold ringAt
  rw [List.length_cons, Nat.mod_eq_of_lt hi]
  congr 1
  by_cases h : i + 1 < t.length + 1
  · rw [Nat.mod_eq_of_lt h, List.getD_cons_succ]
    simp only [List.getD_eq_getElem?_getD]
    rw [List.getElem?_append_left (by omega)]
  · have : i = t.length := by omega
    subst this
    simp [List.getD_eq_getElem?_getD]

/-- No two neighbours of the chain are equal. -/
def NE (a : Coord) (l : List Coord) (z : Coord) : Prop := ∀ p ∈ chainPairs a l z, p.1 ≠ p.2

/-- Shoelace sum of the chain. -/
def chainCross (a : Coord) (l : List Coord) (z : Coord) : ℤ :=
  ((chainPairs a l z).map fun p => p.1.cross p.2).sum

/-- The point lies on the chain. -/
def OnChain (a : Coord) (l : List Coord) (z : Coord) (x y : ℚ) : Prop :=
  ∃ p ∈ chainPairs a l z, OnSeg ⟨p.1, p.2⟩ x y

theorem NE_nil {a z : Coord} : NE a [] z ↔ a ≠ z := by simp [NE, chainPairs]
theorem NE_cons {a b : Coord} {r : List Coord} {z : Coord} :
    NE a (b :: r) z ↔ a ≠ b ∧ NE b r z := by simp [NE, chainPairs]
theorem NE.ne_head {a : Coord} {l : List Coord} {z : Coord} (h : NE a l z) : a ≠ l.headD z := by
  cases l with
  | nil => exact NE_nil.1 h
  | cons b r => exact (NE_cons.1 h).1
theorem chainCross_cons (a b : Coord) (r : List Coord) (z : Coord) :
    chainCross a (b :: r) z = a.cross b + chainCross b r z := by simp [chainCross, chainPairs]
theorem chainCross_nil (a z : Coord) : chainCross a [] z = a.cross z := by
  simp [chainCross, chainPairs]
theorem OnChain_cons {a b : Coord} {r : List Coord} {z : Coord} {x y : ℚ} :
    OnChain a (b :: r) z x y ↔ OnSeg ⟨a, b⟩ x y ∨ OnChain b r z x y := by
  simp [OnChain, chainPairs]
theorem OnChain_nil {a z : Coord} {x y : ℚ} :
    OnChain a [] z x y ↔ OnSeg ⟨a, z⟩ x y := by simp [OnChain, chainPairs]

theorem noRepeat_cons (x : Coord) (t : List Coord) : NoRepeat (x :: t) ↔ NE x t x := by
  unfold NoRepeat NE
  rw [← ringPairs_eq]
  simp

theorem twiceArea_cons (x : Coord) (t : List Coord) : twiceArea (x :: t) = chainCross x t x := by
  unfold twiceArea chainCross
  rw [← ringPairs_eq, List.map_map]
  rfl

theorem onRing_cons (u : Coord) (t : List Coord) (x y : ℚ) :
    OnRing (u :: t) x y ↔ OnChain u t u x y := by
  unfold OnRing OnChain
  rw [← ringPairs_eq]
  simp

theorem twiceArea_rotate (l r : List Coord) : twiceArea (l ++ r) = twiceArea (r ++ l) := by
  rcases l with _ | ⟨x, l⟩
  · simp
  rcases r with _ | ⟨y, r⟩
  · simp
  rw [List.cons_append, List.cons_append, twiceArea_cons, twiceArea_cons]
  unfold chainCross
  rw [chainPairs_append, chainPairs_append, List.map_append, List.map_append, List.sum_append,
    List.sum_append, add_comm]

theorem onRing_rotate (l r : List Coord) (x y : ℚ) : OnRing (l ++ r) x y ↔ OnRing (r ++ l) x y := by
  rcases l with _ | ⟨u, l⟩
  · simp
  rcases r with _ | ⟨v, r⟩
  · simp
  rw [List.cons_append, List.cons_append, onRing_cons, onRing_cons]
  unfold OnChain
  rw [chainPairs_append, chainPairs_append]
  simp only [List.mem_append]
  constructor <;> rintro ⟨p, h | h, hp⟩ <;> exact ⟨p, by tauto, hp⟩

theorem noRepeat_rotate (l r : List Coord) : NoRepeat (l ++ r) ↔ NoRepeat (r ++ l) := by
  rcases l with _ | ⟨u, l⟩
  · simp
  rcases r with _ | ⟨v, r⟩
  · simp
  rw [List.cons_append, List.cons_append, noRepeat_cons, noRepeat_cons]
  unfold NE
  rw [chainPairs_append, chainPairs_append]
  simp only [List.mem_append]
  constructor <;> intro h p hp <;> exact h p (by tauto)

theorem chainPairs_reverse (a : Coord) (l : List Coord) (z : Coord) :
    chainPairs z l.reverse a = ((chainPairs a l z).map Prod.swap).reverse := by
  induction l generalizing a with
  | nil => rfl
  | cons b r ih =>
    rw [List.reverse_cons, chainPairs_append, ih, chainPairs]
    simp [chainPairs]

theorem twiceArea_reverse (vs : List Coord) : twiceArea vs.reverse = - twiceArea vs := by
  rcases vs with _ | ⟨x, t⟩
  · rfl
  rw [List.reverse_cons, twiceArea_rotate, List.singleton_append, twiceArea_cons, twiceArea_cons]
  unfold chainCross
  rw [chainPairs_reverse, List.map_reverse, List.sum_reverse, List.map_map]
  generalize chainPairs x t x = L
  induction L with
  | nil => rfl
  | cons p L ih =>
    rw [List.map_cons, List.map_cons, List.sum_cons, List.sum_cons, ih]
    simp only [Function.comp, Prod.swap, Coord.cross]; ring

/-! ### What the filter preserves -/

/-- `a'` is the last kept vertex before `a`, and the run between is straight. -/
def Straight (a' a n : Coord) : Prop := a' = a ∨ SD (a.sub a') (n.sub a)

theorem Straight.into {a' a n : Coord} (h : Straight a' a n) (hn : a ≠ n) :
    SD (n.sub a') (n.sub a) := by
  rcases h with rfl | h
  · exact SD.refl fun h => hn (sub_eq_zero_iff.1 h).symm
  · exact h.chain

theorem Straight.cross {a' a n : Coord} (h : Straight a' a n) :
    a'.cross n = a'.cross a + a.cross n := by
  rcases h with rfl | ⟨h, _⟩
  · simp only [Coord.cross]; ring
  · simp only [Coord.cross, sub_lon, sub_lat] at *; linarith

theorem Straight.next {a' a b n : Coord} (h : Straight a' a b) (hab : a ≠ b)
    (hd : SD (b.sub a) (n.sub b)) : Straight a' b n :=
  Or.inr ((h.into hab).trans hd)

theorem Straight.onSeg {a' a n : Coord} (h : Straight a' a n) (x y : ℚ) :
    OnSeg ⟨a', n⟩ x y ↔ OnSeg ⟨a', a⟩ x y ∨ OnSeg ⟨a, n⟩ x y := by
  rcases h with rfl | h
  · constructor
    · exact Or.inr
    · rintro (⟨t, _, _, hx, hy⟩ | h)
      · exact ⟨0, le_refl _, zero_le_one, by simp at hx ⊢; exact hx, by simp at hy ⊢; exact hy⟩
      · exact h
  · have hk := (keeps_false_iff_onSeg a' a n).1 ((keeps_false_iff_cross a' a n).2 ⟨h.1, h.2.le⟩)
    obtain ⟨t, t0, t1, hx, hy⟩ := hk
    simp only at hx hy
    constructor
    · rintro ⟨s, s0, s1, ex, ey⟩
      simp only at ex ey
      rcases le_or_gt s t with hst | hst
      · left
        rcases eq_or_lt_of_le t0 with h0 | h0
        · have : s = 0 := by linarith
          subst this
          exact ⟨0, le_refl _, zero_le_one, by simp only; rw [ex]; ring, by simp only; rw [ey]; ring⟩
        · refine ⟨s / t, by positivity, by rw [div_le_one h0]; exact hst, ?_, ?_⟩
          · simp only; rw [hx, ex]; field_simp; ring
          · simp only; rw [hy, ey]; field_simp; ring
      · right
        have h1 : 0 < 1 - t := by linarith
        refine ⟨(s - t) / (1 - t), div_nonneg (by linarith) h1.le,
          by rw [div_le_one h1]; linarith, ?_, ?_⟩
        · simp only; rw [hx, ex]; field_simp; ring
        · simp only; rw [hy, ey]; field_simp; ring
    · rintro (⟨s, s0, s1, ex, ey⟩ | ⟨s, s0, s1, ex, ey⟩) <;> simp only at ex ey
      · refine ⟨s * t, by positivity, by nlinarith, ?_, ?_⟩
        · simp only; rw [ex, hx]; ring
        · simp only; rw [ey, hy]; ring
      · refine ⟨t + s * (1 - t), by nlinarith, by nlinarith, ?_, ?_⟩
        · simp only; rw [ex, hx]; ring
        · simp only; rw [ey, hy]; ring

theorem go_cross {a' a : Coord} {l : List Coord} {z : Coord} (hne : NE a l z)
    (hs : Straight a' a (l.headD z)) :
    chainCross a' (go a l z) z = a'.cross a + chainCross a l z := by
  induction l generalizing a a' with
  | nil => rw [go, chainCross_nil, chainCross_nil]; exact hs.cross
  | cons b r ih =>
    rw [NE_cons] at hne
    rw [go]
    have hs' : Straight a' a b := hs
    split_ifs with hk
    · rw [chainCross_cons, ih hne.2 (Or.inl rfl), chainCross_cons, hs'.cross]
      have : b.cross b = 0 := by simp only [Coord.cross]; ring
      rw [this]; ring
    · have hd := (keeps_false_iff_SD hne.1 hne.2.ne_head).1 (Bool.not_eq_true _ ▸ hk)
      rw [ih hne.2 (hs'.next hne.1 hd), chainCross_cons, hs'.cross]; ring

theorem go_onChain {a' a : Coord} {l : List Coord} {z : Coord} (hne : NE a l z)
    (hs : Straight a' a (l.headD z)) (x y : ℚ) :
    OnChain a' (go a l z) z x y ↔ OnSeg ⟨a', a⟩ x y ∨ OnChain a l z x y := by
  induction l generalizing a a' with
  | nil => rw [go, OnChain_nil, OnChain_nil]; exact hs.onSeg x y
  | cons b r ih =>
    rw [NE_cons] at hne
    rw [go]
    have hs' : Straight a' a b := hs
    split_ifs with hk
    · rw [OnChain_cons, ih hne.2 (Or.inl rfl), OnChain_cons, hs'.onSeg]
      constructor
      · rintro ((h | h) | (⟨t, _, _, hx, hy⟩ | h))
        · exact Or.inl h
        · exact Or.inr (Or.inl h)
        · refine Or.inr (Or.inl ⟨1, zero_le_one, le_refl _, ?_, ?_⟩)
          · rw [hx]; simp
          · rw [hy]; simp
        · exact Or.inr (Or.inr h)
      · tauto
    · have hd := (keeps_false_iff_SD hne.1 hne.2.ne_head).1 (Bool.not_eq_true _ ▸ hk)
      rw [ih hne.2 (hs'.next hne.1 hd), OnChain_cons, hs'.onSeg]; tauto

theorem go_first {a : Coord} {l : List Coord} {z : Coord} (hne : NE a l z) :
    SD ((l.headD z).sub a) (((go a l z).headD z).sub a) := by
  induction l generalizing a with
  | nil => exact SD.refl fun h => hne.ne_head (sub_eq_zero_iff.1 h).symm
  | cons b r ih =>
    rw [NE_cons] at hne
    rw [go]
    split_ifs with hk
    · exact SD.refl fun h => hne.1 (sub_eq_zero_iff.1 h).symm
    · have hd := (keeps_false_iff_SD hne.1 hne.2.ne_head).1 (Bool.not_eq_true _ ▸ hk)
      exact (hd.trans (ih hne.2)).chain'

theorem go_idem {a' a : Coord} {l : List Coord} {z : Coord} (hne : NE a l z)
    (hs : Straight a' a (l.headD z)) : go a' (go a l z) z = go a l z := by
  induction l generalizing a a' with
  | nil => rfl
  | cons b r ih =>
    rw [NE_cons] at hne
    have hs' : Straight a' a b := hs
    by_cases hk : Polygon.keeps a b (r.headD z) = true
    · rw [go, if_pos hk, go, ih hne.2 (Or.inl rfl)]
      have : Polygon.keeps a' b ((go b r z).headD z) = true := by
        rw [← hk]
        exact keeps_congr (hs'.into hne.1) (go_first hne.2).symm
      rw [if_pos this]
    · rw [go, if_neg hk]
      have hd := (keeps_false_iff_SD hne.1 hne.2.ne_head).1 (Bool.not_eq_true _ ▸ hk)
      exact ih hne.2 (hs'.next hne.1 hd)

theorem go_ne {a' a : Coord} {l : List Coord} {z : Coord} (hne : NE a l z)
    (hs : Straight a' a (l.headD z)) : NE a' (go a l z) z := by
  induction l generalizing a a' with
  | nil =>
    rw [go, NE_nil]
    intro h; subst h
    have := (hs.into hne.ne_head).left_ne
    exact this (sub_eq_zero_iff.2 rfl)
  | cons b r ih =>
    rw [NE_cons] at hne
    have hs' : Straight a' a b := hs
    rw [go]
    split_ifs with hk
    · rw [NE_cons]
      refine ⟨?_, ih hne.2 (Or.inl rfl)⟩
      rintro rfl
      exact (hs'.into hne.1).left_ne (sub_eq_zero_iff.2 rfl)
    · have hd := (keeps_false_iff_SD hne.1 hne.2.ne_head).1 (Bool.not_eq_true _ ▸ hk)
      exact ih hne.2 (hs'.next hne.1 hd)

theorem go_exists {a : Coord} {l : List Coord} {z : Coord} (h : go a l z ≠ []) :
    ∃ l1 b l2, l = l1 ++ b :: l2 ∧ Polygon.keeps (l1.getLastD a) b (l2.headD z) = true := by
  induction l generalizing a with
  | nil => exact absurd rfl h
  | cons b r ih =>
    rw [go] at h
    by_cases hk : Polygon.keeps a b (r.headD z) = true
    · exact ⟨[], b, r, rfl, hk⟩
    · rw [if_neg hk] at h
      obtain ⟨l1, c, l2, e, k⟩ := ih h
      exact ⟨b :: l1, c, l2, by rw [e]; rfl, by rw [List.getLastD_cons]; exact k⟩

/-- A non-empty ring without equal neighbours can be rotated to start at a kept vertex. -/
theorem exists_kept {vs : List Coord} (h0 : vs ≠ []) (h : NoRepeat vs) :
    ∃ l b r, vs = l ++ b :: r ∧
      Polygon.keeps ((r ++ l).getLastD b) b ((r ++ l).headD b) = true := by
  rcases vs with _ | ⟨x, t⟩
  · exact absurd rfl h0
  rw [noRepeat_cons] at h
  have hne : go x t x ≠ [] := by
    intro hg
    have := (go_first h).right_ne
    rw [hg] at this
    exact this (sub_eq_zero_iff.2 rfl)
  obtain ⟨l1, b, l2, e, k⟩ := go_exists hne
  refine ⟨x :: l1, b, l2, by rw [e]; rfl, ?_⟩
  have e1 : (l2 ++ x :: l1).getLastD b = l1.getLastD x := by
    rw [getLastD_append, List.getLastD_cons]
  have e2 : (l2 ++ x :: l1).headD b = l2.headD x := headD_append _ _ _ _
  rw [e1, e2, k]

theorem removeCollinear_cons_kept {b : Coord} {t : List Coord}
    (hk : Polygon.keeps (t.getLastD b) b (t.headD b) = true) :
    Polygon.removeCollinear (b :: t) = b :: go b t b := by
  rw [removeCollinear_eq_go, go, List.getLastD_cons, List.headD_cons, if_pos hk]

theorem removeCollinear_area {vs : List Coord} (h : NoRepeat vs) :
    twiceArea (Polygon.removeCollinear vs) = twiceArea vs := by
  by_cases h0 : vs = []
  · subst h0; rfl
  obtain ⟨l, b, r, rfl, hk⟩ := exists_kept h0 h
  have hk := removeCollinear_cons_kept hk
  obtain ⟨l', r', e1, e2, _⟩ := removeCollinear_rotate l (b :: r)
  rw [noRepeat_rotate, List.cons_append, noRepeat_cons] at h
  rw [e1, twiceArea_rotate, ← e2, twiceArea_rotate l, List.cons_append, hk, twiceArea_cons,
    twiceArea_cons, go_cross h (Or.inl rfl)]
  simp only [Coord.cross]; ring

theorem removeCollinear_onRing {vs : List Coord} (h : NoRepeat vs) (x y : ℚ) :
    OnRing (Polygon.removeCollinear vs) x y ↔ OnRing vs x y := by
  by_cases h0 : vs = []
  · subst h0; rfl
  obtain ⟨l, b, r, rfl, hk⟩ := exists_kept h0 h
  have hk := removeCollinear_cons_kept hk
  obtain ⟨l', r', e1, e2, _⟩ := removeCollinear_rotate l (b :: r)
  rw [noRepeat_rotate, List.cons_append, noRepeat_cons] at h
  rw [e1, onRing_rotate, ← e2, onRing_rotate l, List.cons_append, hk, onRing_cons,
    onRing_cons, go_onChain h (Or.inl rfl)]
  constructor
  · rintro (⟨t, _, _, hx, hy⟩ | h')
    · simp at hx hy
      subst hx hy
      have hp : ∀ (l : List Coord) (z : Coord), OnChain b l z b.lon b.lat := by
        intro l z
        cases l with
        | nil => rw [OnChain_nil]; exact ⟨0, le_refl _, zero_le_one, by simp, by simp⟩
        | cons c l => rw [OnChain_cons]; exact Or.inl ⟨0, le_refl _, zero_le_one, by simp, by simp⟩
      exact hp _ _
    · exact h'
  · exact Or.inr

theorem removeCollinear_noRepeat {vs : List Coord} (h : NoRepeat vs) :
    NoRepeat (Polygon.removeCollinear vs) := by
  by_cases h0 : vs = []
  · subst h0; exact h
  obtain ⟨l, b, r, rfl, hk⟩ := exists_kept h0 h
  have hk := removeCollinear_cons_kept hk
  obtain ⟨l', r', e1, e2, _⟩ := removeCollinear_rotate l (b :: r)
  rw [noRepeat_rotate, List.cons_append, noRepeat_cons] at h
  rw [e1, noRepeat_rotate, ← e2, List.cons_append, hk, noRepeat_cons]
  exact go_ne h (Or.inl rfl)

theorem go_last {a : Coord} {l : List Coord} {z : Coord} (hne : NE a l z) :
    SD (z.sub (l.getLastD a)) (z.sub ((go a l z).getLastD a)) := by
  have h : NE z l.reverse a := by
    unfold NE at *
    rw [chainPairs_reverse]
    intro p hp
    simp only [List.mem_reverse, List.mem_map] at hp
    obtain ⟨q, hq, rfl⟩ := hp
    exact fun h => hne q hq h.symm
  have := go_first h
  rw [go_reverse] at this
  have e : ∀ m : List Coord, m.reverse.headD a = m.getLastD a := fun m => by
    rw [← getLastD_reverse, List.reverse_reverse]
  rw [e, e] at this
  simp only [SD, Coord.cross, Coord.dot, sub_lon, sub_lat] at *
  exact ⟨by linarith [this.1], by linarith [this.2]⟩

theorem removeCollinear_idem {vs : List Coord} (h : NoRepeat vs) :
    Polygon.removeCollinear (Polygon.removeCollinear vs) = Polygon.removeCollinear vs := by
  by_cases h0 : vs = []
  · subst h0; rfl
  obtain ⟨l, b, r, rfl, hk⟩ := exists_kept h0 h
  have hk' := removeCollinear_cons_kept hk
  obtain ⟨l', r', e1, e2, _⟩ := removeCollinear_rotate l (b :: r)
  rw [noRepeat_rotate, List.cons_append, noRepeat_cons] at h
  rw [List.cons_append, hk'] at e2
  have hc : Polygon.removeCollinear (b :: go b (r ++ l) b) = b :: go b (r ++ l) b := by
    rw [removeCollinear_cons_kept, go_idem h (Or.inl rfl)]
    rw [← hk]
    exact keeps_congr (go_last h).symm (go_first h).symm
  rw [e1]
  obtain ⟨l1, r1, f1, f2, s1, s2⟩ := removeCollinear_rotate l' r'
  rw [← e2, hc, e2] at f2
  have hlen := congrArg List.length f2
  simp only [List.length_append] at hlen
  have g1 := s1.length_le
  have g2 := s2.length_le
  obtain ⟨h1, h2⟩ := List.append_inj f2 (by omega)
  rw [f1, ← h1, ← h2]

end Capi
