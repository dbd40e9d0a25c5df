import Verif.Lemmas.Polygon
import Mathlib.Algebra.BigOperators.Ring.Finset
import Mathlib.Algebra.BigOperators.Intervals
import Mathlib.Algebra.BigOperators.Field

/-!
# The floating-point winding sum
-/

namespace Capi

open Polygon

theorem tree_err (f : ℕ → ℚ) (T : SumTree) :
    |T.eval f - (T.leaves.map f).sum| ≤
      ((1 + 1 / 2 ^ 53) ^ T.depth - 1) * (T.leaves.map fun i => |f i|).sum := by
  induction T with
  | zero => simp [SumTree.eval, SumTree.leaves, SumTree.depth]
  | leaf i => simp [SumTree.eval, SumTree.leaves, SumTree.depth]
  | node l r ihl ihr =>
    simp only [SumTree.eval, SumTree.leaves, SumTree.depth, List.map_append, List.sum_append]
    set a := l.eval f
    set b := r.eval f
    set Sl := (l.leaves.map f).sum
    set Sr := (r.leaves.map f).sum
    set Al := (l.leaves.map fun i => |f i|).sum with hAl
    set Ar := (r.leaves.map fun i => |f i|).sum with hAr
    have habs : ∀ L : List ℕ, |(L.map f).sum| ≤ (L.map fun i => |f i|).sum := by
      intro L
      induction L with
      | nil => simp
      | cons x L ih => simp only [List.map_cons, List.sum_cons]; exact (abs_add_le _ _).trans (by linarith)
    have hnn : ∀ L : List ℕ, 0 ≤ (L.map fun i => |f i|).sum := fun L => (abs_nonneg _).trans (habs L)
    have hl0 : 0 ≤ Al := hnn _
    have hr0 : 0 ≤ Ar := hnn _
    have hSl : |Sl| ≤ Al := habs _
    have hSr : |Sr| ≤ Ar := habs _
    set u : ℚ := 1 / 2 ^ 53 with hu
    have hu0 : 0 < u := by rw [hu]; positivity
    set d := max l.depth r.depth
    have p1 : (1 + u) ^ l.depth ≤ (1 + u) ^ d := pow_le_pow_right₀ (by linarith) (le_max_left _ _)
    have p2 : (1 + u) ^ r.depth ≤ (1 + u) ^ d := pow_le_pow_right₀ (by linarith) (le_max_right _ _)
    set P := (1 + u) ^ d with hP
    have hP1 : 1 ≤ P := one_le_pow₀ (by linarith)
    have il : |a - Sl| ≤ (P - 1) * Al := ihl.trans (by gcongr)
    have ir : |b - Sr| ≤ (P - 1) * Ar := ihr.trans (by gcongr)
    have e1 : |a + b - (Sl + Sr)| ≤ (P - 1) * (Al + Ar) := by
      rw [show a + b - (Sl + Sr) = (a - Sl) + (b - Sr) by ring]
      refine (abs_add_le _ _).trans ?_
      linarith
    have e2 : |a + b| ≤ P * (Al + Ar) := by
      rw [show a + b = (a + b - (Sl + Sr)) + (Sl + Sr) by ring]
      refine (abs_add_le _ _).trans ?_
      have := abs_add_le Sl Sr
      linarith
    have e3 : |fl (a + b) - (a + b)| ≤ u * (P * (Al + Ar)) := by
      refine (fl_err _).trans ?_
      rw [hu, div_mul_eq_mul_div, one_mul]
      gcongr
    rw [pow_succ, ← hP, show fl (a + b) - (Sl + Sr) = (fl (a + b) - (a + b)) + (a + b - (Sl + Sr)) by ring]
    refine (abs_add_le _ _).trans ?_
    have : (P * (1 + u) - 1) * (Al + Ar) = u * (P * (Al + Ar)) + (P - 1) * (Al + Ar) := by ring
    rw [this]
    linarith

theorem pow_le_lin (d : ℕ) (hd : d ≤ 2 ^ 40) :
    (1 + 1 / 2 ^ 53 : ℚ) ^ d - 1 ≤ 2 * d / 2 ^ 53 := by
  induction d with
  | zero => simp
  | succ d ih =>
    have h := ih (by omega)
    have hq : (d : ℚ) ≤ 2 ^ 40 := by exact_mod_cast (by omega : d ≤ 2 ^ 40)
    rw [pow_succ]
    have h2 : (1 + 1 / 2 ^ 53 : ℚ) ^ d ≤ 1 + 2 * d / 2 ^ 53 := by linarith
    have h3 : (1 + 1 / 2 ^ 53 : ℚ) ^ d * (1 + 1 / 2 ^ 53) ≤ (1 + 2 * d / 2 ^ 53) * (1 + 1 / 2 ^ 53) :=
      mul_le_mul_of_nonneg_right h2 (by positivity)
    push_cast
    have h4 : (2 : ℚ) * d / 2 ^ 53 * (1 / 2 ^ 53) ≤ 1 / 2 ^ 53 := by
      rw [div_mul_div_comm, div_le_div_iff₀ (by positivity) (by positivity)]
      have : (2 : ℚ) * d * 1 ≤ 2 * 2 ^ 40 := by linarith
      calc (2 : ℚ) * d * 1 * 2 ^ 53 ≤ 2 * 2 ^ 40 * 2 ^ 53 := by gcongr
        _ ≤ 1 * (2 ^ 53 * 2 ^ 53) := by norm_num
    have h5 : (1 + 2 * (d : ℚ) / 2 ^ 53) * (1 + 1 / 2 ^ 53) =
        1 + 2 * d / 2 ^ 53 + 1 / 2 ^ 53 + 2 * d / 2 ^ 53 * (1 / 2 ^ 53) := by ring
    have h6 : (2 : ℚ) * (d + 1) / 2 ^ 53 = 2 * d / 2 ^ 53 + 1 / 2 ^ 53 + 1 / 2 ^ 53 := by ring
    linarith

theorem degOfMicro_err {k B : ℤ} (hk : |k| ≤ B) :
    |Coord.degOfMicro k - k / 1000000| ≤ (B : ℚ) / 1000000 * (2001 / 1000) / 2 ^ 53 := by
  unfold Coord.degOfMicro
  have hkq : |(k : ℚ)| ≤ B := by exact_mod_cast hk
  have hB : (0 : ℚ) ≤ B := (abs_nonneg _).trans hkq
  set c := fl (1 / 1000000) with hc
  have ec : |c - 1 / 1000000| ≤ 1 / 1000000 / 2 ^ 53 := by
    have := fl_err (1 / 1000000)
    rwa [abs_of_pos (show (0 : ℚ) < 1 / 1000000 by norm_num)] at this
  have cle : |c| ≤ 1 / 1000000 * (1 + 1 / 2 ^ 53) := by
    have := abs_le.1 ec
    rw [abs_le]
    constructor
    · have h2 : (0 : ℚ) ≤ 1 / 1000000 / 2 ^ 53 := by positivity
      have : (1 : ℚ) / 1000000 / 2 ^ 53 ≤ 1 / 1000000 := by norm_num
      have : (0 : ℚ) ≤ 1 / 1000000 * (1 + 1 / 2 ^ 53) := by positivity
      linarith
    · have h2 : (1 : ℚ) / 1000000 * (1 + 1 / 2 ^ 53) = 1 / 1000000 + 1 / 1000000 / 2 ^ 53 := by ring
      linarith
  have e1 : |c * k - k / 1000000| ≤ 1 / 1000000 / 2 ^ 53 * B := by
    rw [show c * (k : ℚ) - k / 1000000 = (c - 1 / 1000000) * k by ring, abs_mul]
    gcongr
  have e2 : |fl (c * k) - c * k| ≤ 1 / 1000000 * (1 + 1 / 2 ^ 53) * B / 2 ^ 53 := by
    refine (fl_err _).trans ?_
    rw [abs_mul]; gcongr
  rw [show fl (c * k) - (k : ℚ) / 1000000 = (fl (c * k) - c * k) + (c * k - k / 1000000) by ring]
  refine (abs_add_le _ _).trans ((add_le_add e2 e1).trans ?_)
  have : (1 : ℚ) / 1000000 * (1 + 1 / 2 ^ 53) * B / 2 ^ 53 + 1 / 1000000 / 2 ^ 53 * B =
    B / 1000000 * (2 + 1 / 2 ^ 53) / 2 ^ 53 := by ring
  rw [this]
  gcongr
  norm_num

/-- Error of one summand of the winding sum, in square degrees, before and after rounding it. -/
theorem term_errs {a b : Coord} (ha : a.Per) (hb : b.Per) :
    (|fl (b.lonDeg - a.lonDeg) * fl (b.latDeg + a.latDeg) -
      (b.lon / 1000000 - a.lon / 1000000) * (b.lat / 1000000 + a.lat / 1000000)| ≤
        1400000 / 2 ^ 53 ∧
    |fl (b.lonDeg - a.lonDeg) * fl (b.latDeg + a.latDeg)| ≤ 195000) ∧
    (|fl (fl (b.lonDeg - a.lonDeg) * fl (b.latDeg + a.latDeg)) -
      (b.lon / 1000000 - a.lon / 1000000) * (b.lat / 1000000 + a.lat / 1000000)| ≤
        1400000 / 2 ^ 53 ∧
    |fl (fl (b.lonDeg - a.lonDeg) * fl (b.latDeg + a.latDeg))| ≤ 195000) := by
  unfold Coord.Per at ha hb
  have la := degOfMicro_err (k := a.lon) (B := 540000001) (by rw [abs_le]; omega)
  have lb := degOfMicro_err (k := b.lon) (B := 540000001) (by rw [abs_le]; omega)
  have ta := degOfMicro_err (k := a.lat) (B := 90000000) (by rw [abs_le]; omega)
  have tb := degOfMicro_err (k := b.lat) (B := 90000000) (by rw [abs_le]; omega)
  change |a.lonDeg - _| ≤ _ at la
  change |b.lonDeg - _| ≤ _ at lb
  change |a.latDeg - _| ≤ _ at ta
  change |b.latDeg - _| ≤ _ at tb
  generalize a.lonDeg = x0 at *
  generalize b.lonDeg = x1 at *
  generalize a.latDeg = y0 at *
  generalize b.latDeg = y1 at *
  obtain ⟨⟨a1, a2, a3, a4⟩, ⟨b1, b2, b3, b4⟩⟩ := And.intro ha hb
  have a1 : (-540000001 : ℚ) ≤ a.lon := by exact_mod_cast a1
  have a2 : (a.lon : ℚ) ≤ 540000001 := by exact_mod_cast a2
  have a3 : (-90000000 : ℚ) ≤ a.lat := by exact_mod_cast a3
  have a4 : (a.lat : ℚ) ≤ 90000000 := by exact_mod_cast a4
  have b1 : (-540000001 : ℚ) ≤ b.lon := by exact_mod_cast b1
  have b2 : (b.lon : ℚ) ≤ 540000001 := by exact_mod_cast b2
  have b3 : (-90000000 : ℚ) ≤ b.lat := by exact_mod_cast b3
  have b4 : (b.lat : ℚ) ≤ 90000000 := by exact_mod_cast b4
  set X0 : ℚ := a.lon / 1000000 with hX0
  set X1 : ℚ := b.lon / 1000000 with hX1
  set Y0 : ℚ := a.lat / 1000000 with hY0
  set Y1 : ℚ := b.lat / 1000000 with hY1
  have la' := abs_le.1 la
  have lb' := abs_le.1 lb
  have ta' := abs_le.1 ta
  have tb' := abs_le.1 tb
  have n1 : ((540000001 : ℤ) : ℚ) / 1000000 * (2001 / 1000) / 2 ^ 53 ≤ 1081 / 2 ^ 53 := by norm_num
  have n2 : ((90000000 : ℤ) : ℚ) / 1000000 * (2001 / 1000) / 2 ^ 53 ≤ 181 / 2 ^ 53 := by norm_num
  have s1 : (1081 : ℚ) / 2 ^ 53 ≤ 1 / 1000000 := by norm_num
  have s2 : (181 : ℚ) / 2 ^ 53 ≤ 1 / 1000000 := by norm_num
  -- the difference of longitudes
  have hD : |X1 - X0| ≤ 1080000002 / 1000000 := by rw [abs_le]; constructor <;> linarith
  have d1 : |x1 - x0 - (X1 - X0)| ≤ 2162 / 2 ^ 53 := by
    rw [abs_le]
    have : (2162 : ℚ) / 2 ^ 53 = 1081 / 2 ^ 53 + 1081 / 2 ^ 53 := by ring
    constructor <;> linarith
  have d2 : |x1 - x0| ≤ 1081 := by
    have := abs_le.1 hD
    rw [abs_le]; constructor <;> linarith
  have d3 : |fl (x1 - x0) - (x1 - x0)| ≤ 1081 / 2 ^ 53 := (fl_err _).trans (by gcongr)
  have d4 : |fl (x1 - x0) - (X1 - X0)| ≤ 3243 / 2 ^ 53 := by
    have h1 := abs_le.1 d1
    have h3 := abs_le.1 d3
    rw [abs_le]
    have : (3243 : ℚ) / 2 ^ 53 = 2162 / 2 ^ 53 + 1081 / 2 ^ 53 := by ring
    constructor <;> linarith
  have d5 : |fl (x1 - x0)| ≤ 1081 := by
    have h1 := abs_le.1 d4
    have h3 := abs_le.1 hD
    have : (3243 : ℚ) / 2 ^ 53 ≤ 1 / 1000000 := by norm_num
    rw [abs_le]; constructor <;> linarith
  -- the sum of latitudes
  have hS : |Y1 + Y0| ≤ 180 := by rw [abs_le]; constructor <;> linarith
  have t1 : |y1 + y0 - (Y1 + Y0)| ≤ 362 / 2 ^ 53 := by
    rw [abs_le]
    have : (362 : ℚ) / 2 ^ 53 = 181 / 2 ^ 53 + 181 / 2 ^ 53 := by ring
    constructor <;> linarith
  have t2 : |y1 + y0| ≤ 1801 / 10 := by
    have := abs_le.1 hS
    rw [abs_le]; constructor <;> linarith
  have t3 : |fl (y1 + y0) - (y1 + y0)| ≤ (1801 / 10) / 2 ^ 53 := (fl_err _).trans (by gcongr)
  have t4 : |fl (y1 + y0) - (Y1 + Y0)| ≤ 543 / 2 ^ 53 := by
    have h1 := abs_le.1 t1
    have h3 := abs_le.1 t3
    rw [abs_le]
    have : (1801 / 10 : ℚ) / 2 ^ 53 ≤ 181 / 2 ^ 53 := by norm_num
    have : (543 : ℚ) / 2 ^ 53 = 362 / 2 ^ 53 + 181 / 2 ^ 53 := by ring
    constructor <;> linarith
  have t5 : |fl (y1 + y0)| ≤ 1801 / 10 := by
    have h1 := abs_le.1 t4
    have h3 := abs_le.1 hS
    have : (543 : ℚ) / 2 ^ 53 ≤ 1 / 1000000 := by norm_num
    rw [abs_le]; constructor <;> linarith
  generalize fl (x1 - x0) = p at *
  generalize fl (y1 + y0) = q at *
  have m1 : |p * q - (X1 - X0) * (Y1 + Y0)| ≤ 1181000 / 2 ^ 53 := by
    rw [show p * q - (X1 - X0) * (Y1 + Y0) = (p - (X1 - X0)) * q + (X1 - X0) * (q - (Y1 + Y0)) by ring]
    refine (abs_add_le _ _).trans ?_
    rw [abs_mul, abs_mul]
    calc |p - (X1 - X0)| * |q| + |X1 - X0| * |q - (Y1 + Y0)|
        ≤ 3243 / 2 ^ 53 * (1801 / 10) + 1080000002 / 1000000 * (543 / 2 ^ 53) := by gcongr
      _ ≤ 1181000 / 2 ^ 53 := by norm_num
  have m2 : |p * q| ≤ 194700 := by
    rw [abs_mul]
    calc |p| * |q| ≤ 1081 * (1801 / 10) := by gcongr
      _ ≤ 194700 := by norm_num
  have m3 : |fl (p * q) - p * q| ≤ 194700 / 2 ^ 53 := (fl_err _).trans (by gcongr)
  have h1 := abs_le.1 m1
  have h2 := abs_le.1 m2
  have h3 := abs_le.1 m3
  refine ⟨⟨m1.trans (by norm_num), m2.trans (by norm_num)⟩, ?_⟩
  constructor
  · have : (1181000 : ℚ) / 2 ^ 53 + 194700 / 2 ^ 53 ≤ 1400000 / 2 ^ 53 := by norm_num
    rw [abs_le]; constructor <;> linarith
  · have : (194700 : ℚ) / 2 ^ 53 ≤ 1 := by norm_num
    rw [abs_le]; constructor <;> linarith

theorem ringAt_mem {vs : List Coord} (h : vs ≠ []) (i : ℕ) : ringAt vs i ∈ vs := by
  unfold ringAt
  have hl : 0 < vs.length := List.length_pos_iff.2 h
  have : i % vs.length < vs.length := Nat.mod_lt _ hl
  rw [List.getD_eq_getElem?_getD, List.getElem?_eq_getElem this]
  exact List.getElem_mem this

theorem ringAt_length {vs : List Coord} : ringAt vs vs.length = ringAt vs 0 := by
  unfold ringAt; simp

/-- The exact winding sum is minus twice the area. -/
theorem winding_exact (vs : List Coord) :
    ∑ i ∈ Finset.range vs.length,
      (((ringAt vs (i + 1)).lon : ℚ) / 1000000 - (ringAt vs i).lon / 1000000) *
        ((ringAt vs (i + 1)).lat / 1000000 + (ringAt vs i).lat / 1000000) =
      - (twiceArea vs : ℚ) / 1000000000000 := by
  have h := Finset.sum_range_sub (fun i => (ringAt vs i).lon * (ringAt vs i).lat) vs.length
  rw [ringAt_length, sub_self] at h
  have hz : (-(twiceArea vs : ℚ)) / 1000000000000 =
      (-(twiceArea vs : ℚ) + ((∑ i ∈ Finset.range vs.length,
        ((ringAt vs (i + 1)).lon * (ringAt vs (i + 1)).lat -
          (ringAt vs i).lon * (ringAt vs i).lat) : ℤ) : ℚ)) / 1000000000000 := by
    rw [h]; simp
  rw [hz, twiceArea]
  push_cast
  rw [← Finset.sum_neg_distrib, ← Finset.sum_add_distrib, Finset.sum_div]
  apply Finset.sum_congr rfl
  intro i _
  ring

/-- Total error of a sum of terms up to rounding, in square degrees. -/
theorem winding_err_of {vs : List Coord} {f : ℕ → ℚ} (hterm : vs ≠ [] → ∀ i, |f i -
      (((ringAt vs (i + 1)).lon : ℚ) / 1000000 - (ringAt vs i).lon / 1000000) *
        ((ringAt vs (i + 1)).lat / 1000000 + (ringAt vs i).lat / 1000000)| ≤ 1400000 / 2 ^ 53 ∧
      |f i| ≤ 195000) {T : SumTree}
    (hT : T.leaves.Perm (List.range vs.length)) (hd : T.depth ≤ 2 ^ 40) :
    |T.eval f + (twiceArea vs : ℚ) / 1000000000000| ≤
      vs.length * (1400000 + 390000 * T.depth) / 2 ^ 53 := by
  by_cases h0 : vs = []
  · subst h0
    have hl : T.leaves = [] := by simpa using hT
    have e := tree_err f T
    rw [hl] at e
    simp at e
    simp [e, twiceArea]
  replace hterm := hterm h0
  have e1 := tree_err f T
  rw [(hT.map _).sum_eq, (hT.map _).sum_eq] at e1
  have s1 : ((List.range vs.length).map f).sum =
      ∑ i ∈ Finset.range vs.length, f i := rfl
  have s2 : ((List.range vs.length).map fun i => |f i|).sum =
      ∑ i ∈ Finset.range vs.length, |f i| := rfl
  rw [s1, s2] at e1
  have e2 : ∑ i ∈ Finset.range vs.length, |f i| ≤ vs.length * 195000 := by
    refine (Finset.sum_le_sum fun i _ => (hterm i).2).trans ?_
    simp
  have e3 : |∑ i ∈ Finset.range vs.length, f i +
      (twiceArea vs : ℚ) / 1000000000000| ≤ vs.length * (1400000 / 2 ^ 53) := by
    have hw := winding_exact vs
    have : (twiceArea vs : ℚ) / 1000000000000 = -(-(twiceArea vs : ℚ) / 1000000000000) := by ring
    rw [this, ← hw, ← sub_eq_add_neg, ← Finset.sum_sub_distrib]
    refine (Finset.abs_sum_le_sum_abs _ _).trans ?_
    refine (Finset.sum_le_sum fun i _ => (hterm i).1).trans ?_
    simp
  have e4 := pow_le_lin T.depth hd
  have e5 : ((1 + 1 / 2 ^ 53 : ℚ) ^ T.depth - 1) * ∑ i ∈ Finset.range vs.length, |f i| ≤
      2 * T.depth / 2 ^ 53 * (vs.length * 195000) := by
    apply mul_le_mul e4 e2 (Finset.sum_nonneg fun i _ => abs_nonneg _) (by positivity)
  have e6 := e1.trans e5
  rw [show T.eval f + (twiceArea vs : ℚ) / 1000000000000 =
    (T.eval f - ∑ i ∈ Finset.range vs.length, f i) +
    (∑ i ∈ Finset.range vs.length, f i + (twiceArea vs : ℚ) / 1000000000000) by ring]
  refine (abs_add_le _ _).trans ((add_le_add e6 e3).trans (le_of_eq ?_))
  ring

/-- Total error of the winding sum, in square degrees. -/
theorem winding_err {vs : List Coord} (h : ∀ v ∈ vs, v.Per) {T : SumTree}
    (hT : T.leaves.Perm (List.range vs.length)) (hd : T.depth ≤ 2 ^ 40) :
    |T.eval (windingTerm vs) + (twiceArea vs : ℚ) / 1000000000000| ≤
      vs.length * (1400000 + 390000 * T.depth) / 2 ^ 53 :=
  winding_err_of (fun h0 i => (term_errs (h _ (ringAt_mem h0 i)) (h _ (ringAt_mem h0 (i + 1)))).2) hT hd

/-- The area is large enough (in square microdegrees) for the floating-point sum to have the
right sign. -/
def AreaResolved (T : SumTree) (vs : List Coord) : Prop :=
  vs.length * (156 + 44 * T.depth) < |twiceArea vs|

/-- A sum with that error has the sign of the area. -/
theorem orient_of_err {vs : List Coord} {T : SumTree} {x : ℚ}
    (e : |x + (twiceArea vs : ℚ) / 1000000000000| ≤
      vs.length * (1400000 + 390000 * T.depth) / 2 ^ 53) (hA : AreaResolved T vs) :
    (if x < 0 then Orientation.counterClockwise else if 0 < x then .clockwise else .collinear) =
      (if 0 < twiceArea vs then .counterClockwise else .clockwise) := by
  have e := abs_le.1 e
  have hA' : ((vs.length : ℚ) * (156 + 44 * T.depth)) < |(twiceArea vs : ℚ)| := by
    have : ((vs.length * (156 + 44 * T.depth) : ℤ) : ℚ) < ((|twiceArea vs| : ℤ) : ℚ) := by
      exact_mod_cast hA
    push_cast at this; exact this
  have hb : (vs.length : ℚ) * (1400000 + 390000 * T.depth) / 2 ^ 53 ≤
      (vs.length : ℚ) * (156 + 44 * T.depth) / 1000000000000 := by
    rw [div_le_div_iff₀ (by positivity) (by positivity)]
    have h1 : (0 : ℚ) ≤ vs.length := by positivity
    have h2 : (0 : ℚ) ≤ T.depth := by positivity
    have : (1400000 + 390000 * (T.depth : ℚ)) * 1000000000000 ≤ (156 + 44 * T.depth) * 2 ^ 53 := by
      nlinarith
    calc (vs.length : ℚ) * (1400000 + 390000 * T.depth) * 1000000000000
        = vs.length * ((1400000 + 390000 * (T.depth : ℚ)) * 1000000000000) := by ring
      _ ≤ vs.length * ((156 + 44 * T.depth) * 2 ^ 53) := by gcongr
      _ = _ := by ring
  rcases lt_or_ge 0 (twiceArea vs) with hp | hp
  · rw [if_pos hp, if_pos]
    have hpq : (0 : ℚ) < twiceArea vs := by exact_mod_cast hp
    rw [abs_of_pos hpq] at hA'
    have : (vs.length : ℚ) * (156 + 44 * T.depth) / 1000000000000 <
      twiceArea vs / 1000000000000 := by gcongr
    linarith [e.2]
  · have hpq : (twiceArea vs : ℚ) ≤ 0 := by exact_mod_cast hp
    rw [abs_of_nonpos hpq] at hA'
    have : (vs.length : ℚ) * (156 + 44 * T.depth) / 1000000000000 <
      -twiceArea vs / 1000000000000 := by gcongr
    have h3 : -(twiceArea vs : ℚ) / 1000000000000 = -(twiceArea vs / 1000000000000) := by ring
    have hpos : 0 < x := by linarith [e.1]
    rw [if_neg (not_lt.2 hpos.le), if_pos hpos, if_neg (not_lt.2 hp)]

theorem windingOrient_correct {vs : List Coord} (h : ∀ v ∈ vs, v.Per) {T : SumTree}
    (hT : T.leaves.Perm (List.range vs.length)) (hd : T.depth ≤ 2 ^ 40)
    (hA : AreaResolved T vs) :
    windingOrient T vs = (if 0 < twiceArea vs then .counterClockwise else .clockwise) :=
  orient_of_err (winding_err h hT hd) hA

theorem sequential_leaves (n : ℕ) : (SumTree.sequential n).leaves = List.range n := by
  induction n with
  | zero => rfl
  | succ n ih => rw [SumTree.sequential, SumTree.leaves, ih, SumTree.leaves, List.range_succ]

theorem sequential_depth (n : ℕ) : (SumTree.sequential n).depth = n := by
  induction n with
  | zero => rfl
  | succ n ih => rw [SumTree.sequential, SumTree.depth, ih]; simp [SumTree.depth]

theorem mk_of_resolved {T : ℕ → SumTree} (hT : PlanOk T) {c : List Coord}
    (hc : ∀ v ∈ c, v.Per) (hd : (T c.length).depth ≤ 2 ^ 40)
    (hA : AreaResolved (T c.length) c) :
    normalizeOrient (T c.length) c = if 0 < twiceArea c then c else c.reverse := by
  unfold normalizeOrient
  have hlen : ¬ c.length ≤ 2 := by
    intro h
    have hz : twiceArea c = 0 := by
      rcases c with _ | ⟨a, _ | ⟨b, _ | ⟨d, t⟩⟩⟩
      · rfl
      · rw [twiceArea_cons]; simp [chainCross, chainPairs, Coord.cross]
      · rw [twiceArea_cons]; simp [chainCross, chainPairs, Coord.cross]
      · simp at h
    unfold AreaResolved at hA
    rw [hz] at hA
    have : (0 : ℤ) ≤ c.length * (156 + 44 * (T c.length).depth) := by positivity
    simp at hA
    omega
  rw [if_neg hlen, windingOrient_correct hc (hT _) hd hA]
  split_ifs <;> simp_all

/-- The summation order of a plain loop meets the hypotheses. -/
theorem sequential_ok : PlanOk SumTree.sequential := fun n => by rw [sequential_leaves]

end Capi
