import Verif.Model.Search64
import Verif.Props.Binary64
import Verif.Props.Query
import Verif.Props.Rounded
import Verif.Spec.Root

/-!
# C69: the search for any weighting and limit
-/

namespace Capi

open ShortestPath

/-! ### Doubles as rationals -/

theorem pow_zpow : ((2 : ℚ) ^ 1024) = 2 ^ (1024 : ℤ) := by rw [← zpow_natCast]; norm_num

/-- Results of rounding are doubles below `2^1024`. -/
theorem fl64_fin {q r : ℚ} (h : fl64 q = .fin r) : fl r = r ∧ |r| < 2 ^ 1024 := by
  have hpos : (0 : ℚ) < 2 ^ 1024 := by positivity
  unfold fl64 at h
  split_ifs at h with h0
  · injection h with h
    rw [← h]
    exact ⟨fl_zero, by rw [abs_zero]; exact hpos⟩
  · simp only at h
    split_ifs at h with h1
    injection h with h
    rw [← h]
    refine ⟨?_, not_le.1 h1⟩
    set e := max (Int.log 2 |q| - 52) (-1074) with he
    have hu : (0 : ℚ) < 2 ^ e := by positivity
    apply fl_exact
    have hb : |q / 2 ^ e| ≤ 2 ^ 53 := by
      rw [abs_div, abs_of_pos hu, div_le_iff₀ hu]
      refine (lt_ulp q).le.trans ?_
      rw [mul_comm]
      refine mul_le_mul_of_nonneg_left ?_ (by norm_num)
      unfold ulp
      exact zpow_le_zpow_right₀ (by norm_num) (le_max_left _ _)
    rw [abs_le] at hb ⊢
    have r1 := rne_mono hb.1
    have r2 := rne_mono hb.2
    have c1 : rne (-(2 : ℚ) ^ 53) = -2 ^ 53 := by
      have := rne_intCast (-2 ^ 53)
      push_cast at this
      exact this
    have c2 : rne ((2 : ℚ) ^ 53) = 2 ^ 53 := by
      have := rne_intCast (2 ^ 53)
      push_cast at this
      exact this
    rw [c1] at r1
    rw [c2] at r2
    exact ⟨r1, r2⟩

theorem dbl_lt {a b : Dbl} : a < b ↔ a.1 < b.1 := Iff.rfl

theorem toDbl_inf (s : Bool) : ((F64.inf s).toDbl).1 = if s then -2 ^ 1024 else 2 ^ 1024 := by
  have e : fl ((2 : ℚ) ^ 1024) = 2 ^ 1024 := by rw [pow_zpow]; exact fl_pow2 _
  cases s
  · simp only [F64.toDbl, Dbl.round, e, Bool.false_eq_true, if_false]
  · simp only [F64.toDbl, Dbl.round, fl_neg, e, if_true]

/-- A number that is a double in range. -/
def IsF64 (q : ℚ) : Prop := fl q = q ∧ |q| < 2 ^ 1024

/-- The image in the doubles keeps the order. -/
theorem toDbl_lt {x y : F64} (hx : x ≠ .nan) (hy : y ≠ .nan) (gx : ∀ q, x = .fin q → IsF64 q)
    (gy : ∀ q, y = .fin q → IsF64 q) : x.lt y = decide (x.toDbl < y.toDbl) := by
  have hpos : (0 : ℚ) < 2 ^ 1024 := by positivity
  generalize hP : (2 : ℚ) ^ 1024 = P at hpos
  have hf : ∀ q, (F64.fin q).toDbl.1 = fl q := fun q => rfl
  have hi := toDbl_inf
  rw [hP] at hi
  have g : ∀ {x : F64}, (∀ q, x = .fin q → IsF64 q) → ∀ q, x = .fin q → fl q = q ∧ -P < q ∧ q < P := by
    intro x h q hq
    obtain ⟨h1, h2⟩ := h q hq
    rw [hP, abs_lt] at h2
    exact ⟨h1, h2.1, h2.2⟩
  clear hP
  cases x with
  | nan => exact absurd rfl hx
  | inf s =>
    cases y with
    | nan => exact absurd rfl hy
    | inf t =>
      rw [Bool.eq_iff_iff, decide_eq_true_iff, dbl_lt, hi, hi]
      cases s <;> cases t <;> simp [F64.lt] <;> linarith
    | fin b =>
      obtain ⟨b1, b2, b3⟩ := g gy b rfl
      rw [Bool.eq_iff_iff, decide_eq_true_iff, dbl_lt, hi, hf, b1]
      cases s <;> simp [F64.lt] <;> linarith
  | fin a =>
    obtain ⟨a1, a2, a3⟩ := g gx a rfl
    cases y with
    | nan => exact absurd rfl hy
    | inf t =>
      rw [Bool.eq_iff_iff, decide_eq_true_iff, dbl_lt, hi, hf, a1]
      cases t <;> simp [F64.lt] <;> linarith
    | fin b =>
      obtain ⟨b1, b2, b3⟩ := g gy b rfl
      rw [Bool.eq_iff_iff, decide_eq_true_iff, dbl_lt, hf, hf, a1, b1]
      simp [F64.lt]

theorem fl64_not_nan (q : ℚ) : fl64 q ≠ .nan := by
  unfold fl64
  simp only
  split_ifs <;> simp

theorem priority_finite (q d h : ℚ) :
    priority64 (.fin q) (.fin d) (.fin h) ≠ .nan ∧
      ∀ r, priority64 (.fin q) (.fin d) (.fin h) = .fin r → IsF64 r := by
  unfold priority64
  show F64.add (.fin d) (fl64 (h * q)) ≠ _ ∧ ∀ r, F64.add (.fin d) (fl64 (h * q)) = _ → _
  cases hm : fl64 (h * q) with
  | nan => exact absurd hm (fl64_not_nan _)
  | inf s =>
    exact ⟨by simp [F64.add], fun r hr => by simp [F64.add] at hr⟩
  | fin m => exact ⟨fl64_not_nan _, fun r hr => fl64_fin hr⟩

/-- **C69** The comparison of the priority queue on doubles of any kind is the one the search is
modelled with: for finite weightings by the rounded sum, otherwise no element comes before another. -/
theorem C69_comparator (sq : ℚ → Dbl) (w limit : F64) (d1 h1 d2 h2 : Dbl) (n1 : 0 ≤ h1.1) (n2 : 0 ≤ h2.1) :
    compare64 w (.fin d1.1, .fin h1.1) (.fin d2.1, .fin h2.1) =
      decide ((anyArith sq w limit).weigh d2 h2 < (anyArith sq w limit).weigh d1 h1) := by
  cases w with
  | fin q =>
    obtain ⟨a1, a2⟩ := priority_finite q d1.1 h1.1
    obtain ⟨b1, b2⟩ := priority_finite q d2.1 h2.1
    exact toDbl_lt b1 a1 b2 a2
  | nan =>
    have e : decide ((anyArith sq .nan limit).weigh d2 h2 < (anyArith sq .nan limit).weigh d1 h1) =
        false := decide_eq_false (lt_irrefl (Dbl.round 0))
    rw [e]
    rfl
  | inf s =>
    have e : decide ((anyArith sq (.inf s) limit).weigh d2 h2 <
        (anyArith sq (.inf s) limit).weigh d1 h1) = false :=
      decide_eq_false (lt_irrefl (Dbl.round 0))
    rw [e]
    have key : ∀ d h : ℚ, 0 ≤ h → priority64 (.inf s) (.fin d) (.fin h) = .nan ∨
        priority64 (.inf s) (.fin d) (.fin h) = .inf s := by
      intro d h hh
      unfold priority64
      simp only [F64.mul, F64.infMul]
      split_ifs with h0
      · left; rfl
      · right
        rw [decide_eq_false (not_lt.2 hh), Bool.xor_false]
        rfl
    unfold compare64
    rcases key d2.1 h2.1 n2 with h | h <;> rcases key d1.1 h1.1 n1 with h' | h' <;>
      simp only [h, h'] <;> cases s <;> rfl

theorem any_sound (sq : ℚ → Dbl) (hsq : ∀ x, 0 ≤ (sq x).1) (w limit : F64) :
    (anyArith sq w limit).Sound := by
  have h := double_sound sq hsq (Dbl.round 0) none
  exact ⟨h.infl, h.mono⟩

/-- **C69** Within the normal range the weighting and the limit are those of the other files. -/
theorem C69_agrees (sq : ℚ → Dbl) (w : Dbl) (l : Dbl) (limit : F64) (d h : Dbl)
    (h1 : Normal (h.1 * w.1)) (h2 : Normal (d.1 + fl (h.1 * w.1))) :
    (anyArith sq (.fin w.1) limit).weigh d h = (doubleArith sq w none).weigh d h ∧
    (anyArith sq (.fin w.1) (.fin l.1)).over d = (doubleArith sq w (some l)).over d ∧
    (anyArith sq (.fin w.1) (.inf false)).over d = (doubleArith sq w none).over d ∧
    (anyArith sq (.fin w.1) .nan).over d = (doubleArith sq w none).over d := by
  refine ⟨?_, rfl, rfl, rfl⟩
  show F64.toDbl (F64.add (.fin d.1) (fl64 (h.1 * w.1))) = _
  rw [fl64_normal h1]
  show F64.toDbl (fl64 (d.1 + fl (h.1 * w.1))) = _
  rw [fl64_normal h2]
  apply Subtype.ext
  show fl (fl _) = fl _
  rw [fl_idem]
  rfl

/-- **C69** Whatever the weighting and the limit, a query has an outcome, and a path it returns is a
route, without repetitions if it was searched. -/
theorem C69_path (sq : ℚ → Dbl) (hsq : ∀ x, 0 ≤ (sq x).1) (w limit : F64) (E : Env)
    (hg : UserGraph E.graph) (hord : ∀ l, (E.ord l).Perm l) (s d : Coord) (allow : Bool) :
    (∃ r, Query (anyArith sq w limit) E s d allow r) ∧
    (∀ path, Query (anyArith sq w limit) E s d allow (.ok path) →
      ∃ ns nd c, normalizeC s = .ok ns ∧ normalizeC d = .ok nd ∧ correct E ns nd allow = .ok c ∧
        ((blocking E c = [] ∧ path = [c.src, c.dst]) ∨
          (blocking E c ≠ [] ∧ IsWalk (RouteEdge E c) c.src c.dst path))) ∧
    ∀ N c path, prepare E s d allow = .ok (.inr (N, c)) →
      Query (anyArith sq w limit) E s d allow (.ok path) → path.Nodup :=
  ⟨(C43_outcome _ (any_sound sq hsq w limit) E hg hord s d allow).1, fun path h =>
    C42_paths _ (any_sound sq hsq w limit) E hg hord s d allow path h,
    (C43_outcome _ (any_sound sq hsq w limit) E hg hord s d allow).2⟩

/-- **C69** A limit that is NaN is no limit: the search fails exactly if there is no route, whatever
the weighting. -/
theorem C69_unlimited (sq : ℚ → Dbl) (hsq : ∀ x, 0 ≤ (sq x).1) (w limit : F64)
    (hl : limit = .nan ∨ limit = .inf false) (E : Env)
    (hg : UserGraph E.graph) (hord : ∀ l, (E.ord l).Perm l) (s d : Coord) (allow : Bool) (N : Net)
    (c : Correction) (hp : prepare E s d allow = .ok (.inr (N, c))) (r : Res (List Coord))
    (h : Query (anyArith sq w limit) E s d allow r) :
    r = .error .exn ↔ ¬ ∃ route, IsWalk (RouteEdge E c) c.src c.dst route :=
  C46_unlimited _ (any_sound sq hsq w limit)
    (fun d => by rcases hl with rfl | rfl <;> rfl) E hg hord s d allow N c hp r h

/-- **C69** A negative limit makes every search between different endpoints fail. -/
theorem C69_negative (sq : ℚ → Dbl) (hsq : ∀ x, 0 ≤ (sq x).1) (w limit : F64)
    (hl : limit = .inf true ∨ ∃ q < 0, limit = .fin q) (E : Env)
    (hg : UserGraph E.graph) (hord : ∀ l, (E.ord l).Perm l) (s d : Coord) (allow : Bool) (N : Net)
    (c : Correction) (hp : prepare E s d allow = .ok (.inr (N, c))) (hne : c.src ≠ c.dst)
    (r : Res (List Coord)) (h : Query (anyArith sq w limit) E s d allow r) : r = .error .exn := by
  refine (C46_failure _ (any_sound sq hsq w limit) E hg hord s d allow N c hp).2 ?_ r h
  rintro ⟨route, hr, hover⟩
  have hov : ∀ x : Dbl, 0 ≤ x.1 → (anyArith sq w limit).over x = true := by
    intro x hx
    rcases hl with rfl | ⟨q, hq, rfl⟩
    · rfl
    · exact decide_eq_true (lt_of_lt_of_le hq hx)
  have hmin : ∀ x y : Dbl, 0 ≤ x.1 → 0 ≤ y.1 → 0 ≤ (min x y).1 := by
    intro x y hx hy
    rcases min_choice x y with h | h <;> rw [h] <;> assumption
  have hdist : ∀ v b, 0 ≤ (distance (anyArith sq w limit) c.src v b).1 := by
    intro v b
    unfold distance
    split_ifs
    · exact hmin _ _ (hsq _) (hsq _)
    · exact hsq _
  obtain ⟨h1, h2, -⟩ := hr
  cases route with
  | nil => cases h1
  | cons a rest =>
    cases rest with
    | nil =>
      injection h1 with h1
      injection h2 with h2
      exact hne (h1.symm.trans h2)
    | cons b rest =>
      have := hover b (List.mem_cons_self ..)
      unfold heuristic at this
      rw [hov _ (hmin _ _ (hdist _ _) (hdist _ _))] at this
      cases this

/-! ### The distances stay in the normal range -/

theorem magSq_fits (a : Coord) (ha : a.I32) : Fits 144 (2 ^ 25) a.magSqDeg := by
  obtain ⟨-, x2⟩ := prod_fits ha.1 ha.1
  obtain ⟨-, y2⟩ := prod_fits ha.2 ha.2
  have := (add_fits x2 y2 (by norm_num) (by norm_num) fl_twice).2
  norm_num at this ⊢
  exact this

theorem magSqDeg_nonneg (a : Coord) : 0 ≤ a.magSqDeg := by
  unfold Coord.magSqDeg
  have : ∀ {x : ℚ}, 0 ≤ x → 0 ≤ fl x := fun h => by have := fl_mono h; rwa [fl_zero] at this
  exact this (add_nonneg (this (mul_self_nonneg _)) (this (mul_self_nonneg _)))

theorem mag_fits (sq : ℚ → Dbl) (hsq : SqrtOk fun x => (sq x).1) (a : Coord) (ha : a.I32) :
    Fits 125 (2 ^ 13) (sq a.magSqDeg).1 := by
  obtain ⟨hg, hb⟩ := magSq_fits a ha
  have hnn : 0 ≤ a.magSqDeg := magSqDeg_nonneg a
  rcases hnn.eq_or_lt with h0 | h0
  · have : (sq 0).1 = 0 := hsq.zero
    rw [← h0, this]
    exact ⟨⟨0, by simp⟩, by norm_num⟩
  have hlow := hg.le_abs h0.ne'
  rw [abs_of_pos h0] at hlow hb
  have hs : 0 < (sq a.magSqDeg).1 := hsq.pos _ h0
  have hc : |(sq a.magSqDeg).1 * (sq a.magSqDeg).1 - a.magSqDeg| ≤ a.magSqDeg / 2 ^ 51 :=
    hsq.close _ h0
  rw [abs_le] at hc
  generalize hS : (sq a.magSqDeg).1 = S at hs hc
  have hfl : fl S = S := hS ▸ (sq a.magSqDeg).2
  have hq : a.magSqDeg / 2 ^ 51 ≤ a.magSqDeg / 2 := by
    apply div_le_div_of_nonneg_left hnn (by norm_num) (by norm_num)
  constructor
  · refine grid_of_fl (e := -73) hfl ?_ (by norm_num)
    rw [abs_of_pos hs, show ((2 : ℚ) ^ (-73 : ℤ)) = 1 / 2 ^ 73 by
      rw [zpow_neg, one_div, ← zpow_natCast]; norm_num]
    by_contra hlt
    push Not at hlt
    have : S * S < 1 / 2 ^ 73 * (1 / 2 ^ 73) := by nlinarith
    norm_num at this hlow
    linarith
  · rw [abs_of_pos hs]
    by_contra hlt
    push Not at hlt
    have : (2 : ℚ) ^ 13 * 2 ^ 13 < S * S := by nlinarith
    norm_num at this hb
    linarith

/-- **C69** The length of any route of at most `2^53` steps, added up as the code does, is finite,
and the one the search is modelled with. -/
theorem C69_distances (sq : ℚ → Dbl) (hsq : SqrtOk fun x => (sq x).1) (w limit : F64)
    (steps : List Coord) (hI : ∀ c ∈ steps, c.I32) (hlen : steps.length ≤ 2 ^ 53) :
    length64 sq steps = .fin (lengthOf (anyArith sq w limit) steps).1 ∧
    Fits 125 (2 ^ 66) (lengthOf (anyArith sq w limit) steps).1 := by
  have main : length64 sq steps = .fin (lengthOf (anyArith sq w limit) steps).1 ∧
      Fits 125 (steps.length * 2 ^ 13) (lengthOf (anyArith sq w limit) steps).1 := by
    unfold length64 lengthOf
    induction steps using List.reverseRecOn with
    | nil =>
      have : (anyArith sq w limit).zero.1 = 0 := fl_zero
      simp only [List.foldl_nil, this]
      exact ⟨trivial, ⟨⟨0, by simp⟩, by simp⟩⟩
    | append_singleton l c ih =>
      rw [List.length_append, List.length_singleton] at hlen
      obtain ⟨h1, h2⟩ := ih (fun c hc => hI c (List.mem_append_left _ hc)) (by omega)
      rw [List.foldl_append, List.foldl_append, h1]
      simp only [List.foldl_cons, List.foldl_nil]
      have h3 := mag_fits sq hsq c (hI c (by simp))
      have hle : ((l.length + 1 : ℕ) : ℚ) ≤ 2 ^ 53 := by exact_mod_cast hlen
      have e : (l.length : ℚ) * 2 ^ 13 + 2 ^ 13 = ((l.length + 1 : ℕ) : ℚ) * 2 ^ 13 := by
        push_cast; ring
      have := add_fits h2 h3 (by norm_num)
        (by rw [e]
            calc _ ≤ (2 : ℚ) ^ 53 * 2 ^ 13 := by gcongr
              _ ≤ _ := by norm_num)
        (by rw [e]
            have := fl_exact (l.length + 1 : ℕ) 13
              (by rw [abs_of_nonneg (by positivity)]; exact_mod_cast hlen)
            exact_mod_cast this)
      rw [e] at this
      rw [List.length_append, List.length_singleton]
      exact this
  refine ⟨main.1, main.2.mono ?_⟩
  have hle : (steps.length : ℚ) ≤ 2 ^ 53 := by exact_mod_cast hlen
  calc _ ≤ (2 : ℚ) ^ 53 * 2 ^ 13 := by gcongr
    _ = _ := by norm_num

/-- **C69** With lengths of that size and weightings between `2^-800` and `2^900`, or zero, the
priorities stay in the normal range, so `C69_agrees` applies. -/
theorem C69_weights (d h : Dbl) (w : Dbl) (hd : Fits 125 (2 ^ 66) d.1) (hh : Fits 125 (2 ^ 66) h.1)
    (d0 : 0 ≤ d.1) (h0 : 0 ≤ h.1)
    (hw : w.1 = 0 ∨ ((2 : ℚ) ^ (-800 : ℤ) ≤ w.1 ∧ w.1 ≤ 2 ^ (900 : ℤ))) :
    Normal (h.1 * w.1) ∧ Normal (d.1 + fl (h.1 * w.1)) := by
  have hdn : Normal d.1 := hd.normal (by norm_num) (big_le (by norm_num))
  by_cases hz : h.1 * w.1 = 0
  · rw [hz, fl_zero, add_zero]
    exact ⟨Or.inl rfl, hdn⟩
  have hw' := hw.resolve_left fun h => hz (by rw [h, mul_zero])
  have hh0 : h.1 ≠ 0 := fun h => hz (by rw [h, zero_mul])
  have hl := hh.1.le_abs hh0
  have hu := hh.2
  rw [abs_of_nonneg h0] at hl hu
  have wpos : 0 < w.1 := lt_of_lt_of_le (by positivity) hw'.1
  have lo : (2 : ℚ) ^ (-925 : ℤ) ≤ h.1 * w.1 := by
    have : (2 : ℚ) ^ (-925 : ℤ) = 1 / 2 ^ 125 * 2 ^ (-800 : ℤ) := by
      rw [show (-925 : ℤ) = -(125 : ℕ) + -800 by norm_num, zpow_add₀ (by norm_num), zpow_neg,
        zpow_natCast, one_div]
    rw [this]
    exact mul_le_mul hl hw'.1 (by positivity) h0
  have hi : h.1 * w.1 ≤ (2 : ℚ) ^ (966 : ℤ) := by
    have : (2 : ℚ) ^ (966 : ℤ) = 2 ^ 66 * 2 ^ (900 : ℤ) := by
      rw [show (966 : ℤ) = (66 : ℕ) + 900 by norm_num, zpow_add₀ (by norm_num), zpow_natCast]
    rw [this]
    exact mul_le_mul hu hw'.2 wpos.le (by positivity)
  have flo := fl_mono lo
  have fhi := fl_mono hi
  rw [fl_pow2] at flo fhi
  have p925 : (0 : ℚ) < 2 ^ (-925 : ℤ) := by positivity
  have small : (2 : ℚ) ^ (-1022 : ℤ) ≤ 2 ^ (-925 : ℤ) :=
    zpow_le_zpow_right₀ (by norm_num) (by norm_num)
  have big : (2 : ℚ) ^ (966 : ℤ) ≤ 2 ^ (1022 : ℤ) :=
    zpow_le_zpow_right₀ (by norm_num) (by norm_num)
  have big2 : (2 : ℚ) ^ (1023 : ℤ) = 2 ^ (1022 : ℤ) + 2 ^ (1022 : ℤ) := by
    rw [show (1023 : ℤ) = 1022 + 1 by norm_num, zpow_add₀ (by norm_num), zpow_one, mul_two]
  have big3 : (2 : ℚ) ^ (966 : ℤ) ≤ 2 ^ (1023 : ℤ) :=
    zpow_le_zpow_right₀ (by norm_num) (by norm_num)
  have hd2 : d.1 ≤ 2 ^ (1022 : ℤ) := by
    refine (le_abs_self _).trans (hd.2.trans ?_)
    rw [← zpow_natCast]
    exact zpow_le_zpow_right₀ (by norm_num) (by norm_num)
  constructor
  · refine Or.inr ?_
    rw [abs_of_pos (p925.trans_le lo)]
    exact ⟨small.trans lo, hi.trans big3⟩
  · refine Or.inr ?_
    rw [abs_of_pos (add_pos_of_nonneg_of_pos d0 (p925.trans_le flo))]
    refine ⟨small.trans (flo.trans (le_add_of_nonneg_left d0)), ?_⟩
    rw [big2]
    exact add_le_add hd2 (fhi.trans big)

/-! ### Weightings that are no finite number -/

/-- The search of the example `exEnv` with any weighting and no limit. -/
def exAny (sq : ℚ → Dbl) (w : F64) : AStar.Problem Coord Dbl :=
  problem (anyArith sq w .nan) exEnv.ord (.base exGraph) exS exT

theorem exAny_new (sq : ℚ → Dbl) (w : F64) (e : AStar.Entry Coord Dbl) (s : AStar.State Coord Dbl)
    (n : Coord) (hs : s.dist n = none) :
    AStar.relaxOne (exAny sq w) e s n =
      { pq := ⟨n, (exAny sq w).add e.dist ((exAny sq w).len e.node n)⟩ :: s.pq
        prev := fun x => if x = n then some e.node else s.prev x
        dist := fun x => if x = n then
          some ((exAny sq w).add e.dist ((exAny sq w).len e.node n)) else s.dist x } := by
  unfold AStar.relaxOne AStar.known
  rw [hs]
  rfl

/-- **C69** With a weighting that is NaN or infinite the queue is not ordered: a path of 12° may be
returned although there is a route of 8°, whatever the square root. -/
theorem C69_order_false (sq : ℚ → Dbl) (w : F64) (hw : ∀ q, w ≠ .fin q) :
    ¬ ∀ (E : Env) (s d : Coord) (allow : Bool) (N : Net) (c : Correction)
        (path route : List Coord), UserGraph E.graph → (∀ l, (E.ord l).Perm l) →
      prepare E s d allow = .ok (.inr (N, c)) → InRange E c →
      Query (anyArith sq w .nan) E s d allow (.ok path) →
      IsWalk (RouteEdge E c) c.src c.dst route →
      walkLength (legLength E) path ≤ walkLength (legLength E) route := by
  intro hall
  have hconst : ∀ d v, (exAny sq w).prio d v = Dbl.round 0 := by
    intro d v
    cases w with
    | fin q => exact absurd rfl (hw q)
    | nan => rfl
    | inf s => rfl
  have htop : ∀ {l : List (AStar.Entry Coord Dbl)} {e}, e ∈ l → AStar.IsTop (exAny sq w) l e :=
    fun he => ⟨he, fun x _ => by rw [hconst, hconst]; exact lt_irrefl _⟩
  have hq : Query (anyArith sq w .nan) exEnv exS exT false (.ok [exS, exB, exT]) := by
    rw [query_inr exPrepare]
    change AStar.Outcome (exAny sq w) _
    have e0 : AStar.Exec (exAny sq w) 0 (AStar.init (exAny sq w)) := .init
    have e1 := AStar.Exec.step e0 (htop (e := ⟨exS, (exAny sq w).zero⟩) (List.mem_singleton.2 rfl))
      (by decide : exS ≠ exT)
    have hn : (exAny sq w).nbrs exS = [exA, exB] := rfl
    have hn' : (exAny sq w).nbrs exB = [exS, exT] := rfl
    unfold AStar.relax at e1
    rw [hn, List.foldl_cons, List.foldl_cons, List.foldl_nil, exAny_new _ _ _ _ exA rfl,
      exAny_new _ _ _ _ exB rfl] at e1
    have e2 := AStar.Exec.step e1 (htop (List.mem_cons_self ..)) (by decide : exB ≠ exT)
    unfold AStar.relax at e2
    rw [hn', List.foldl_cons, List.foldl_cons, List.foldl_nil, exAny_new _ _ _ _ exS rfl,
      exAny_new _ _ _ _ exT rfl] at e2
    exact ⟨_, 3, .ok [exT, exB, exS], AStar.Ends.found e2 (htop (List.mem_cons_self ..)) rfl, rfl,
      rfl⟩
  have := hall exEnv exS exT false _ _ _ _ exGraph_user (fun l => List.Perm.refl l) exPrepare
    exRange hq (exRoute exA rfl rfl)
  rw [exLength_a, exLength_b] at this
  norm_num at this

/-! ### Examples -/

/-- With weighting 2 the entry nearer to the destination comes first, with NaN and infinity none. -/
example : compare64 (.fin 2) (.fin 1, .fin 9) (.fin 8, .fin 1) = true ∧
    compare64 (.fin 2) (.fin 8, .fin 1) (.fin 1, .fin 9) = false ∧
    compare64 .nan (.fin 1, .fin 9) (.fin 8, .fin 1) = false ∧
    compare64 (.inf false) (.fin 1, .fin 9) (.fin 8, .fin 0) = false := by decide +kernel

/-- The search of `exEnv` succeeds without limit and fails with limit −1, whatever the weighting. -/
example (w : F64) : ∃ sq : ℚ → Dbl, (∃ path, Query (anyArith sq w .nan) exEnv exS exT false
      (.ok path)) ∧
    ∀ r, Query (anyArith sq w (.fin (-1))) exEnv exS exT false r → r = .error .exn := by
  obtain ⟨sq, -, h0⟩ := exists_sqrt_dbl
  have hord : ∀ l, (exEnv.ord l).Perm l := fun l => List.Perm.refl l
  refine ⟨sq, ?_, fun r hr => C69_negative sq h0 w _ (Or.inr ⟨-1, by norm_num, rfl⟩) exEnv
    exGraph_user hord exS exT false _ _ exPrepare (by decide) r hr⟩
  obtain ⟨⟨r, hr⟩, -⟩ := C69_path sq h0 w .nan exEnv exGraph_user hord exS exT false
  obtain ⟨p, rfl⟩ := (C46_failure _ (any_sound sq h0 w .nan) exEnv exGraph_user hord _ _ _ _ _
    exPrepare).1 ⟨_, exRoute exA rfl rfl, fun _ _ => rfl⟩ r hr
  exact ⟨p, hr⟩

/-- Lengths and weightings as in `C69_weights`. -/
example : Fits 125 (2 ^ 66) (Dbl.round 3).1 ∧ (2 : ℚ) ^ (-800 : ℤ) ≤ (Dbl.round 1).1 := by
  have h3 : fl 3 = 3 := by exact_mod_cast fl_int 3 (by norm_num)
  have h1 : fl 1 = 1 := by exact_mod_cast fl_int 1 (by norm_num)
  refine ⟨?_, ?_⟩
  · show Fits _ _ (fl 3)
    rw [h3]
    exact ⟨⟨3 * 2 ^ 125, by norm_num⟩, by norm_num⟩
  · show _ ≤ fl 1
    rw [h1, ← zpow_zero (2 : ℚ)]
    exact zpow_le_zpow_right₀ (by norm_num) (by norm_num)

end Capi
