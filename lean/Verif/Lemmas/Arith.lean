import Verif.Model.Segment
import Verif.Lemmas.Float64

/-! # No-overflow lemmas and rounding lemmas for coordinates -/

namespace Capi

theorem abs_mul_le {x y A B : ℤ} (hx : |x| ≤ A) (hy : |y| ≤ B) : |x * y| ≤ A * B := by
  rw [abs_mul]
  exact mul_le_mul hx hy (abs_nonneg _) ((abs_nonneg _).trans hx)

theorem abs_det_le {x y z w A B C D : ℤ} (hx : |x| ≤ A) (hy : |y| ≤ B) (hz : |z| ≤ C)
    (hw : |w| ≤ D) : |x * y - z * w| ≤ A * B + C * D := by
  have h1 := abs_mul_le hx hy
  have h2 := abs_mul_le hz hw
  have := abs_sub (x * y) (z * w)
  omega

theorem abs_sum_le {x y z w A B C D : ℤ} (hx : |x| ≤ A) (hy : |y| ≤ B) (hz : |z| ≤ C)
    (hw : |w| ≤ D) : |x * y + z * w| ≤ A * B + C * D := by
  have h1 := abs_mul_le hx hy
  have h2 := abs_mul_le hz hw
  have := abs_add_le (x * y) (z * w)
  omega

theorem fits64_of_abs {x : ℤ} (h : |x| ≤ 9223372036854775807) : FitsI64 x := by
  rw [abs_le] at h; exact ⟨by omega, h.2⟩

/-- Difference vectors of periodic coordinates. -/
def Coord.Vec (c : Coord) : Prop := |c.lon| ≤ 1080000002 ∧ |c.lat| ≤ 180000000

instance (c : Coord) : Decidable c.Vec := by unfold Coord.Vec; infer_instance

theorem Coord.Per.vec_sub {a b : Coord} (ha : a.Per) (hb : b.Per) : (a.sub b).Vec := by
  simp only [Coord.Per, Coord.Vec, Coord.sub, Coord.add, Coord.neg, abs_le] at *
  omega

theorem Coord.Geo.per {c : Coord} (h : c.Geo) : c.Per := by
  simp only [Coord.Geo, Coord.Per] at *; omega

theorem Coord.Per.wf {c : Coord} (h : c.Per) : c.Wf := by
  simp only [Coord.Per, Coord.Wf, FitsI32] at *; omega

theorem Coord.subC_ok {a b : Coord} (ha : a.Per) (hb : b.Per) : a.subC b = .ok (a.sub b) := by
  simp only [Coord.Per] at ha hb
  unfold Coord.subC Coord.negC Coord.addC Coord.sub Coord.add Coord.neg
  rw [chk32_ok (by simp only [FitsI32]; omega), chk32_ok (by simp only [FitsI32]; omega)]
  simp only [Res.bind_ok, Res.pure_eq]
  rw [chk32_ok (by simp only [FitsI32]; omega), chk32_ok (by simp only [FitsI32]; omega)]
  rfl

theorem Coord.crossC_ok {a b : Coord} (ha : a.Vec) (hb : b.Vec) :
    a.crossC b = .ok (a.cross b) := by
  have h1 := abs_mul_le ha.1 hb.2
  have h2 := abs_mul_le hb.1 ha.2
  have h3 := abs_det_le ha.1 hb.2 hb.1 ha.2
  unfold Coord.crossC Coord.cross
  rw [chk64_ok (fits64_of_abs (by omega)), chk64_ok (fits64_of_abs (by omega))]
  simp only [Res.bind_ok]
  rw [chk64_ok (fits64_of_abs (by omega))]

theorem Coord.dotC_ok {a b : Coord} (ha : a.Vec) (hb : b.Vec) :
    a.dotC b = .ok (a.dot b) := by
  have h1 := abs_mul_le ha.1 hb.1
  have h2 := abs_mul_le ha.2 hb.2
  have h3 := abs_sum_le ha.1 hb.1 ha.2 hb.2
  unfold Coord.dotC Coord.dot
  rw [chk64_ok (fits64_of_abs (by omega)), chk64_ok (fits64_of_abs (by omega))]
  simp only [Res.bind_ok]
  rw [chk64_ok (fits64_of_abs (by omega))]

theorem Coord.magSqC_ok {a : Coord} (ha : a.Vec) : a.magSqC = .ok a.magSq := by
  have h1 := abs_mul_le ha.1 ha.1
  have h2 := abs_mul_le ha.2 ha.2
  have h3 := abs_sum_le ha.1 ha.1 ha.2 ha.2
  unfold Coord.magSqC Coord.magSq
  rw [chk64_ok (fits64_of_abs (by omega)), chk64_ok (fits64_of_abs (by omega))]
  simp only [Res.bind_ok]
  rw [chk64_ok (fits64_of_abs (by omega))]

theorem Coord.orientC_ok {a b : Coord} (ha : a.Vec) (hb : b.Vec) :
    a.orientC b = .ok (a.orient b) := by
  unfold Coord.orientC; rw [Coord.crossC_ok ha hb]; rfl

theorem Seg.orientPtC_ok {s : Seg} {c : Coord} (hp : s.p.Per) (hq : s.q.Per) (hc : c.Per) :
    s.orientPtC c = .ok (s.orientPt c) := by
  simp only [Coord.Per] at *
  have a1 : |s.q.lon - s.p.lon| ≤ 1080000002 := by rw [abs_le]; omega
  have a2 : |c.lat - s.p.lat| ≤ 180000000 := by rw [abs_le]; omega
  have a3 : |s.q.lat - s.p.lat| ≤ 180000000 := by rw [abs_le]; omega
  have a4 : |c.lon - s.p.lon| ≤ 1080000002 := by rw [abs_le]; omega
  have h1 := abs_mul_le a1 a2
  have h2 := abs_mul_le a3 a4
  have h3 := abs_det_le a1 a2 a3 a4
  unfold Seg.orientPtC Seg.orientPt Seg.signedArea
  rw [chk64_ok (fits64_of_abs (by omega)), chk64_ok (fits64_of_abs (by omega)),
    chk64_ok (fits64_of_abs (by omega)), chk64_ok (fits64_of_abs (by omega))]
  simp only [Res.bind_ok]
  rw [chk64_ok (fits64_of_abs (by omega)), chk64_ok (fits64_of_abs (by omega))]
  simp only [Res.bind_ok]
  rw [chk64_ok (fits64_of_abs (by omega))]
  rfl

theorem Seg.onSegmentC_ok {s : Seg} {c : Coord} (hp : s.p.Per) (hq : s.q.Per) (hc : c.Per) :
    s.onSegmentC c = .ok (s.onSegment c) := by
  unfold Seg.onSegmentC Seg.onSegment
  rw [Seg.orientPtC_ok hp hq hc]; rfl

/-! ### Rounding to integers -/

theorem roundHalfAway_err (x : ℚ) : |(roundHalfAway x : ℚ) - x| ≤ 1 / 2 := by
  unfold roundHalfAway
  rw [abs_le]
  split_ifs with h
  · have h1 := Int.floor_le (x + 1 / 2)
    have h2 := Int.lt_floor_add_one (x + 1 / 2)
    constructor <;> linarith
  · have h1 := Int.le_ceil (x - 1 / 2)
    have h2 := Int.ceil_lt_add_one (x - 1 / 2)
    constructor <;> linarith

theorem roundHalfAway_eq_of_close {x : ℚ} {n : ℤ} (h : |x - n| < 1 / 2) : roundHalfAway x = n := by
  have h1 := abs_le.1 (roundHalfAway_err x)
  have h2 := abs_lt.1 h
  have h3 : ((roundHalfAway x : ℤ) : ℚ) < n + 1 := by linarith
  have h4 : (n : ℚ) - 1 < (roundHalfAway x : ℤ) := by linarith
  have h3' : roundHalfAway x < n + 1 := by exact_mod_cast h3
  have h4' : n - 1 < roundHalfAway x := by exact_mod_cast h4
  omega

theorem roundHalfAway_neg (x : ℚ) : roundHalfAway (-x) = - roundHalfAway x := by
  unfold roundHalfAway
  rcases lt_trichotomy x 0 with h | h | h
  · rw [if_pos (by linarith), if_neg (by linarith), ← Int.floor_neg]; congr 1; ring
  · subst h; norm_num
  · rw [if_neg (by linarith), if_pos (by linarith), ← Int.ceil_neg]; congr 1; ring

theorem roundHalfAway_mono {x y : ℚ} (h : x ≤ y) : roundHalfAway x ≤ roundHalfAway y := by
  unfold roundHalfAway
  split_ifs with h1 h2 h2
  · exact Int.floor_le_floor (by linarith)
  · exfalso; linarith
  · have a : ⌈x - 1 / 2⌉ ≤ 0 := by rw [Int.ceil_le]; push_cast; linarith
    have b : 0 ≤ ⌊y + 1 / 2⌋ := by rw [Int.le_floor]; push_cast; linarith
    omega
  · exact Int.ceil_le_ceil (by linarith)

theorem roundHalfAway_int (n : ℤ) : roundHalfAway n = n := by
  apply roundHalfAway_eq_of_close; simp

/-- Scaling an integer by a factor in `[0,1]` stays between 0 and the integer. -/
theorem scale_between (n : ℤ) (hn : |n| ≤ 2 ^ 53) {t : ℚ} (h0 : 0 ≤ t) (h1 : t ≤ 1) :
    min 0 n ≤ roundHalfAway (fl (n * t)) ∧ roundHalfAway (fl (n * t)) ≤ max 0 n := by
  have hfn := fl_int n hn
  rcases le_total 0 n with hpos | hneg
  · have hq : (0 : ℚ) ≤ n := by exact_mod_cast hpos
    have l1 : (0 : ℚ) ≤ n * t := mul_nonneg hq h0
    have l2 : (n : ℚ) * t ≤ n := by nlinarith
    have m1 := roundHalfAway_mono (fl_mono l1)
    have m2 := roundHalfAway_mono (fl_mono l2)
    rw [fl_zero] at m1; rw [hfn, roundHalfAway_int] at m2
    have m0 := roundHalfAway_int 0
    simp only [Int.cast_zero] at m0
    rw [m0] at m1
    rw [min_eq_left hpos, max_eq_right hpos]; exact ⟨m1, m2⟩
  · have hq : (n : ℚ) ≤ 0 := by exact_mod_cast hneg
    have l1 : (n : ℚ) * t ≤ 0 := mul_nonpos_of_nonpos_of_nonneg hq h0
    have l2 : (n : ℚ) ≤ n * t := by nlinarith
    have m1 := roundHalfAway_mono (fl_mono l1)
    have m2 := roundHalfAway_mono (fl_mono l2)
    rw [fl_zero] at m1; rw [hfn, roundHalfAway_int] at m2
    have m0 := roundHalfAway_int 0
    simp only [Int.cast_zero] at m0
    rw [m0] at m1
    rw [min_eq_right hneg, max_eq_left hneg]; exact ⟨m2, m1⟩

/-! ### The intersection parameter -/

theorem rejects_false_iff {D X Y : ℤ} (hD : D ≠ 0) :
    Seg.rejects D X Y = false ↔
      (0 ≤ (X : ℚ) / D ∧ (X : ℚ) / D ≤ 1) ∧ (0 ≤ (Y : ℚ) / D ∧ (Y : ℚ) / D ≤ 1) := by
  have key : ∀ Z : ℤ, (0 ≤ (Z : ℚ) / D ∧ (Z : ℚ) / D ≤ 1) ↔
      ((0 < D ∧ 0 ≤ Z ∧ Z ≤ D) ∨ (D < 0 ∧ Z ≤ 0 ∧ D ≤ Z)) := by
    intro Z
    rcases lt_or_gt_of_ne hD with h | h
    · have hq : (D : ℚ) < 0 := by exact_mod_cast h
      rw [div_nonneg_iff, div_le_one_of_neg hq]
      constructor
      · rintro ⟨h1, h2⟩
        right
        refine ⟨h, ?_, by exact_mod_cast h2⟩
        rcases h1 with h1 | h1
        · exact absurd h1.2 (not_le.2 hq)
        · exact_mod_cast h1.1
      · rintro (⟨h1, _⟩ | ⟨_, h2, h3⟩)
        · omega
        · exact ⟨Or.inr ⟨by exact_mod_cast h2, hq.le⟩, by exact_mod_cast h3⟩
    · have hq : (0 : ℚ) < D := by exact_mod_cast h
      rw [div_nonneg_iff, div_le_one hq]
      constructor
      · rintro ⟨h1, h2⟩
        left
        refine ⟨h, ?_, by exact_mod_cast h2⟩
        rcases h1 with h1 | h1
        · exact_mod_cast h1.1
        · exact absurd h1.2 (not_le.2 hq)
      · rintro (⟨_, h2, h3⟩ | ⟨h1, _⟩)
        · exact ⟨Or.inl ⟨by exact_mod_cast h2, hq.le⟩, by exact_mod_cast h3⟩
        · omega
  rw [key, key]
  unfold Seg.rejects
  simp only [Bool.or_eq_false_iff, Bool.not_eq_false', Bool.or_eq_true, Bool.and_eq_true,
    decide_eq_true_eq, decide_eq_false_iff_not, not_lt]
  rcases abs_cases D with ⟨e1, h1⟩ | ⟨e1, h1⟩ <;> rcases abs_cases X with ⟨e2, h2⟩ | ⟨e2, h2⟩ <;>
    rcases abs_cases Y with ⟨e3, h3⟩ | ⟨e3, h3⟩ <;> rw [e1, e2, e3] <;> omega

theorem param_range {D X : ℤ} (h0 : 0 ≤ (X : ℚ) / D) (h1 : (X : ℚ) / D ≤ 1) :
    0 ≤ Seg.param D X ∧ Seg.param D X ≤ 1 := by
  unfold Seg.param
  have hone : fl 1 = 1 := by simpa using fl_int 1 (by norm_num)
  suffices h : 0 ≤ fl (X : ℚ) / fl D ∧ fl (X : ℚ) / fl D ≤ 1 by
    constructor
    · have := fl_mono h.1; rwa [fl_zero] at this
    · have := fl_mono h.2; rwa [hone] at this
  rcases lt_trichotomy (D : ℚ) 0 with hD | hD | hD
  · have hfD := fl_neg_of_neg hD
    rw [div_le_one_of_neg hD] at h1
    rw [le_div_iff_of_neg hD] at h0
    constructor
    · rw [le_div_iff_of_neg hfD]; simp only [zero_mul] at *
      have := fl_mono h0; rwa [fl_zero] at this
    · rw [div_le_one_of_neg hfD]; exact fl_mono h1
  · rw [hD, fl_zero]; simp
  · have hfD := fl_pos hD
    rw [div_le_one hD] at h1
    rw [le_div_iff₀ hD] at h0
    constructor
    · rw [le_div_iff₀ hfD]; simp only [zero_mul] at *
      have := fl_mono h0; rwa [fl_zero] at this
    · rw [div_le_one hfD]; exact fl_mono h1

/-- The intersection point lies in the bounding box of the first segment. -/
theorem Seg.intersect_box {s t : Seg} (hp : s.p.Per) (hq : s.q.Per) {r : Coord}
    (h : s.intersect t = some r) :
    min s.p.lon s.q.lon ≤ r.lon ∧ r.lon ≤ max s.p.lon s.q.lon ∧
    min s.p.lat s.q.lat ≤ r.lat ∧ r.lat ≤ max s.p.lat s.q.lat := by
  unfold Seg.intersect at h
  split_ifs at h with h1 h2
  · unfold Seg.sharedEndpoint at h
    split_ifs at h <;> simp only [Option.some.injEq] at h <;> subst h <;> omega
  · simp only [Option.some.injEq] at h
    subst h
    rw [Bool.not_eq_true, rejects_false_iff h1] at h2
    have ht := param_range h2.1.1 h2.1.2
    have hv := Coord.Per.vec_sub hq hp
    have e1 := scale_between (s.q.sub s.p).lon (by have := hv.1; omega) ht.1 ht.2
    have e2 := scale_between (s.q.sub s.p).lat (by have := hv.2; omega) ht.1 ht.2
    simp only [Coord.add, Coord.scale] at *
    simp only [Coord.sub, Coord.add, Coord.neg] at *
    omega

theorem det64_ok {x y z w A B C D : ℤ} (hx : |x| ≤ A) (hy : |y| ≤ B) (hz : |z| ≤ C)
    (hw : |w| ≤ D) (h1 : A * B ≤ 9223372036854775807) (h2 : C * D ≤ 9223372036854775807)
    (h3 : A * B + C * D ≤ 9223372036854775807) :
    Seg.det64 x y z w = .ok (x * y - z * w) := by
  have e1 := abs_mul_le hx hy
  have e2 := abs_mul_le hz hw
  have e3 := abs_det_le hx hy hz hw
  unfold Seg.det64
  rw [chk64_ok (fits64_of_abs (by omega)), chk64_ok (fits64_of_abs (by omega))]
  simp only [Res.bind_ok]
  rw [chk64_ok (fits64_of_abs (by omega))]

theorem Seg.intersectC_ok {s t : Seg} (h1 : s.p.Per) (h2 : s.q.Per) (h3 : t.p.Per)
    (h4 : t.q.Per) : s.intersectC t = .ok (s.intersect t) := by
  have vn := Coord.Per.vec_sub h2 h1
  have vm := Coord.Per.vec_sub h3 h4
  have vp := Coord.Per.vec_sub h3 h1
  have bD := abs_det_le vn.1 vm.2 vn.2 vm.1
  have bX := abs_det_le vm.2 vp.1 vm.1 vp.2
  have bY := abs_det_le vn.1 vp.2 vn.2 vp.1
  unfold Seg.intersectC
  rw [Coord.subC_ok h2 h1, Coord.subC_ok h3 h4, Coord.subC_ok h3 h1]
  simp only [Res.bind_ok]
  rw [det64_ok vn.1 vm.2 vn.2 vm.1 (by norm_num) (by norm_num) (by norm_num),
    det64_ok vm.2 vp.1 vm.1 vp.2 (by norm_num) (by norm_num) (by norm_num),
    det64_ok vn.1 vp.2 vn.2 vp.1 (by norm_num) (by norm_num) (by norm_num)]
  simp only [Res.bind_ok, Res.pure_eq]
  rw [chk64_ok (fits64_of_abs (by rw [abs_abs]; omega)),
    chk64_ok (fits64_of_abs (by rw [abs_abs]; omega)),
    chk64_ok (fits64_of_abs (by rw [abs_abs]; omega))]
  simp only [Res.bind_ok]
  change (if s.detD t = 0 then _ else if Seg.rejects (s.detD t) (s.detX t) (s.detY t) = true
    then _ else _) = _
  by_cases hD : s.detD t = 0
  · rw [if_pos hD]; unfold Seg.intersect; rw [if_pos hD]
  rw [if_neg hD]
  by_cases hr : Seg.rejects (s.detD t) (s.detX t) (s.detY t) = true
  · rw [if_pos hr]; unfold Seg.intersect; rw [if_neg hD, if_pos hr]
  rw [if_neg hr]
  have hi : s.intersect t = some (s.p.add ((s.q.sub s.p).scale
      (Seg.param (s.detD t) (s.detX t)))) := by
    unfold Seg.intersect; rw [if_neg hD, if_neg hr]
  rw [hi]
  have hb := Seg.intersect_box h1 h2 hi
  rw [Bool.not_eq_true, rejects_false_iff hD] at hr
  have ht := param_range hr.1.1 hr.1.2
  have e1 := scale_between (s.q.sub s.p).lon (by have := vn.1; omega) ht.1 ht.2
  have e2 := scale_between (s.q.sub s.p).lat (by have := vn.2; omega) ht.1 ht.2
  have vn1 := abs_le.1 vn.1
  have vn2 := abs_le.1 vn.2
  change (Coord.scaleC _ (Seg.param (s.detD t) (s.detX t)) >>= _) = _
  unfold Coord.scaleC
  rw [chk32_ok (by simp only [FitsI32]; omega), chk32_ok (by simp only [FitsI32]; omega)]
  simp only [Res.bind_ok, Res.pure_eq]
  unfold Coord.addC
  simp only [Coord.Per] at h1 h2
  simp only [Coord.add, Coord.scale] at hb
  rw [chk32_ok (by simp only [FitsI32]; omega), chk32_ok (by simp only [FitsI32]; omega)]
  rfl

end Capi
