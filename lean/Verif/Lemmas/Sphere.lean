import Verif.Lemmas.Float64
import Verif.Spec.Libm
import Verif.Spec.Sphere
import Mathlib.Analysis.Real.Pi.Bounds

/-!
# Relative errors and angles
-/

namespace Capi

namespace Sphere

/-- `a` is `b` up to a relative error. -/
def Rel (ε a b : ℝ) : Prop := |a - b| ≤ ε * |b|

theorem Rel.mono {ε ε' a b : ℝ} (h : Rel ε a b) (he : ε ≤ ε') : Rel ε' a b :=
  le_trans h (mul_le_mul_of_nonneg_right he (abs_nonneg b))

theorem Rel.abs_le {ε a b : ℝ} (h : Rel ε a b) : |a| ≤ (1 + ε) * |b| := by
  have := abs_sub_abs_le_abs_sub a b
  unfold Rel at h
  linarith

theorem Rel.trans {ε ε' a b c : ℝ} (h : Rel ε a b) (h' : Rel ε' b c) (he : 0 ≤ ε) :
    Rel (ε + ε' + ε * ε') a c := by
  have h1 := abs_sub_le a b c
  have h2 := mul_le_mul_of_nonneg_left h'.abs_le he
  unfold Rel at *
  linarith

theorem Rel.mul {ε ε' a b c d : ℝ} (h : Rel ε a b) (h' : Rel ε' c d) (he : 0 ≤ ε) :
    Rel (ε + ε' + ε * ε') (a * c) (b * d) := by
  have h1 : a * c - b * d = (a - b) * c + b * (c - d) := by ring
  have h2 : |(a - b) * c| ≤ ε * |b| * ((1 + ε') * |d|) := by
    rw [abs_mul]
    exact mul_le_mul h h'.abs_le (abs_nonneg _) (mul_nonneg he (abs_nonneg _))
  have h3 : |b * (c - d)| ≤ |b| * (ε' * |d|) := by
    rw [abs_mul]
    exact mul_le_mul_of_nonneg_left h' (abs_nonneg _)
  have h4 := abs_add_le ((a - b) * c) (b * (c - d))
  unfold Rel
  rw [h1, abs_mul b d]
  calc _ ≤ _ := h4
    _ ≤ _ := add_le_add h2 h3
    _ = _ := by ring

theorem Rel.const_mul {ε a b : ℝ} (k : ℝ) (h : Rel ε a b) : Rel ε (k * a) (k * b) := by
  unfold Rel at *
  rw [← mul_sub, abs_mul, abs_mul]
  calc _ ≤ |k| * (ε * |b|) := mul_le_mul_of_nonneg_left h (abs_nonneg _)
    _ = _ := by ring

theorem Rel.add {ε a b c d : ℝ} (h : Rel ε a b) (h' : Rel ε c d) (hb : 0 ≤ b) (hd : 0 ≤ d) :
    Rel ε (a + c) (b + d) := by
  unfold Rel at *
  rw [abs_of_nonneg hb] at h
  rw [abs_of_nonneg hd] at h'
  rw [abs_of_nonneg (add_nonneg hb hd)]
  have : a + c - (b + d) = (a - b) + (c - d) := by ring
  rw [this]
  linarith [abs_add_le (a - b) (c - d)]

theorem rel_fl (q : ℚ) : Rel (1 / 2 ^ 53) ((fl q : ℚ) : ℝ) q := by
  have h := fl_err q
  have h' : (((|fl q - q| : ℚ)) : ℝ) ≤ ((|q| / 2 ^ 53 : ℚ) : ℝ) := by exact_mod_cast h
  push_cast at h'
  unfold Rel
  linarith

theorem Rel.sqrt {ε a b : ℝ} (h : Rel ε a b) (ha : 0 ≤ a) (hb : 0 ≤ b) : Rel ε (√a) (√b) := by
  rcases hb.eq_or_lt with rfl | hb'
  · unfold Rel at *
    simp only [abs_zero, mul_zero, Real.sqrt_zero, sub_zero] at *
    rw [abs_nonpos_iff.1 h]
    simp
  · have sb := Real.sqrt_pos.2 hb'
    have sa := Real.sqrt_nonneg a
    have e : (√a - √b) * (√a + √b) = a - b := by
      have h1 := Real.mul_self_sqrt ha
      have h2 := Real.mul_self_sqrt hb
      linear_combination h1 - h2
    unfold Rel at *
    rw [← e, abs_mul, abs_of_nonneg hb] at h
    rw [abs_of_pos sb]
    rw [abs_of_nonneg (add_nonneg sa sb.le)] at h
    have h3 : |√a - √b| * √b ≤ ε * √b * √b := by
      calc |√a - √b| * √b ≤ |√a - √b| * (√a + √b) :=
            mul_le_mul_of_nonneg_left (by linarith) (abs_nonneg _)
        _ ≤ ε * b := h
        _ = ε * √b * √b := by rw [mul_assoc, Real.mul_self_sqrt hb]
    exact le_of_mul_le_mul_right h3 sb

/-- The direction of a vector known up to relative errors of its components. -/
theorem arg_close {θ r ε x y : ℝ} (hθ : |θ| < Real.pi) (hr : 0 < r) (h0 : 0 ≤ ε) (h1 : ε ≤ 1 / 2)
    (hx : Rel ε x (r * Real.cos θ)) (hy : Rel ε y (r * Real.sin θ)) :
    |Complex.arg ⟨x, y⟩ - θ| ≤ 2 * ε := by
  unfold Rel at hx hy
  rw [abs_mul, abs_of_pos hr] at hx hy
  set z : ℂ := ⟨x, y⟩ with hz
  set α := Complex.arg z with hα
  have hcs := Real.sin_sq_add_cos_sq θ
  have ex : ‖z‖ * Real.cos α = x := by rw [hα, Complex.norm_mul_cos_arg]
  have ey : ‖z‖ * Real.sin α = y := by rw [hα, Complex.norm_mul_sin_arg]
  have es : ‖z‖ * Real.sin (α - θ) = y * Real.cos θ - x * Real.sin θ := by
    rw [Real.sin_sub, ← ex, ← ey]; ring
  have ec : ‖z‖ * Real.cos (α - θ) = x * Real.cos θ + y * Real.sin θ := by
    rw [Real.cos_sub, ← ex, ← ey]; ring
  have hsc : 2 * (|Real.sin θ| * |Real.cos θ|) ≤ 1 := by
    have := sq_nonneg (|Real.sin θ| - |Real.cos θ|)
    rw [sub_sq, sq_abs, sq_abs] at this
    linarith
  have bs : |y * Real.cos θ - x * Real.sin θ| ≤ ε * r := by
    have e : y * Real.cos θ - x * Real.sin θ =
        (y - r * Real.sin θ) * Real.cos θ - (x - r * Real.cos θ) * Real.sin θ := by ring
    have t1 : |(y - r * Real.sin θ) * Real.cos θ| ≤ ε * (r * |Real.sin θ|) * |Real.cos θ| := by
      rw [abs_mul]; exact mul_le_mul_of_nonneg_right hy (abs_nonneg _)
    have t2 : |(x - r * Real.cos θ) * Real.sin θ| ≤ ε * (r * |Real.cos θ|) * |Real.sin θ| := by
      rw [abs_mul]; exact mul_le_mul_of_nonneg_right hx (abs_nonneg _)
    have t3 := abs_sub ((y - r * Real.sin θ) * Real.cos θ) ((x - r * Real.cos θ) * Real.sin θ)
    rw [e]
    have t4 : ε * r * (2 * (|Real.sin θ| * |Real.cos θ|)) ≤ ε * r * 1 :=
      mul_le_mul_of_nonneg_left hsc (mul_nonneg h0 hr.le)
    linarith
  have bc : r * (1 - ε) ≤ x * Real.cos θ + y * Real.sin θ := by
    have e : x * Real.cos θ + y * Real.sin θ =
        r * (Real.sin θ ^ 2 + Real.cos θ ^ 2) + (x - r * Real.cos θ) * Real.cos θ +
          (y - r * Real.sin θ) * Real.sin θ := by ring
    have t1 : |(x - r * Real.cos θ) * Real.cos θ| ≤ ε * (r * |Real.cos θ|) * |Real.cos θ| := by
      rw [abs_mul]; exact mul_le_mul_of_nonneg_right hx (abs_nonneg _)
    have t2 : |(y - r * Real.sin θ) * Real.sin θ| ≤ ε * (r * |Real.sin θ|) * |Real.sin θ| := by
      rw [abs_mul]; exact mul_le_mul_of_nonneg_right hy (abs_nonneg _)
    have t3 : ε * (r * |Real.cos θ|) * |Real.cos θ| + ε * (r * |Real.sin θ|) * |Real.sin θ| =
        ε * r := by
      have : |Real.cos θ| * |Real.cos θ| + |Real.sin θ| * |Real.sin θ| = 1 := by
        rw [abs_mul_abs_self, abs_mul_abs_self]; linarith
      linear_combination ε * r * this
    rw [e, hcs]
    linarith [(abs_le.1 t1).1, (abs_le.1 t2).1]
  have hcpos : 0 < ‖z‖ * Real.cos (α - θ) := by
    rw [ec]
    refine lt_of_lt_of_le ?_ bc
    apply mul_pos hr; linarith
  have hzn : 0 < ‖z‖ := by
    rcases (norm_nonneg z).eq_or_lt with h | h
    · rw [← h, zero_mul] at hcpos
      exact absurd hcpos (lt_irrefl _)
    · exact h
  have hc : 0 < Real.cos (α - θ) := (mul_pos_iff_of_pos_left hzn).1 hcpos
  have hs : |Real.sin (α - θ)| ≤ 2 * ε * Real.cos (α - θ) := by
    have : ‖z‖ * |Real.sin (α - θ)| ≤ ‖z‖ * (2 * ε * Real.cos (α - θ)) := by
      calc ‖z‖ * |Real.sin (α - θ)| = |‖z‖ * Real.sin (α - θ)| := by
            rw [abs_mul, abs_of_pos hzn]
        _ ≤ ε * r := by rw [es]; exact bs
        _ ≤ 2 * ε * (r * (1 - ε)) := by nlinarith [mul_nonneg h0 hr.le]
        _ ≤ 2 * ε * (‖z‖ * Real.cos (α - θ)) := by
            rw [ec]; exact mul_le_mul_of_nonneg_left bc (by linarith)
        _ = _ := by ring
    exact le_of_mul_le_mul_left this hzn
  have hpi : |α - θ| ≤ Real.pi := by
    have a1 := Complex.arg_le_pi z
    have a2 := Complex.neg_pi_lt_arg z
    rw [← hα] at a1 a2
    have hθ' := abs_lt.1 hθ
    have hsy : ∀ s : ℝ, |y - r * s| ≤ ε * (r * |s|) → (0 < s → 0 < y) ∧ (s < 0 → y < 0) := by
      intro s h
      have := abs_le.1 h
      constructor
      · intro hp
        rw [abs_of_pos hp] at this
        have := mul_pos hr hp
        nlinarith
      · intro hn
        rw [abs_of_neg hn] at this
        have := mul_pos hr (neg_pos.2 hn)
        nlinarith
    obtain ⟨y1, y2⟩ := hsy _ hy
    rw [abs_le]
    rcases lt_trichotomy θ 0 with h | h | h
    · have : y < 0 := y2 (Real.sin_neg_of_neg_of_neg_pi_lt h hθ'.1)
      have : α < 0 := Complex.arg_neg_iff.2 this
      constructor <;> linarith
    · rw [h, sub_zero]
      exact ⟨a2.le, a1⟩
    · have : 0 < y := y1 (Real.sin_pos_of_pos_of_lt_pi h hθ'.2)
      have : 0 ≤ α := Complex.arg_nonneg_iff.2 this.le
      constructor <;> linarith
  have hhalf : |α - θ| < Real.pi / 2 := by
    by_contra hcon
    push Not at hcon
    have := Real.cos_nonpos_of_pi_div_two_le_of_le hcon (by linarith [Real.pi_pos])
    rw [Real.cos_abs] at this
    linarith
  refine (Real.le_tan (abs_nonneg _) hhalf).trans ?_
  rw [Real.tan_eq_sin_div_cos, Real.cos_abs, div_le_iff₀ hc]
  refine le_trans ?_ hs
  rcases abs_cases (α - θ) with ⟨e, _⟩ | ⟨e, _⟩
  · rw [e]; exact le_abs_self _
  · rw [e, Real.sin_neg]; exact neg_le_abs _

/-! ### Angles of coordinates -/

theorem piD_close : Rel (1 / 2 ^ 52) (piD : ℝ) Real.pi ∧ (piD : ℝ) < Real.pi := by
  have h1 := Real.pi_gt_d20
  have h2 := Real.pi_lt_d20
  have e : (piD : ℝ) = 884279719003555 / 281474976710656 := by unfold piD; norm_num
  have h3 : (piD : ℝ) < Real.pi := by rw [e]; refine lt_trans ?_ h1; norm_num
  refine ⟨?_, h3⟩
  unfold Rel
  rw [abs_of_pos Real.pi_pos, abs_sub_comm, abs_of_pos (sub_pos.2 h3), e]
  norm_num at h1 h2 ⊢
  linarith

theorem radians_rel (n : ℤ) : Rel (1 / 2 ^ 50) (radians n : ℝ) (rad n) := by
  have a1 : Rel (1 / 2 ^ 53) ((fl (piD / 180) : ℚ) : ℝ) (1 / 180 * piD) := by
    have := rel_fl (piD / 180)
    push_cast at this
    rwa [show (piD : ℝ) / 180 = 1 / 180 * piD by ring] at this
  have a2 := a1.trans (piD_close.1.const_mul (1 / 180)) (by norm_num)
  have b1 : Rel (1 / 2 ^ 53) ((fl (1 / 1000000) : ℚ) : ℝ) (1 / 1000000) := by
    have := rel_fl (1 / 1000000)
    push_cast at this
    exact this
  have b2 : Rel (1 / 2 ^ 53) ((Coord.degOfMicro n : ℚ) : ℝ) (n * (fl (1 / 1000000) : ℚ)) := by
    have := rel_fl (fl (1 / 1000000) * n)
    push_cast at this
    rwa [mul_comm ((fl (1 / 1000000) : ℚ) : ℝ)] at this
  have b3 := b2.trans (b1.const_mul n) (by norm_num)
  have c1 := rel_fl (fl (piD / 180) * Coord.degOfMicro n)
  push_cast at c1
  have c2 := c1.trans (a2.mul b3 (by norm_num)) (by norm_num)
  have e : (1 / 180 * Real.pi) * ((n : ℝ) * (1 / 1000000)) = rad n := by unfold rad; ring
  rw [e] at c2
  unfold radians
  exact c2.mono (by norm_num)

theorem radians_neg (n : ℤ) : radians (-n) = -radians n := by
  unfold radians Coord.degOfMicro
  push_cast
  rw [mul_neg, fl_neg, mul_neg, fl_neg]

theorem radians_mono {m n : ℤ} (h : m ≤ n) : radians m ≤ radians n := by
  have h' : (m : ℚ) ≤ n := by exact_mod_cast h
  have a : 0 < fl (1 / 1000000) := fl_pos (by norm_num)
  have b : 0 < fl (piD / 180) := fl_pos (by unfold piD; norm_num)
  unfold radians Coord.degOfMicro
  exact fl_mono (mul_le_mul_of_nonneg_left (fl_mono (mul_le_mul_of_nonneg_left h' a.le)) b.le)

theorem radians_half : radians 90000000 ≤ piD / 2 := by decide +kernel

theorem radians_full : radians 180000000 ≤ piD := by decide +kernel

theorem radians_lt {n : ℤ} (h1 : -180000000 ≤ n) (h2 : n ≤ 180000000) :
    |(radians n : ℝ)| < Real.pi := by
  have a := (radians_mono h2).trans radians_full
  have b := (radians_mono (show -n ≤ 180000000 by omega)).trans radians_full
  rw [radians_neg] at b
  have h : |radians n| ≤ piD := abs_le.2 ⟨by linarith, a⟩
  have h' : ((|radians n| : ℚ) : ℝ) ≤ (piD : ℝ) := by exact_mod_cast h
  push_cast at h'
  exact lt_of_le_of_lt h' piD_close.2

theorem radians_lt_half {n : ℤ} (h1 : -90000000 ≤ n) (h2 : n ≤ 90000000) :
    |(radians n : ℝ)| < Real.pi / 2 := by
  have a := (radians_mono h2).trans radians_half
  have b := (radians_mono (show -n ≤ 90000000 by omega)).trans radians_half
  rw [radians_neg] at b
  have h : |radians n| ≤ piD / 2 := abs_le.2 ⟨by linarith, a⟩
  have h' : ((|radians n| : ℚ) : ℝ) ≤ ((piD / 2 : ℚ) : ℝ) := by exact_mod_cast h
  push_cast at h'
  linarith [piD_close.2]

/-- The conversion of an angle to microdegrees, up to rounding. -/
theorem e6_near {L : Libm} (hL : L.Ok) (r : ℚ) :
    |(e6 L r : ℝ) - 180000000 / Real.pi * r| ≤ 1 / 2 + 1 / 2 ^ 50 * |180000000 / Real.pi * r| := by
  -- the factor
  have hD : Rel (1 / 2 ^ 51) (1 / (piD : ℝ)) (1 / Real.pi) := by
    obtain ⟨a, b⟩ := piD_close
    unfold Rel at a ⊢
    have hp : (0 : ℝ) < piD := by unfold piD; norm_num
    have hp2 : Real.pi ≤ 2 * piD := by
      rw [abs_sub_comm, abs_of_pos (sub_pos.2 b), abs_of_pos Real.pi_pos] at a
      norm_num at a
      linarith
    rw [abs_of_pos (one_div_pos.2 Real.pi_pos), div_sub_div _ _ hp.ne' Real.pi_pos.ne', one_mul,
      mul_one, abs_div, abs_of_pos (mul_pos hp Real.pi_pos), div_le_iff₀ (mul_pos hp Real.pi_pos),
      abs_sub_comm]
    rw [abs_of_pos Real.pi_pos] at a
    calc _ ≤ _ := a
      _ ≤ 1 / 2 ^ 52 * (2 * piD) := mul_le_mul_of_nonneg_left hp2 (by norm_num)
      _ = 1 / 2 ^ 51 * (1 / Real.pi) * (piD * Real.pi) := by field_simp
  have a1 : Rel (1 / 2 ^ 53) ((fl (180 / piD) : ℚ) : ℝ) (180 * (1 / piD)) := by
    have := rel_fl (180 / piD)
    push_cast at this
    rwa [show (180 : ℝ) / piD = 180 * (1 / piD) by ring] at this
  have a2 := a1.trans (hD.const_mul 180) (by norm_num)
  -- the two products
  have b1 : Rel (1 / 2 ^ 53) ((fl (fl (180 / piD) * r) : ℚ) : ℝ) (r * (fl (180 / piD) : ℚ)) := by
    have := rel_fl (fl (180 / piD) * r)
    rwa [Rat.cast_mul, mul_comm ((fl (180 / piD) : ℚ) : ℝ)] at this
  have b2 := b1.trans (a2.const_mul r) (by norm_num)
  have c1 : Rel (1 / 2 ^ 53) ((fl (1000000 * fl (fl (180 / piD) * r)) : ℚ) : ℝ)
      (1000000 * (fl (fl (180 / piD) * r) : ℚ)) := by
    have := rel_fl (1000000 * fl (fl (180 / piD) * r))
    rwa [Rat.cast_mul, Rat.cast_ofNat] at this
  have c2 := (c1.trans (b2.const_mul 1000000) (by norm_num)).mono
    (show _ ≤ (1 / 2 ^ 50 : ℝ) by norm_num)
  set m : ℚ := fl (1000000 * fl (fl (180 / piD) * r)) with hm
  have ex : (1000000 * ((r : ℝ) * (180 * (1 / Real.pi)))) = 180000000 / Real.pi * r := by
    field_simp; ring
  rw [ex] at c2
  have hr := hL.round m
  have hr' : |((L.round m : ℤ) : ℝ) - m| ≤ 1 / 2 := by
    have : (((|(L.round m : ℚ) - m| : ℚ)) : ℝ) ≤ ((1 / 2 : ℚ) : ℝ) := by exact_mod_cast hr
    push_cast at this
    exact this
  have := abs_sub_le ((L.round m : ℤ) : ℝ) m (180000000 / Real.pi * r)
  unfold Rel at c2
  unfold e6
  rw [← hm]
  linarith

/-- Angles within `30 / 2^50` of that of a whole number of microdegrees are converted to it. -/
theorem e6_eq {L : Libm} (hL : L.Ok) {n : ℤ} (h1 : -180000000 ≤ n) (h2 : n ≤ 180000000) {r : ℚ}
    (h : |(r : ℝ) - rad n| ≤ 30 / 2 ^ 50) : e6 L r = n := by
  have hpi := Real.pi_gt_three
  have hnear := e6_near hL r
  set x : ℝ := 180000000 / Real.pi * r with hx
  have hxn : x - n = 180000000 / Real.pi * (r - rad n) := by
    rw [hx]; unfold rad; field_simp; ring
  have hx1 : |x - n| ≤ 1 / 10 ^ 5 := by
    rw [hxn, abs_mul, abs_of_pos (by positivity)]
    have : 180000000 / Real.pi ≤ 60000000 := by
      rw [div_le_iff₀ Real.pi_pos]; linarith
    calc _ ≤ 60000000 * (30 / 2 ^ 50 : ℝ) := mul_le_mul this h (abs_nonneg _) (by norm_num)
      _ ≤ _ := by norm_num
  have hn1 : (-180000000 : ℝ) ≤ n := by exact_mod_cast h1
  have hn2 : (n : ℝ) ≤ 180000000 := by exact_mod_cast h2
  have hx2 : |x| ≤ 180000001 := by
    have := abs_le.1 hx1
    norm_num at this
    rw [abs_le]
    constructor <;> linarith
  have hd : |((e6 L r - n : ℤ) : ℝ)| < 1 := by
    have g1 := abs_le.1 hnear
    have g3 := abs_le.1 hx1
    push_cast
    rw [abs_lt]
    norm_num at g1 g3
    constructor <;> linarith
  have hd' : |e6 L r - n| < 1 := by exact_mod_cast hd
  rw [Int.abs_lt_one_iff] at hd'
  omega

/-- Angles up to that of `n` microdegrees give at most `n` microdegrees. -/
theorem e6_le {L : Libm} (hL : L.Ok) {n : ℤ} (h0 : 0 ≤ n) (h1 : n ≤ 180000000) {r : ℚ}
    (h : |(r : ℝ)| ≤ rad n + 1 / 2 ^ 48) : |e6 L r| ≤ n := by
  have hpi := Real.pi_gt_three
  have hnear := e6_near hL r
  set x : ℝ := 180000000 / Real.pi * r with hx
  have hn0 : (0 : ℝ) ≤ n := by exact_mod_cast h0
  have hn2 : (n : ℝ) ≤ 180000000 := by exact_mod_cast h1
  have hx1 : |x| ≤ n + 1 / 10 ^ 5 := by
    rw [hx, abs_mul, abs_of_pos (by positivity)]
    have k : 180000000 / Real.pi ≤ 60000000 := by
      rw [div_le_iff₀ Real.pi_pos]; linarith
    have k0 : 0 < 180000000 / Real.pi := by positivity
    have e : 180000000 / Real.pi * rad n = n := by unfold rad; field_simp; ring
    calc _ ≤ 180000000 / Real.pi * (rad n + 1 / 2 ^ 48) := mul_le_mul_of_nonneg_left h k0.le
      _ = n + 180000000 / Real.pi * (1 / 2 ^ 48) := by rw [mul_add, e]
      _ ≤ n + 60000000 * (1 / 2 ^ 48) := by gcongr
      _ ≤ _ := by norm_num
  have hx2 : |x| ≤ 180000001 := by norm_num at hx1; linarith
  have g := abs_sub_abs_le_abs_sub (e6 L r : ℝ) x
  have hd : |(e6 L r : ℝ)| < n + 1 := by
    norm_num at hx1 hnear
    linarith
  have hd' : |e6 L r| < n + 1 := by exact_mod_cast hd
  omega

end Sphere

end Capi
