import Verif.Model.Vector
import Verif.Props.Binary64
import Verif.Props.Project

/-!
# Lemmas about arithmetic with coordinates
-/

namespace Capi

/-- One component of a multiplication: the rounded product is the nearest whole number up to
`2^-20`. -/
theorem scaled_component {x : ℚ} (hx : |x| ≤ 2 ^ 32) :
    |(roundHalfAway (fl x) : ℚ) - x| ≤ 1 / 2 + 1 / 2 ^ 21 := by
  have h1 : |fl x - x| ≤ 1 / 2 ^ 21 := by
    refine (fl_err x).trans ?_
    rw [div_le_iff₀ (by positivity)]
    exact hx.trans (by norm_num)
  have h2 := roundHalfAway_err (fl x)
  rw [abs_le] at *
  constructor <;> linarith [h1.1, h1.2, h2.1, h2.2]

theorem fl_half (n : ℤ) (h : |n| ≤ 2 ^ 53) : fl ((n : ℚ) / 2) = n / 2 := by
  have := fl_exact n (-1) h
  rwa [show (n : ℚ) * 2 ^ (-1 : ℤ) = n / 2 by rw [zpow_neg_one]; ring] at this

theorem round_half_up {x : ℚ} {n : ℤ} (hn : 0 ≤ n) (h : (n : ℚ) + 1 / 2 ≤ x) :
    n + 1 ≤ roundHalfAway x := by
  have h0 : (0 : ℚ) ≤ n := by exact_mod_cast hn
  unfold roundHalfAway
  rw [if_pos (by linarith), Int.le_floor]
  push_cast
  linarith

theorem fits_round {x : ℚ} (h1 : -2147483648 ≤ x) (h2 : x ≤ 2147483647) :
    FitsI32 (roundHalfAway (fl x)) := by
  have e1 : fl (-2147483648 : ℚ) = -2147483648 := by
    have := fl_int (-2147483648) (by norm_num); push_cast at this; exact this
  have e2 : fl (2147483647 : ℚ) = 2147483647 := by
    have := fl_int 2147483647 (by norm_num); push_cast at this; exact this
  have r1 : roundHalfAway (-2147483648 : ℚ) = -2147483648 := by
    have := roundHalfAway_int (-2147483648); push_cast at this; exact this
  have r2 : roundHalfAway (2147483647 : ℚ) = 2147483647 := by
    have := roundHalfAway_int 2147483647; push_cast at this; exact this
  have a := roundHalfAway_mono (fl_mono h1)
  have b := roundHalfAway_mono (fl_mono h2)
  rw [e1, r1] at a
  rw [e2, r2] at b
  exact ⟨a, b⟩

theorem overflow_round {x : ℚ} (h : 2147483647 + 1 / 2 ≤ x ∨ x ≤ -(2147483648 + 1 / 2)) :
    ¬ FitsI32 (roundHalfAway (fl x)) := by
  unfold FitsI32
  rcases h with h | h
  · have e := fl_half 4294967295 (by norm_num)
    have : (((4294967295 : ℤ) : ℚ) / 2) ≤ x := by push_cast; linarith
    have := fl_mono this
    rw [e] at this
    have := round_half_up (n := 2147483647) (by norm_num) (x := fl x)
      (by push_cast at this ⊢; linarith)
    omega
  · have e := fl_half 4294967297 (by norm_num)
    have : (((4294967297 : ℤ) : ℚ) / 2) ≤ -x := by push_cast; linarith
    have := fl_mono this
    rw [e, fl_neg] at this
    have := round_half_up (n := 2147483648) (by norm_num) (x := -fl x)
      (by push_cast at this ⊢; linarith)
    rw [roundHalfAway_neg] at this
    omega

/-- Within the range of the representation. -/
def WithinI32 (x : ℚ) : Prop := -2147483648 ≤ x ∧ x ≤ 2147483647

theorem WithinI32.abs {x : ℚ} (h : WithinI32 x) : |x| ≤ 2 ^ 32 := by
  rw [abs_le]
  constructor <;> [linarith [h.1]; linarith [h.2]]

theorem scaleC_ok {a : Coord} {s : ℚ} (h1 : WithinI32 (a.lon * s)) (h2 : WithinI32 (a.lat * s)) :
    a.scaleC s = .ok (a.scale s) := by
  unfold Coord.scaleC chk32
  rw [if_pos (fits_round h1.1 h1.2), if_pos (fits_round h2.1 h2.2)]
  rfl

/-- What a defined multiplication returns. -/
theorem scaleC_eq {a r : Coord} {s : ℚ} (h : a.scaleC s = .ok r) :
    r = a.scale s ∧ |a.lon * s| ≤ 2 ^ 32 ∧ |a.lat * s| ≤ 2 ^ 32 := by
  have hb : ∀ x : ℚ, FitsI32 (roundHalfAway (fl x)) → |x| ≤ 2 ^ 32 := by
    intro x hx
    by_contra hc
    push Not at hc
    refine overflow_round ?_ hx
    rcases lt_abs.1 hc with hc | hc
    · left; linarith
    · right; linarith
  unfold Coord.scaleC chk32 at h
  split_ifs at h with h1 h2
  · refine ⟨?_, hb _ h1, hb _ h2⟩
    simp only [Res.bind_ok, Res.pure_eq, Except.ok.injEq] at h
    exact h.symm
  · simp [Res.bind_ok, Res.bind_error] at h
  · simp [Res.bind_error] at h
  · simp [Res.bind_error] at h

/-- One component of a multiplication that is undone. -/
theorem undo_component {k : ℤ} {s : ℚ} (hs : 1 + 1 / 100000 ≤ |s|) (h : |(k : ℚ) * s| ≤ 2 ^ 32) :
    roundHalfAway (fl (roundHalfAway (fl (k * s)) * fl (1 / s))) = k := by
  have hs0 : (0 : ℚ) < |s| := by linarith
  have hsne : s ≠ 0 := abs_pos.1 hs0
  have h1 := scaled_component h
  set r : ℚ := (roundHalfAway (fl (k * s)) : ℚ) with hr
  have hrb : |r| ≤ 2 ^ 33 := by
    have := abs_sub_abs_le_abs_sub r (k * s)
    linarith
  have hq : |r / s| ≤ 2 ^ 33 := by
    rw [abs_div, div_le_iff₀ hs0]; nlinarith
  have e1 : |r / s - k| ≤ (1 / 2 + 1 / 2 ^ 21) / (1 + 1 / 100000) := by
    rw [show r / s - k = (r - k * s) / s by field_simp, abs_div]
    exact div_le_div₀ (by positivity) h1 (by positivity) hs
  have e2 : |r * fl (1 / s) - r / s| ≤ 2 ^ 33 / 2 ^ 53 := by
    rw [show r * fl (1 / s) - r / s = r * (fl (1 / s) - 1 / s) by ring, abs_mul]
    calc |r| * |fl (1 / s) - 1 / s| ≤ |r| * (|1 / s| / 2 ^ 53) := by
          gcongr; exact fl_err _
      _ = |r / s| / 2 ^ 53 := by rw [abs_div, abs_div, abs_one]; ring
      _ ≤ _ := by gcongr
  have e3 : |fl (r * fl (1 / s)) - r * fl (1 / s)| ≤ 2 ^ 34 / 2 ^ 53 := by
    refine (fl_err _).trans ?_
    gcongr
    have := abs_sub_abs_le_abs_sub (r * fl (1 / s)) (r / s)
    have : (2 : ℚ) ^ 33 / 2 ^ 53 ≤ 2 ^ 33 := by norm_num
    linarith
  apply roundHalfAway_eq_of_close
  have hn : (1 / 2 + 1 / 2 ^ 21 : ℚ) / (1 + 1 / 100000) + 2 ^ 33 / 2 ^ 53 + 2 ^ 34 / 2 ^ 53 < 1 / 2 := by
    norm_num
  rw [abs_le] at e1 e2 e3
  rw [abs_lt]
  constructor <;> linarith [e1.1, e1.2, e2.1, e2.2, e3.1, e3.2]

/-- The root of the squared length is a number whose reciprocal is in range. -/
theorem length_normal {sq : ℚ → ℚ} (hsq : SqrtOk sq) {a : Coord} (ha : a.I32) (h0 : a ≠ ⟨0, 0⟩) :
    sq a.magSqDeg ≠ 0 ∧ Normal (1 / sq a.magSqDeg) := by
  have hm : a.magSq ≠ 0 := fun h => h0 (Coord.ext' (magSq_eq_zero h).1 (magSq_eq_zero h).2)
  obtain ⟨hp, hc⟩ := (lenOk_sqrt hsq).close a hm
  have h1 : (1 : ℤ) ≤ a.magSq := by
    have : 0 ≤ a.magSq := add_nonneg (mul_self_nonneg _) (mul_self_nonneg _)
    omega
  have h2 : a.magSq ≤ 2 ^ 64 := by
    unfold Coord.magSq
    obtain ⟨⟨x1, x2⟩, y1, y2⟩ := ha
    nlinarith
  have r1 : 1 ≤ √(a.magSq : ℝ) := by
    rw [Real.one_le_sqrt]; exact_mod_cast h1
  have r2 : √(a.magSq : ℝ) ≤ 2 ^ 32 := by
    rw [Real.sqrt_le_left (by positivity)]
    calc (a.magSq : ℝ) ≤ ((2 ^ 64 : ℤ) : ℝ) := by exact_mod_cast h2
      _ = (2 ^ 32) ^ 2 := by norm_num
  set r := √(a.magSq : ℝ) with hr
  rw [abs_le] at hc
  have hd : r / 2 ^ 48 ≤ r / 2 := by
    apply div_le_div_of_nonneg_left (by linarith) (by norm_num) (by norm_num)
  have l1 : (1 / 2000000 : ℝ) ≤ sq a.magSqDeg := by linarith [hc.1]
  have l2 : (sq a.magSqDeg : ℝ) ≤ 2 ^ 33 := by linarith [hc.2]
  have l1' : (1 / 2000000 : ℚ) ≤ sq a.magSqDeg := by
    have : (((1 / 2000000 : ℚ)) : ℝ) ≤ (sq a.magSqDeg : ℝ) := by push_cast; exact l1
    exact_mod_cast this
  have l2' : sq a.magSqDeg ≤ 2 ^ 33 := by exact_mod_cast l2
  refine ⟨hp.ne', normal_of ?_ ?_⟩
  · rw [abs_of_pos (by positivity)]
    exact one_div_le_one_div_of_le hp (l2'.trans (by norm_num))
  · rw [abs_of_pos (by positivity), div_le_iff₀ hp]
    have : (1 : ℚ) ≤ 2 ^ 200 * (1 / 2000000) := by norm_num
    nlinarith

/-- The length of a vector near a vector of a degree. -/
theorem unit_length {x y : ℤ} {e f : ℝ} (hef : e * e + f * f = 1)
    (hx : |(x : ℝ) - 1000000 * e| ≤ 1 / 2 + 1 / 10000000)
    (hy : |(y : ℝ) - 1000000 * f| ≤ 1 / 2 + 1 / 10000000) :
    |√((Coord.mk x y).magSq : ℝ) - 1000000| ≤ 1 := by
  have hmag : ((Coord.mk x y).magSq : ℝ) = (x : ℝ) * x + (y : ℝ) * y := by
    unfold Coord.magSq; push_cast; rfl
  rw [hmag]
  obtain ⟨dx, hdx⟩ : ∃ dx, (x : ℝ) = 1000000 * e + dx := ⟨x - 1000000 * e, by ring⟩
  obtain ⟨dy, hdy⟩ : ∃ dy, (y : ℝ) = 1000000 * f + dy := ⟨y - 1000000 * f, by ring⟩
  rw [hdx] at hx
  rw [hdy] at hy
  rw [hdx, hdy]
  rw [add_sub_cancel_left, abs_le] at hx hy
  have hsq1 : dx * dx ≤ 0.26 := by nlinarith [hx.1, hx.2]
  have hsq2 : dy * dy ≤ 0.26 := by nlinarith [hy.1, hy.2]
  have h0 := mul_self_nonneg dx
  have h1 := mul_self_nonneg dy
  have hmix : |e * dx + f * dy| ≤ 0.75 := by
    apply abs_le_of_sq_le_sq _ (by norm_num)
    have := mul_self_nonneg (e * dy - f * dx)
    have h : (e * dx + f * dy) ^ 2 + (e * dy - f * dx) * (e * dy - f * dx) = dx * dx + dy * dy := by
      linear_combination (dx * dx + dy * dy) * hef
    linarith
  rw [abs_le] at hmix
  have hS : (1000000 * e + dx) * (1000000 * e + dx) + (1000000 * f + dy) * (1000000 * f + dy) =
      1000000000000 + 2000000 * (e * dx + f * dy) + (dx * dx + dy * dy) := by
    linear_combination 1000000000000 * hef
  rw [hS, abs_le]
  constructor
  · have : (999999 : ℝ) ≤ √(1000000000000 + 2000000 * (e * dx + f * dy) + (dx * dx + dy * dy)) := by
      apply Real.le_sqrt_of_sq_le
      linarith [hmix.1]
    linarith
  · have : √(1000000000000 + 2000000 * (e * dx + f * dy) + (dx * dx + dy * dy)) ≤ 1000001 := by
      rw [Real.sqrt_le_left (by norm_num)]
      linarith [hmix.2]
    linarith

end Capi
