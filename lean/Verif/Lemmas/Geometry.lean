import Verif.Spec.Geometry
import Verif.Lemmas.Arith
import Mathlib.Tactic.LinearCombination

/-! # Intersection, orientation and on-segment lemmas -/

namespace Capi

theorem nonParallel_iff (s t : Seg) : NonParallel s t ↔ s.detD t ≠ 0 := by
  unfold NonParallel Seg.detD
  simp only [Coord.sub, Coord.add, Coord.neg]
  constructor
  · intro h h2; apply h; linarith
  · intro h h2; apply h; linarith

/-- For non-parallel segments the only common point of the two lines has the parameters
`X/D` and `Y/D`. -/
theorem line_params {s t : Seg} (hD : s.detD t ≠ 0) {a b : ℚ}
    (h1 : (s.p.lon : ℚ) + a * (s.q.lon - s.p.lon) = t.p.lon + b * (t.q.lon - t.p.lon))
    (h2 : (s.p.lat : ℚ) + a * (s.q.lat - s.p.lat) = t.p.lat + b * (t.q.lat - t.p.lat)) :
    a = (s.detX t : ℚ) / s.detD t ∧ b = (s.detY t : ℚ) / s.detD t := by
  have hDq : ((s.detD t : ℤ) : ℚ) ≠ 0 := by exact_mod_cast hD
  rw [eq_div_iff hDq, eq_div_iff hDq]
  simp only [Seg.detD, Seg.detX, Seg.detY, Coord.sub, Coord.add, Coord.neg]
  push_cast
  constructor
  · linear_combination (-(t.q.lat : ℚ) + t.p.lat) * h1 - (-(t.q.lon : ℚ) + t.p.lon) * h2
  · linear_combination ((s.q.lon : ℚ) - s.p.lon) * h2 - ((s.q.lat : ℚ) - s.p.lat) * h1

theorem line_point {s t : Seg} (hD : s.detD t ≠ 0) :
    (s.p.lon : ℚ) + (s.detX t : ℚ) / s.detD t * (s.q.lon - s.p.lon) =
      t.p.lon + (s.detY t : ℚ) / s.detD t * (t.q.lon - t.p.lon) ∧
    (s.p.lat : ℚ) + (s.detX t : ℚ) / s.detD t * (s.q.lat - s.p.lat) =
      t.p.lat + (s.detY t : ℚ) / s.detD t * (t.q.lat - t.p.lat) := by
  have hDq : ((s.detD t : ℤ) : ℚ) ≠ 0 := by exact_mod_cast hD
  constructor
  · field_simp
    simp only [Seg.detD, Seg.detX, Seg.detY, Coord.sub, Coord.add, Coord.neg]
    push_cast; ring
  · field_simp
    simp only [Seg.detD, Seg.detX, Seg.detY, Coord.sub, Coord.add, Coord.neg]
    push_cast; ring

theorem intersect_isSome_iff {s t : Seg} (hD : s.detD t ≠ 0) :
    (s.intersect t).isSome ↔ Meets s t := by
  have hrej := rejects_false_iff (X := s.detX t) (Y := s.detY t) hD
  constructor
  · intro h
    have hr : Seg.rejects (s.detD t) (s.detX t) (s.detY t) = false := by
      by_contra hne
      rw [Bool.not_eq_false] at hne
      unfold Seg.intersect at h
      rw [if_neg hD, if_pos hne] at h
      simp at h
    rw [hrej] at hr
    have hl := line_point hD
    exact ⟨_, _, ⟨_, hr.1.1, hr.1.2, rfl, rfl⟩, ⟨_, hr.2.1, hr.2.2, hl.1, hl.2⟩⟩
  · rintro ⟨x, y, ⟨a, ha0, ha1, hx, hy⟩, ⟨b, hb0, hb1, hx', hy'⟩⟩
    have := line_params hD (hx.symm.trans hx') (hy.symm.trans hy')
    have hr := hrej.2 ⟨⟨this.1 ▸ ha0, this.1 ▸ ha1⟩, ⟨this.2 ▸ hb0, this.2 ▸ hb1⟩⟩
    unfold Seg.intersect
    rw [if_neg hD, hr]
    simp

/-- Error of the computed parameter times an integer. -/
theorem param_mul_err {D X n : ℤ} (h0 : 0 ≤ (X : ℚ) / D) (h1 : (X : ℚ) / D ≤ 1)
    (hn : |n| ≤ 1080000002) :
    |fl (n * Seg.param D X) - n * ((X : ℚ) / D)| ≤ 1 / 1000000 := by
  set τ : ℚ := (X : ℚ) / D with hτ
  have hpr := param_range h0 h1
  -- relative error of the quotient of the rounded values
  have hq : |fl (X : ℚ) / fl D - τ| ≤ 3 / 2 ^ 53 := by
    rcases eq_or_ne (D : ℚ) 0 with hD | hD
    · rw [hτ, hD, fl_zero]; norm_num
    have hX := abs_le.1 (fl_err (X : ℚ))
    have hDe := abs_le.1 (fl_err (D : ℚ))
    -- reduce to positive D
    have main : ∀ (A B a b : ℚ), 0 < B → 0 ≤ A → A ≤ B → |a - A| ≤ A / 2 ^ 53 →
        |b - B| ≤ B / 2 ^ 53 → |a / b - A / B| ≤ 3 / 2 ^ 53 := by
      intro A B a b hB hA hAB ha hb
      have ha' := abs_le.1 ha
      have hb' := abs_le.1 hb
      have hbpos : 0 < b := by
        have : B / 2 ^ 53 < B := by rw [div_lt_iff₀ (by positivity)]; nlinarith
        linarith [hb'.1]
      have hblow : B * (1 - 1 / 2 ^ 53) ≤ b := by linarith [hb'.1]
      rw [div_sub_div _ _ hbpos.ne' hB.ne', abs_div, abs_of_pos (mul_pos hbpos hB),
        div_le_iff₀ (mul_pos hbpos hB)]
      have e : a * B - b * A = (a - A) * B - (b - B) * A := by ring
      rw [e]
      have t1 : |(a - A) * B - (b - B) * A| ≤ A / 2 ^ 53 * B + B / 2 ^ 53 * A := by
        refine (abs_sub _ _).trans ?_
        rw [abs_mul, abs_mul, abs_of_pos hB, abs_of_nonneg hA]
        gcongr
      refine t1.trans ?_
      have t2 : A * B ≤ B * B := by nlinarith
      have t3 : B * B * (1 - 1 / 2 ^ 53) ≤ b * B := by nlinarith
      have t4 : 0 ≤ B * B := by positivity
      have : A / 2 ^ 53 * B + B / 2 ^ 53 * A = 2 / 2 ^ 53 * (A * B) := by ring
      rw [this]
      have t5 : (2 : ℚ) / 2 ^ 53 * (A * B) ≤ 2 / 2 ^ 53 * (B * B) := by gcongr
      have t6 : (2 : ℚ) / 2 ^ 53 * (B * B) ≤ 3 / 2 ^ 53 * (B * B * (1 - 1 / 2 ^ 53)) := by
        have : (2 : ℚ) / 2 ^ 53 ≤ 3 / 2 ^ 53 * (1 - 1 / 2 ^ 53) := by norm_num
        nlinarith
      have t7 : (3 : ℚ) / 2 ^ 53 * (B * B * (1 - 1 / 2 ^ 53)) ≤ 3 / 2 ^ 53 * (b * B) := by gcongr
      linarith
    rcases lt_or_gt_of_ne hD with hD | hD
    · have hX0 : (X : ℚ) ≤ 0 := by
        rw [hτ, le_div_iff_of_neg hD] at h0; linarith
      have hX1 : (D : ℚ) ≤ X := by rwa [hτ, div_le_one_of_neg hD] at h1
      have := main (-X) (-D) (-fl X) (-fl D) (by linarith) (by linarith) (by linarith)
        (by have := fl_err (X : ℚ); rw [abs_of_nonpos hX0] at this
            rw [show -fl (X : ℚ) - -(X : ℚ) = -(fl X - X) by ring, abs_neg]; exact this)
        (by have := fl_err (D : ℚ); rw [abs_of_neg hD] at this
            rw [show -fl (D : ℚ) - -(D : ℚ) = -(fl D - D) by ring, abs_neg]; exact this)
      rwa [neg_div_neg_eq, neg_div_neg_eq] at this
    · have hX0 : 0 ≤ (X : ℚ) := by
        rw [hτ, le_div_iff₀ hD] at h0; linarith
      have hX1 : (X : ℚ) ≤ D := by rwa [hτ, div_le_one hD] at h1
      exact main X D (fl X) (fl D) hD hX0 hX1
        (by have := fl_err (X : ℚ); rwa [abs_of_nonneg hX0] at this)
        (by have := fl_err (D : ℚ); rwa [abs_of_pos hD] at this)
  have hp : |Seg.param D X - τ| ≤ 5 / 2 ^ 53 := by
    have e1 := fl_err (fl (X : ℚ) / fl D)
    have hqa := abs_le.1 hq
    have hb : |fl (X : ℚ) / fl D| ≤ 2 := by
      rw [abs_le]; constructor
      · have : (-3 : ℚ) / 2 ^ 53 ≥ -1 := by norm_num
        linarith [hqa.1]
      · have : (3 : ℚ) / 2 ^ 53 ≤ 1 := by norm_num
        linarith [hqa.2]
    have e2 : |fl (fl (X : ℚ) / fl D) - fl (X : ℚ) / fl D| ≤ 2 / 2 ^ 53 :=
      e1.trans (by gcongr)
    have : Seg.param D X - τ = (fl (fl (X : ℚ) / fl D) - fl (X : ℚ) / fl D)
        + (fl (X : ℚ) / fl D - τ) := by unfold Seg.param; ring
    rw [this]
    refine (abs_add_le _ _).trans ?_
    linarith
  have hnq : |(n : ℚ)| ≤ 1080000002 := by exact_mod_cast hn
  have e3 := fl_err ((n : ℚ) * Seg.param D X)
  have e4 : |(n : ℚ) * Seg.param D X| ≤ 1080000002 := by
    rw [abs_mul, abs_of_nonneg hpr.1]
    have := abs_nonneg (n : ℚ)
    nlinarith [hpr.2]
  have e5 : |(n : ℚ) * Seg.param D X - n * τ| ≤ 1080000002 * (5 / 2 ^ 53) := by
    rw [← mul_sub, abs_mul]; gcongr
  have : fl (n * Seg.param D X) - n * τ =
      (fl (n * Seg.param D X) - n * Seg.param D X) + (n * Seg.param D X - n * τ) := by ring
  rw [this]
  refine (abs_add_le _ _).trans ?_
  have e6 : |(n : ℚ) * Seg.param D X| / 2 ^ 53 ≤ 1080000002 / 2 ^ 53 := by gcongr
  have e7 : (1080000002 : ℚ) / 2 ^ 53 + 1080000002 * (5 / 2 ^ 53) ≤ 1 / 1000000 := by norm_num
  linarith

theorem intersect_exact_close {s t : Seg} (h1 : s.p.Per) (h2 : s.q.Per) (hD : s.detD t ≠ 0)
    {r : Coord} (h : s.intersect t = some r) :
    ∃ x y u v : ℚ, OnSeg s x y ∧ OnSeg t x y ∧
      r.lon = s.p.lon + roundHalfAway u ∧ r.lat = s.p.lat + roundHalfAway v ∧
      |s.p.lon + u - x| ≤ 1 / 1000000 ∧ |s.p.lat + v - y| ≤ 1 / 1000000 := by
  have hr : Seg.rejects (s.detD t) (s.detX t) (s.detY t) = false := by
    by_contra hne
    rw [Bool.not_eq_false] at hne
    unfold Seg.intersect at h
    rw [if_neg hD, if_pos hne] at h
    simp at h
  unfold Seg.intersect at h
  rw [if_neg hD, hr] at h
  simp only [Bool.false_eq_true, if_false, Option.some.injEq] at h
  rw [rejects_false_iff hD] at hr
  have hl := line_point hD
  have hv := Coord.Per.vec_sub h2 h1
  refine ⟨_, _, fl ((s.q.sub s.p).lon * Seg.param (s.detD t) (s.detX t)),
    fl ((s.q.sub s.p).lat * Seg.param (s.detD t) (s.detX t)),
    ⟨_, hr.1.1, hr.1.2, rfl, rfl⟩, ⟨_, hr.2.1, hr.2.2, hl.1, hl.2⟩, ?_, ?_, ?_, ?_⟩
  · rw [← h]; rfl
  · rw [← h]; rfl
  · have := param_mul_err (n := (s.q.sub s.p).lon) hr.1.1 hr.1.2 hv.1
    convert this using 2
    simp only [Coord.sub, Coord.add, Coord.neg]; push_cast; ring
  · have := param_mul_err (n := (s.q.sub s.p).lat) hr.1.1 hr.1.2 (hv.2.trans (by norm_num))
    convert this using 2
    simp only [Coord.sub, Coord.add, Coord.neg]; push_cast; ring

/-! ### Degrees are strictly monotone in microdegrees -/

theorem flMicro_bounds : (999999 : ℚ) / 1000000000000 ≤ fl (1 / 1000000) ∧
    fl (1 / 1000000) ≤ 1000001 / 1000000000000 := by
  have := fl_bounds (x := 1 / 1000000) (by norm_num)
  constructor
  · refine le_trans ?_ this.1; norm_num
  · refine le_trans this.2 ?_; norm_num

theorem degOfMicro_lt {k l : ℤ} (hk : |k| ≤ 2147483648) (hl : |l| ≤ 2147483648) (h : k < l) :
    Coord.degOfMicro k < Coord.degOfMicro l := by
  unfold Coord.degOfMicro
  set c := fl (1 / 1000000) with hc
  have hb := flMicro_bounds
  have hkq : |(k : ℚ)| ≤ 2147483648 := by exact_mod_cast hk
  have hlq : |(l : ℚ)| ≤ 2147483648 := by exact_mod_cast hl
  have h1 : (k : ℚ) + 1 ≤ l := by exact_mod_cast h
  have cpos : 0 < c := lt_of_lt_of_le (by norm_num) hb.1
  have bound : ∀ m : ℚ, |m| ≤ 2147483648 → |fl (c * m) - c * m| ≤ 1 / 10000000 := by
    intro m hm
    refine (fl_err _).trans ?_
    rw [abs_mul, abs_of_pos cpos]
    have : c * |m| ≤ 1000001 / 1000000000000 * 2147483648 := by
      have := abs_nonneg m
      nlinarith [hb.2]
    rw [div_le_iff₀ (by positivity)]
    refine this.trans ?_
    norm_num
  have b1 := abs_le.1 (bound k hkq)
  have b2 := abs_le.1 (bound l hlq)
  have : c * k + c ≤ c * l := by nlinarith
  have hc2 : (999999 : ℚ) / 1000000000000 ≤ c := hb.1
  have : (2 : ℚ) * (1 / 10000000) < 999999 / 1000000000000 := by norm_num
  linarith [b1.2, b2.1]

theorem degOfMicro_le_iff {k l : ℤ} (hk : FitsI32 k) (hl : FitsI32 l) :
    Coord.degOfMicro k ≤ Coord.degOfMicro l ↔ k ≤ l := by
  have hk' : |k| ≤ 2147483648 := by unfold FitsI32 at hk; rw [abs_le]; omega
  have hl' : |l| ≤ 2147483648 := by unfold FitsI32 at hl; rw [abs_le]; omega
  constructor
  · intro h
    by_contra hlt
    exact absurd h (not_le.2 (degOfMicro_lt hl' hk' (by omega)))
  · intro h
    rcases h.lt_or_eq with h | h
    · exact (degOfMicro_lt hk' hl' h).le
    · rw [h]

theorem onSegment_iff_int {s : Seg} {c : Coord} (hp : s.p.Wf) (hq : s.q.Wf) (hc : c.Wf) :
    s.onSegment c = true ↔ s.signedArea c = 0 ∧
      (min s.p.lon s.q.lon ≤ c.lon ∧ c.lon ≤ max s.p.lon s.q.lon) ∧
      (min s.p.lat s.q.lat ≤ c.lat ∧ c.lat ≤ max s.p.lat s.q.lat) := by
  unfold Seg.onSegment Coord.lonDeg Coord.latDeg
  simp only [Bool.and_eq_true, Bool.or_eq_true, decide_eq_true_eq, beq_iff_eq,
    degOfMicro_le_iff hp.1 hc.1, degOfMicro_le_iff hp.2 hc.2, degOfMicro_le_iff hq.1 hc.1,
    degOfMicro_le_iff hq.2 hc.2, degOfMicro_le_iff hc.1 hp.1, degOfMicro_le_iff hc.2 hp.2,
    degOfMicro_le_iff hc.1 hq.1, degOfMicro_le_iff hc.2 hq.2]
  have : s.orientPt c = .collinear ↔ s.signedArea c = 0 := by
    unfold Seg.orientPt Seg.orientOfArea
    split_ifs <;> simp <;> omega
  rw [this]
  omega

theorem onSegment_iff {s : Seg} {c : Coord} (hp : s.p.Wf) (hq : s.q.Wf) (hc : c.Wf) :
    s.onSegment c = true ↔ OnSeg s c.lon c.lat := by
  rw [onSegment_iff_int hp hq hc]
  constructor
  · rintro ⟨ha, ⟨hx0, hx1⟩, hy0, hy1⟩
    have haq : ((s.q.lon : ℚ) - s.p.lon) * (c.lat - s.p.lat) =
        (s.q.lat - s.p.lat) * (c.lon - s.p.lon) := by
      have : (s.q.lon - s.p.lon) * (c.lat - s.p.lat) =
        (s.q.lat - s.p.lat) * (c.lon - s.p.lon) := by unfold Seg.signedArea at ha; linarith
      exact_mod_cast this
    by_cases hx : s.p.lon = s.q.lon
    · by_cases hy : s.p.lat = s.q.lat
      · refine ⟨0, le_refl _, zero_le_one, ?_, ?_⟩
        · have : c.lon = s.p.lon := by omega
          rw [this]; ring
        · have : c.lat = s.p.lat := by omega
          rw [this]; ring
      · have hne : ((s.q.lat : ℚ) - s.p.lat) ≠ 0 := by
          intro h; apply hy; have : (s.q.lat : ℚ) = s.p.lat := by linarith
          exact_mod_cast this.symm
        refine ⟨(c.lat - s.p.lat) / (s.q.lat - s.p.lat), ?_, ?_, ?_, ?_⟩
        · rcases lt_or_gt_of_ne hy with h | h
          · apply div_nonneg
            · have : s.p.lat ≤ c.lat := by omega
              have : (s.p.lat : ℚ) ≤ c.lat := by exact_mod_cast this
              linarith
            · have : (s.p.lat : ℚ) < s.q.lat := by exact_mod_cast h
              linarith
          · apply div_nonneg_of_nonpos
            · have : c.lat ≤ s.p.lat := by omega
              have : (c.lat : ℚ) ≤ s.p.lat := by exact_mod_cast this
              linarith
            · have : (s.q.lat : ℚ) < s.p.lat := by exact_mod_cast h
              linarith
        · rcases lt_or_gt_of_ne hy with h | h
          · have h' : (s.p.lat : ℚ) < s.q.lat := by exact_mod_cast h
            rw [div_le_one (by linarith)]
            have : c.lat ≤ s.q.lat := by omega
            have : (c.lat : ℚ) ≤ s.q.lat := by exact_mod_cast this
            linarith
          · have h' : (s.q.lat : ℚ) < s.p.lat := by exact_mod_cast h
            rw [div_le_one_of_neg (by linarith)]
            have : s.q.lat ≤ c.lat := by omega
            have : (s.q.lat : ℚ) ≤ c.lat := by exact_mod_cast this
            linarith
        · have : c.lon = s.p.lon := by omega
          rw [this, hx]; ring
        · field_simp; ring
    · have hne : ((s.q.lon : ℚ) - s.p.lon) ≠ 0 := by
        intro h; apply hx; have : (s.q.lon : ℚ) = s.p.lon := by linarith
        exact_mod_cast this.symm
      refine ⟨(c.lon - s.p.lon) / (s.q.lon - s.p.lon), ?_, ?_, ?_, ?_⟩
      · rcases lt_or_gt_of_ne hx with h | h
        · apply div_nonneg
          · have : s.p.lon ≤ c.lon := by omega
            have : (s.p.lon : ℚ) ≤ c.lon := by exact_mod_cast this
            linarith
          · have : (s.p.lon : ℚ) < s.q.lon := by exact_mod_cast h
            linarith
        · apply div_nonneg_of_nonpos
          · have : c.lon ≤ s.p.lon := by omega
            have : (c.lon : ℚ) ≤ s.p.lon := by exact_mod_cast this
            linarith
          · have : (s.q.lon : ℚ) < s.p.lon := by exact_mod_cast h
            linarith
      · rcases lt_or_gt_of_ne hx with h | h
        · have h' : (s.p.lon : ℚ) < s.q.lon := by exact_mod_cast h
          rw [div_le_one (by linarith)]
          have : c.lon ≤ s.q.lon := by omega
          have : (c.lon : ℚ) ≤ s.q.lon := by exact_mod_cast this
          linarith
        · have h' : (s.q.lon : ℚ) < s.p.lon := by exact_mod_cast h
          rw [div_le_one_of_neg (by linarith)]
          have : s.q.lon ≤ c.lon := by omega
          have : (s.q.lon : ℚ) ≤ c.lon := by exact_mod_cast this
          linarith
      · field_simp; ring
      · field_simp
        linear_combination haq
  · rintro ⟨t, h0, h1, hx, hy⟩
    have conv : ∀ a b z : ℤ, (z : ℚ) = a + t * (b - a) → min a b ≤ z ∧ z ≤ max a b := by
      intro a b z hz
      rcases le_total a b with h | h
      · have hq : (a : ℚ) ≤ b := by exact_mod_cast h
        rw [min_eq_left h, max_eq_right h]
        have l1 : (a : ℚ) ≤ z := by rw [hz]; nlinarith
        have l2 : (z : ℚ) ≤ b := by rw [hz]; nlinarith
        exact ⟨by exact_mod_cast l1, by exact_mod_cast l2⟩
      · have hq : (b : ℚ) ≤ a := by exact_mod_cast h
        rw [min_eq_right h, max_eq_left h]
        have l1 : (b : ℚ) ≤ z := by rw [hz]; nlinarith
        have l2 : (z : ℚ) ≤ a := by rw [hz]; nlinarith
        exact ⟨by exact_mod_cast l1, by exact_mod_cast l2⟩
    refine ⟨?_, conv _ _ _ hx, conv _ _ _ hy⟩
    have : ((s.signedArea c : ℤ) : ℚ) = 0 := by
      unfold Seg.signedArea
      push_cast
      rw [hx, hy]; ring
    exact_mod_cast this

end Capi
