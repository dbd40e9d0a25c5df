import Verif.Model.Project
import Verif.Spec.Root
import Verif.Lemmas.Angle
import Verif.Props.Frontend
import Mathlib.Analysis.SpecialFunctions.Sqrt

/-!
# C59: correcting a point on land
-/

namespace Capi

theorem round_zero : roundHalfAway 0 = 0 := by
  have := roundHalfAway_int 0
  simpa using this

/-- The root of a rounded square of the length of a vector against its real length. -/
theorem length_close_of {sq : ℚ → ℚ} (hsq : SqrtOk sq) {v : Coord} (hv : v.magSq ≠ 0) {q : ℚ}
    (herr : |q - (v.lon * v.lon + v.lat * v.lat : ℤ) / 1000000000000| ≤
      8 * ((v.lon * v.lon + v.lat * v.lat : ℤ) : ℚ) / 1000000000000 / 2 ^ 53) :
    0 < sq q ∧ |1000000 * (sq q : ℝ) - √(v.magSq : ℝ)| ≤ √(v.magSq : ℝ) / 2 ^ 48 := by
  have h0 : 0 < v.magSq := by
    have : 0 ≤ v.magSq := add_nonneg (mul_self_nonneg _) (mul_self_nonneg _)
    omega
  have hS : (0 : ℚ) < v.magSq := by exact_mod_cast h0
  have he := abs_le.1 herr
  change _ ∧ q - ((v.magSq : ℤ) : ℚ) / _ ≤ 8 * ((v.magSq : ℤ) : ℚ) / _ / _ at he
  have he1 : -(8 * ((v.magSq : ℤ) : ℚ) / 1000000000000 / 2 ^ 53) ≤
    q - ((v.magSq : ℤ) : ℚ) / 1000000000000 := he.1
  have he2 := he.2
  have hq : 0 < q := by
    have : 8 * ((v.magSq : ℤ) : ℚ) / 1000000000000 / 2 ^ 53 < ((v.magSq : ℤ) : ℚ) / 1000000000000 := by
      rw [div_lt_iff₀ (by positivity), div_mul_eq_mul_div, div_lt_div_iff_of_pos_right (by positivity)]
      nlinarith
    linarith
  have hm := hsq.pos _ hq
  have hc := abs_le.1 (hsq.close _ hq)
  refine ⟨hm, ?_⟩
  generalize sq q = m at *
  have hb : |1000000000000 * (m * m) - v.magSq| ≤ (v.magSq : ℚ) / 2 ^ 48 := by
    rw [abs_le]
    have e1 : q ≤ (v.magSq : ℚ) / 1000000000000 * 2 := by
      have : 8 * (v.magSq : ℚ) / 1000000000000 / 2 ^ 53 ≤ (v.magSq : ℚ) / 1000000000000 := by
        rw [div_le_iff₀ (by positivity), div_mul_eq_mul_div, div_le_div_iff_of_pos_right (by positivity)]
        nlinarith
      linarith
    constructor
    · have := hc.1
      field_simp at *
      linarith
    · have := hc.2
      field_simp at *
      linarith
  have hr : 0 < √(v.magSq : ℝ) := Real.sqrt_pos.2 (by exact_mod_cast h0)
  have hrr : √(v.magSq : ℝ) * √(v.magSq : ℝ) = v.magSq :=
    Real.mul_self_sqrt (by exact_mod_cast h0.le)
  have hb' : |1000000000000 * ((m : ℝ) * m) - v.magSq| ≤ (v.magSq : ℝ) / 2 ^ 48 := by
    exact_mod_cast hb
  have hmr : (0 : ℝ) < m := by exact_mod_cast hm
  generalize √(v.magSq : ℝ) = r at *
  rw [← hrr] at hb'
  have e : 1000000000000 * ((m : ℝ) * m) - r * r = (1000000 * m - r) * (1000000 * m + r) := by ring
  rw [e, abs_mul, abs_of_pos (by positivity : 0 < 1000000 * (m : ℝ) + r)] at hb'
  by_contra hlt
  push Not at hlt
  have h1 : r / 2 ^ 48 * r ≤ |1000000 * (m : ℝ) - r| * r := by gcongr
  have h2 : |1000000 * (m : ℝ) - r| * r < |1000000 * (m : ℝ) - r| * (1000000 * m + r) := by
    apply mul_lt_mul_of_pos_left (by linarith)
    exact lt_of_le_of_lt (by positivity) hlt
  have h3 : r / 2 ^ 48 * r = r * r / 2 ^ 48 := by ring
  linarith

/-- `len` is the length in degrees up to rounding. -/
structure LenOk (len : Coord → ℚ) : Prop where
  zero : ∀ v : Coord, v.magSq = 0 → len v = 0
  close : ∀ v : Coord, v.magSq ≠ 0 →
    0 < len v ∧ |1000000 * (len v : ℝ) - √(v.magSq : ℝ)| ≤ √(v.magSq : ℝ) / 2 ^ 48

theorem magSq_eq_zero {v : Coord} (h : v.magSq = 0) : v.lon = 0 ∧ v.lat = 0 := by
  unfold Coord.magSq at h
  constructor <;> nlinarith [mul_self_nonneg v.lon, mul_self_nonneg v.lat]

theorem magSqDeg_zero {v : Coord} (h : v.magSq = 0) : v.magSqDeg = 0 := by
  unfold Coord.magSqDeg Coord.lonDeg Coord.latDeg Coord.degOfMicro
  rw [(magSq_eq_zero h).1, (magSq_eq_zero h).2]; simp [fl_zero]

theorem lenOk_sqrt {sq : ℚ → ℚ} (hsq : SqrtOk sq) : LenOk fun v => sq v.magSqDeg :=
  ⟨fun v h => by rw [magSqDeg_zero h, hsq.zero], fun v h => length_close_of hsq h (magSqDeg_err v)⟩

/-- One component of the unit vector in microdegrees. -/
theorem unit_component {k : ℤ} {m : ℚ} {r : ℝ} (hr : 0 < r) (hm : 0 < m)
    (hc : |1000000 * (m : ℝ) - r| ≤ r / 2 ^ 48) (hk : |(k : ℝ)| ≤ r) :
    |((roundHalfAway (fl (k * fl (1 / m))) : ℤ) : ℝ) - 1000000 * (k / r)| ≤ 1 / 2 + 1 / 10000000 ∧
      0 ≤ roundHalfAway (fl (k * fl (1 / m))) * k := by
  have hmr : (0 : ℝ) < m := by exact_mod_cast hm
  constructor
  · have hc' := abs_le.1 hc
    have hM : r / 2 ≤ 1000000 * (m : ℝ) := by
      have : r / 2 ^ 48 ≤ r / 2 := by
        apply div_le_div_of_nonneg_left hr.le (by norm_num) (by norm_num)
      linarith
    have q1 : |fl (1 / m) - 1 / m| ≤ 1 / m / 2 ^ 53 := by
      have := fl_err (1 / m); rwa [abs_of_pos (by positivity : 0 < 1 / m)] at this
    have hkm : |(k : ℝ)| / m ≤ 2000000 := by
      rw [div_le_iff₀ hmr]; linarith
    have hkmq : |(k : ℚ)| / m ≤ 2000000 := by exact_mod_cast hkm
    have q2 : |k * fl (1 / m) - k / m| ≤ 2000000 / 2 ^ 53 := by
      rw [show k * fl (1 / m) - k / m = k * (fl (1 / m) - 1 / m) by ring, abs_mul]
      calc |(k : ℚ)| * |fl (1 / m) - 1 / m| ≤ |(k : ℚ)| * (1 / m / 2 ^ 53) := by gcongr
        _ = |(k : ℚ)| / m / 2 ^ 53 := by ring
        _ ≤ _ := by gcongr
    have hkb : |k * fl (1 / m)| ≤ 3000000 := by
      have h1 := abs_le.1 q2
      have h2 : |(k : ℚ) / m| ≤ 2000000 := by rwa [abs_div, abs_of_pos hm]
      have h2 := abs_le.1 h2
      have : (2000000 : ℚ) / 2 ^ 53 ≤ 1 := by norm_num
      rw [abs_le]; constructor <;> linarith [h1.1, h1.2, h2.1, h2.2]
    have q3 : |fl (k * fl (1 / m)) - k * fl (1 / m)| ≤ 3000000 / 2 ^ 53 :=
      (fl_err _).trans (by gcongr)
    have q4 := roundHalfAway_err (fl (k * fl (1 / m)))
    have q5 : |(roundHalfAway (fl (k * fl (1 / m))) : ℚ) - k / m| ≤ 1 / 2 + 5000000 / 2 ^ 53 := by
      have h2 := abs_le.1 q2
      have h3 := abs_le.1 q3
      have h4 := abs_le.1 q4
      rw [abs_le]
      constructor <;> linarith [h2.1, h2.2, h3.1, h3.2, h4.1, h4.2]
    have q5' : |((roundHalfAway (fl (k * fl (1 / m))) : ℤ) : ℝ) - k / m| ≤ 1 / 2 + 5000000 / 2 ^ 53 := by
      have := (Rat.cast_le (K := ℝ)).2 q5
      rw [Rat.cast_abs] at this
      push_cast at this
      exact this
    have q6 : |(k : ℝ) / m - 1000000 * (k / r)| ≤ 2000000 / 2 ^ 48 := by
      have e : (k : ℝ) / m - 1000000 * (k / r) = k / m * ((r - 1000000 * m) / r) := by
        field_simp
      rw [e, abs_mul, abs_div, abs_div, abs_of_pos hmr, abs_of_pos hr]
      have : |r - 1000000 * (m : ℝ)| / r ≤ 1 / 2 ^ 48 := by
        rw [div_le_iff₀ hr, abs_sub_comm]; linarith
      calc |(k : ℝ)| / m * (|r - 1000000 * (m : ℝ)| / r) ≤ 2000000 * (1 / 2 ^ 48) := by gcongr
        _ = _ := by ring
    have h5 := abs_le.1 q5'
    have h6 := abs_le.1 q6
    have n1 : (5000000 : ℝ) / 2 ^ 53 ≤ 1 / 20000000 := by norm_num
    have n2 : (2000000 : ℝ) / 2 ^ 48 ≤ 1 / 20000000 := by norm_num
    rw [abs_le]
    constructor <;> linarith [h5.1, h5.2, h6.1, h6.2]
  · have hf : 0 < fl (1 / m) := fl_pos (by positivity)
    rcases le_total 0 k with h | h
    · apply mul_nonneg _ h
      have : (0 : ℚ) ≤ k := by exact_mod_cast h
      have h1 := roundHalfAway_mono (fl_mono (mul_nonneg this hf.le))
      rw [fl_zero, round_zero] at h1
      exact h1
    · apply mul_nonneg_of_nonpos_of_nonpos _ h
      have : (k : ℚ) ≤ 0 := by exact_mod_cast h
      have h1 := roundHalfAway_mono (fl_mono (mul_nonpos_of_nonpos_of_nonneg this hf.le))
      rw [fl_zero, round_zero] at h1
      exact h1

/-- One component of the displacement. -/
theorem shift_component {u : ℤ} {e : ℝ} {margin : ℚ} (h0 : 0 ≤ margin)
    (hu : |(u : ℝ) - e| ≤ 1 / 2 + 1 / 10000000) (he : |e| ≤ 1000000) :
    |((roundHalfAway (fl (u * margin)) : ℤ) : ℝ) - margin * e| ≤
      1 / 2 + margin * (1 / 2 + 1 / 1000000) ∧ 0 ≤ roundHalfAway (fl (u * margin)) * u := by
  constructor
  · have hub : |(u : ℝ)| ≤ 2000000 := by
      have h1 := abs_le.1 hu
      have h2 := abs_le.1 he
      rw [abs_le]; constructor <;> linarith [h1.1, h1.2, h2.1, h2.2]
    have hubq : |(u : ℚ)| ≤ 2000000 := by exact_mod_cast hub
    have q1 : |fl (u * margin) - u * margin| ≤ 2000000 * margin / 2 ^ 53 := by
      refine (fl_err _).trans ?_
      rw [abs_mul, abs_of_nonneg h0]; gcongr
    have q2 := roundHalfAway_err (fl (u * margin))
    have q3 : |(roundHalfAway (fl (u * margin)) : ℚ) - u * margin| ≤
        1 / 2 + 2000000 * margin / 2 ^ 53 := by
      have h1 := abs_le.1 q1
      have h2 := abs_le.1 q2
      rw [abs_le]; constructor <;> linarith [h1.1, h1.2, h2.1, h2.2]
    have q3' : |((roundHalfAway (fl (u * margin)) : ℤ) : ℝ) - u * margin| ≤
        1 / 2 + 2000000 * margin / 2 ^ 53 := by
      have := (Rat.cast_le (K := ℝ)).2 q3
      rw [Rat.cast_abs] at this
      push_cast at this
      exact this
    have h0r : (0 : ℝ) ≤ margin := by exact_mod_cast h0
    have q4 : |(u : ℝ) * margin - margin * e| ≤ margin * (1 / 2 + 1 / 10000000) := by
      rw [show (u : ℝ) * margin - margin * e = margin * (u - e) by ring, abs_mul, abs_of_nonneg h0r]
      gcongr
    have n : 2000000 * (margin : ℝ) / 2 ^ 53 ≤ margin * (1 / 10000000) := by
      rw [div_le_iff₀ (by positivity)]; nlinarith
    have h3 := abs_le.1 q3'
    have h4 := abs_le.1 q4
    rw [abs_le]; constructor <;> linarith [h3.1, h3.2, h4.1, h4.2]
  · rcases le_total 0 u with h | h
    · apply mul_nonneg _ h
      have : (0 : ℚ) ≤ u := by exact_mod_cast h
      have h1 := roundHalfAway_mono (fl_mono (mul_nonneg this h0))
      rw [fl_zero, round_zero] at h1
      exact h1
    · apply mul_nonneg_of_nonpos_of_nonpos _ h
      have : (u : ℚ) ≤ 0 := by exact_mod_cast h
      have h1 := roundHalfAway_mono (fl_mono (mul_nonpos_of_nonpos_of_nonneg this h0))
      rw [fl_zero, round_zero] at h1
      exact h1

/-- `C59_margin` for any length up to rounding. -/
theorem margin_of_len {len : Coord → ℚ} (hlen : LenOk len) (near point : Coord) (hn : near.Geo)
    (hp : point.Geo) (margin : ℚ) (h0 : 0 ≤ margin) (h1 : margin ≤ 1000) :
    ∃ c : Coord, projectLenC len near point margin = .ok c ∧
      ((near.sub point).magSq ≤ 1 ∧ c = near ∨
        let d := near.sub point
        let r := √((d.lon : ℝ) ^ 2 + (d.lat : ℝ) ^ 2)
        |(c.lon - near.lon : ℝ) - margin * (1000000 * (d.lon / r))| ≤
          1 / 2 + margin * (1 / 2 + 1 / 1000000) ∧
        |(c.lat - near.lat : ℝ) - margin * (1000000 * (d.lat / r))| ≤
          1 / 2 + margin * (1 / 2 + 1 / 1000000) ∧
        0 ≤ (c.lon - near.lon) * d.lon ∧ 0 ≤ (c.lat - near.lat) * d.lat) := by
  have hd : near.subC point = .ok (near.sub point) := Coord.subC_ok hn.per hp.per
  have hdb : |(near.sub point).lon| ≤ 360000000 ∧ |(near.sub point).lat| ≤ 180000000 := by
    simp only [Coord.Geo] at hn hp
    simp only [Coord.sub, Coord.add, Coord.neg, abs_le]
    omega
  generalize near.sub point = d at *
  have heps : epsilonTolerance ≤ 10001 / 10000000000 := by
    have := (fl_bounds (x := 1 / 1000000) (by norm_num)).2
    unfold epsilonTolerance
    refine this.trans (by norm_num)
  have heps0 : 0 < epsilonTolerance := fl_pos (by norm_num)
  by_cases hS : d.magSq = 0
  · refine ⟨near, ?_, .inl ⟨by omega, rfl⟩⟩
    unfold projectLenC
    rw [hd]
    simp only [Res.bind_ok, hlen.zero d hS]
    rw [if_neg (by linarith)]
    rfl
  obtain ⟨hm, hc⟩ := hlen.close d hS
  have h0S : 0 < d.magSq := by
    have : 0 ≤ d.magSq := add_nonneg (mul_self_nonneg _) (mul_self_nonneg _)
    omega
  have hr : 0 < √(d.magSq : ℝ) := Real.sqrt_pos.2 (by exact_mod_cast h0S)
  have hrr : √(d.magSq : ℝ) * √(d.magSq : ℝ) = d.magSq :=
    Real.mul_self_sqrt (by exact_mod_cast h0S.le)
  have hre : √((d.lon : ℝ) ^ 2 + (d.lat : ℝ) ^ 2) = √(d.magSq : ℝ) := by
    congr 1; unfold Coord.magSq; push_cast; ring
  have hlon : |(d.lon : ℝ)| ≤ √(d.magSq : ℝ) := by
    apply Real.abs_le_sqrt
    unfold Coord.magSq; push_cast; nlinarith [mul_self_nonneg (d.lat : ℝ)]
  have hlat : |(d.lat : ℝ)| ≤ √(d.magSq : ℝ) := by
    apply Real.abs_le_sqrt
    unfold Coord.magSq; push_cast; nlinarith [mul_self_nonneg (d.lon : ℝ)]
  have hfar : 2 ≤ d.magSq → epsilonTolerance < len d := by
    intro h2
    have h2r : (2 : ℝ) ≤ d.magSq := by exact_mod_cast h2
    have hr' : (14 : ℝ) / 10 ≤ √(d.magSq : ℝ) := by
      apply Real.le_sqrt_of_sq_le; linarith
    have hc1 := (abs_le.1 hc).1
    have : (12 : ℝ) / 10000000 ≤ len d := by
      have : √(d.magSq : ℝ) / 2 ^ 48 ≤ √(d.magSq : ℝ) / 14 := by
        apply div_le_div_of_nonneg_left hr.le (by norm_num) (by norm_num)
      linarith
    have : (12 : ℚ) / 10000000 ≤ len d := by
      have h := this
      rw [show (12 : ℝ) / 10000000 = ((12 / 10000000 : ℚ) : ℝ) by norm_num] at h
      exact Rat.cast_le.1 h
    linarith
  obtain ⟨u1, u2⟩ := unit_component hr hm hc hlon
  obtain ⟨v1, v2⟩ := unit_component hr hm hc hlat
  have el : ∀ k : ℝ, |k| ≤ √(d.magSq : ℝ) → |1000000 * (k / √(d.magSq : ℝ))| ≤ 1000000 := by
    intro k hk
    rw [abs_mul, abs_div, abs_of_pos hr]
    have : |k| / √(d.magSq : ℝ) ≤ 1 := (div_le_one hr).2 hk
    norm_num; linarith
  have bu : ∀ {u : ℤ} {e : ℝ}, |(u : ℝ) - e| ≤ 1 / 2 + 1 / 10000000 → |e| ≤ 1000000 →
      |u| ≤ 1000001 := by
    intro u e h h'
    have a := abs_le.1 h
    have b := abs_le.1 h'
    have : |(u : ℝ)| ≤ 1000001 := by
      rw [abs_le]; constructor <;> linarith [a.1, a.2, b.1, b.2]
    exact_mod_cast this
  have bw : ∀ {w : ℤ} {e : ℝ}, |(w : ℝ) - margin * e| ≤ 1 / 2 + margin * (1 / 2 + 1 / 1000000) →
      |e| ≤ 1000000 → |w| ≤ 1000002000 := by
    intro w e h h'
    have h0r : (0 : ℝ) ≤ margin := by exact_mod_cast h0
    have h1r : (margin : ℝ) ≤ 1000 := by exact_mod_cast h1
    have a := abs_le.1 h
    have b : |(margin : ℝ) * e| ≤ 1000 * 1000000 := by
      rw [abs_mul, abs_of_nonneg h0r]; gcongr
    have b := abs_le.1 b
    have : |(w : ℝ)| ≤ 1000002000 := by
      rw [abs_le]; constructor <;> linarith [a.1, a.2, b.1, b.2]
    exact_mod_cast this
  obtain ⟨w1, w2⟩ := shift_component h0 u1 (el _ hlon)
  obtain ⟨z1, z2⟩ := shift_component h0 v1 (el _ hlat)
  have pu := abs_le.1 (bu u1 (el _ hlon))
  have pv := abs_le.1 (bu v1 (el _ hlat))
  have pw := abs_le.1 (bw w1 (el _ hlon))
  have pz := abs_le.1 (bw z1 (el _ hlat))
  have sign : ∀ {u k : ℤ}, 0 ≤ u * k → 0 ≤ roundHalfAway (fl (u * margin)) * u →
      0 ≤ roundHalfAway (fl (u * margin)) * k := by
    intro u k a b
    by_cases hu : u = 0
    · subst hu; simp [fl_zero, round_zero]
    · have := mul_nonneg a b
      have h2 : 0 < u * u := mul_self_pos.2 hu
      rw [show u * k * (roundHalfAway (fl (u * margin)) * u) =
        (u * u) * (roundHalfAway (fl (u * margin)) * k) by ring] at this
      exact nonneg_of_mul_nonneg_right this h2
  by_cases hb : epsilonTolerance < len d
  · refine ⟨near.add ⟨roundHalfAway (fl (roundHalfAway (fl (d.lon * fl (1 / len d))) * margin)),
      roundHalfAway (fl (roundHalfAway (fl (d.lat * fl (1 / len d))) * margin))⟩, ?_, .inr ?_⟩
    · unfold projectLenC
      rw [hd]
      simp only [Res.bind_ok]
      rw [if_pos hb]
      unfold Coord.divC Coord.scaleC Coord.addC Coord.add
      rw [chk32_ok (by simp only [FitsI32]; omega), chk32_ok (by simp only [FitsI32]; omega)]
      simp only [Res.bind_ok, Res.pure_eq]
      rw [chk32_ok (by simp only [FitsI32]; omega), chk32_ok (by simp only [FitsI32]; omega)]
      simp only [Res.bind_ok]
      simp only [Coord.Geo] at hn
      rw [chk32_ok (by simp only [FitsI32]; omega), chk32_ok (by simp only [FitsI32]; omega)]
      rfl
    · simp only [Coord.add, hre]
      push_cast
      simp only [add_sub_cancel_left]
      exact ⟨w1, z1, sign u2 w2, sign v2 z2⟩
  · refine ⟨near, ?_, .inl ⟨?_, rfl⟩⟩
    · unfold projectLenC
      rw [hd]
      simp only [Res.bind_ok]
      rw [if_neg hb]
      rfl
    · by_contra h
      exact hb (hfar (by omega))

/-- **C59** The corrected point is the nearest point of the segment, or, when that is farther than
the tolerance, the nearest point moved on in the same direction by `margin` degrees, up to rounding of
about half a microdegree for each rounded multiplication.  There is no overflow, and the point is
never moved back.  Points two or more microdegrees apart are always moved. -/
theorem C59_margin (sq : ℚ → ℚ) (hsq : SqrtOk sq) (near point : Coord) (hn : near.Geo)
    (hp : point.Geo) (margin : ℚ) (h0 : 0 ≤ margin) (h1 : margin ≤ 1000) :
    ∃ c : Coord, projectC sq near point margin = .ok c ∧
      ((near.sub point).magSq ≤ 1 ∧ c = near ∨
        let d := near.sub point
        let r := √((d.lon : ℝ) ^ 2 + (d.lat : ℝ) ^ 2)
        |(c.lon - near.lon : ℝ) - margin * (1000000 * (d.lon / r))| ≤
          1 / 2 + margin * (1 / 2 + 1 / 1000000) ∧
        |(c.lat - near.lat : ℝ) - margin * (1000000 * (d.lat / r))| ≤
          1 / 2 + margin * (1 / 2 + 1 / 1000000) ∧
        0 ≤ (c.lon - near.lon) * d.lon ∧ 0 ≤ (c.lat - near.lat) * d.lat) := by
  exact margin_of_len (lenOk_sqrt hsq) near point hn hp margin h0 h1

/-- **C59** Without a margin, which is how the path search calls it, the corrected point is the
nearest point itself. -/
theorem C59_default (sq : ℚ → ℚ) (hsq : SqrtOk sq) (near point : Coord) (hn : near.Geo)
    (hp : point.Geo) : projectC sq near point 0 = .ok near := by
  obtain ⟨c, h1, h2⟩ := C59_margin sq hsq near point hn hp 0 (le_refl _) (by norm_num)
  rw [h1]
  congr 1
  rcases h2 with ⟨_, h⟩ | ⟨a, b, _⟩
  · exact h
  · have key : ∀ {x y : ℤ}, |(x - y : ℝ)| ≤ 1 / 2 → x = y := by
      intro x y h
      have h' : |((x - y : ℤ) : ℝ)| < 1 := by push_cast; linarith
      have : |x - y| < 1 := by exact_mod_cast h'
      have := abs_lt.1 this
      omega
    have ha := key (x := c.lon) (y := near.lon) (by simpa using a)
    have hb := key (x := c.lat) (y := near.lat) (by simpa using b)
    cases c; cases near; simp_all

/-- **C59** A search whose projection is this function, over S2 answers in the geographic range,
meets the assumption on corrected endpoints under which C57 excludes undefined behaviour. -/
theorem C59_land (sq : ℚ → ℚ) (hsq : SqrtOk sq) (near : Seg → Coord → Coord)
    (hnear : ∀ s v, (near s v).Geo) (E : ShortestPath.Env)
    (hE : ∀ s v, E.project s v = projectC sq (near s v) v 0)
    (hc : ∀ v, E.closest v = .error .exn ∨ ∃ e, E.closest v = .ok e ∧ e.p.Per ∧ e.q.Per) :
    LandOk E := by
  intro v hv hl r hr
  unfold ShortestPath.correctOne at hr
  rw [if_pos hl] at hr
  rcases hc v with h | ⟨e, h, h1, h2⟩
  · left; rw [← hr, h]; rfl
  · right
    refine ⟨near e v, e, ?_, hnear e v, h1, h2⟩
    rw [← hr, h]
    simp only [Res.bind_ok, hE, C59_default sq hsq _ _ (hnear e v) hv]
    rfl

/-- A square root as assumed exists. -/
theorem exists_sqrt : ∃ sq, SqrtOk sq := by
  have key : ∀ q : ℚ, 0 < q → ∃ m : ℚ, 0 < m ∧ |m * m - q| ≤ q / 2 ^ 51 := by
    intro q hq
    have hqr : (0 : ℝ) < q := by exact_mod_cast hq
    have hr := Real.sqrt_pos.2 hqr
    have hrr := Real.mul_self_sqrt hqr.le
    obtain ⟨m, h1, h2⟩ := exists_rat_btwn (show √(q : ℝ) < √(q : ℝ) * (1 + 1 / 2 ^ 53) by nlinarith)
    have hm : (0 : ℝ) < m := hr.trans h1
    refine ⟨m, by exact_mod_cast hm, ?_⟩
    have a : (q : ℝ) ≤ m * m := by nlinarith
    have b : (m : ℝ) * m ≤ q + q / 2 ^ 51 := by
      have : (m : ℝ) * m ≤ √(q : ℝ) * (1 + 1 / 2 ^ 53) * (√(q : ℝ) * (1 + 1 / 2 ^ 53)) := by gcongr
      have e : √(q : ℝ) * (1 + 1 / 2 ^ 53) * (√(q : ℝ) * (1 + 1 / 2 ^ 53)) =
        √(q : ℝ) * √(q : ℝ) * ((1 + 1 / 2 ^ 53) * (1 + 1 / 2 ^ 53)) := by ring
      rw [e, hrr] at this
      refine this.trans ?_
      rw [show (q : ℝ) + q / 2 ^ 51 = q * (1 + 1 / 2 ^ 51) by ring]
      apply mul_le_mul_of_nonneg_left _ hqr.le
      norm_num
    have a' : q ≤ m * m := by exact_mod_cast a
    have b' : m * m ≤ q + q / 2 ^ 51 := by exact_mod_cast b
    rw [abs_le]
    constructor
    · have : 0 ≤ q / 2 ^ 51 := by positivity
      linarith
    · linarith
  classical
  refine ⟨fun q => if h : 0 < q then Classical.choose (key q h) else 0, by simp, ?_, ?_⟩
  · intro q h; simp only [dif_pos h]; exact (Classical.choose_spec (key q h)).1
  · intro q h; simp only [dif_pos h]; exact (Classical.choose_spec (key q h)).2

/-- Non-vacuity of C59: a point three steps west and four south of its projection, margin one
degree; it ends up about 0.6 degrees east and 0.8 degrees north of the projection. -/
example (sq : ℚ → ℚ) (hsq : SqrtOk sq) : ∃ c : Coord,
    projectC sq ⟨3, 4⟩ ⟨0, 0⟩ 1 = .ok c ∧ |c.lon - 600003| ≤ 1 ∧ |c.lat - 800004| ≤ 1 := by
  obtain ⟨c, h1, h2⟩ := C59_margin sq hsq ⟨3, 4⟩ ⟨0, 0⟩ (by decide) (by decide) 1 (by norm_num)
    (by norm_num)
  refine ⟨c, h1, ?_⟩
  rcases h2 with ⟨h, _⟩ | ⟨a, b, _⟩
  · exact absurd h (by decide)
  · have e : (Coord.sub ⟨3, 4⟩ ⟨0, 0⟩) = ⟨3, 4⟩ := by decide
    have r : √(25 : ℝ) = 5 := by
      rw [show (25 : ℝ) = 5 ^ 2 by norm_num]; exact Real.sqrt_sq (by norm_num)
    simp only [e] at a b
    norm_num [r] at a b
    have key : ∀ {x : ℤ} {y : ℝ} (n : ℤ), |(x : ℝ) - y| ≤ 1000001 / 1000000 → y = n → |x - n| ≤ 1 := by
      intro x y n h hy
      subst hy
      have : |((x - n : ℤ) : ℝ)| < 2 := by push_cast; linarith
      have : |x - n| < 2 := by exact_mod_cast this
      omega
    rw [sub_sub] at a b
    exact ⟨key 600003 a (by norm_num), key 800004 b (by norm_num)⟩

end Capi
