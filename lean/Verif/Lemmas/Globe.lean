import Verif.Lemmas.Haversine
import Verif.Lemmas.ShortestPath
import Mathlib.Analysis.SpecialFunctions.Trigonometric.Bounds

/-!
# Lemmas about routes on the sphere
-/

namespace Capi

open Sphere ShortestPath

theorem sin_half_ge {x : ℝ} (h0 : 0 ≤ x) (h1 : x ≤ Real.pi) : x / Real.pi ≤ Real.sin (x / 2) := by
  have h := Real.mul_le_sin (x := x / 2) (by linarith) (by linarith)
  calc x / Real.pi = 2 / Real.pi * (x / 2) := by ring
    _ ≤ _ := h

theorem sin_half_sq {x : ℝ} (h1 : |x| ≤ Real.pi) : (x / Real.pi) ^ 2 ≤ Real.sin (x / 2) ^ 2 := by
  have hpi := Real.pi_pos
  have h := sin_half_ge (abs_nonneg x) h1
  have h0 : 0 ≤ |x| / Real.pi := by positivity
  have h2 : Real.sin (|x| / 2) ^ 2 = Real.sin (x / 2) ^ 2 := by
    rcases abs_choice x with h | h
    · rw [h]
    · rw [h, neg_div, Real.sin_neg, neg_sq]
  rw [← h2, show (x / Real.pi) ^ 2 = (|x| / Real.pi) ^ 2 by rw [div_pow, div_pow, sq_abs]]
  exact pow_le_pow_left₀ h0 h 2

/-- The difference in longitude, taken the short way round, and the sine of its half. -/
theorem sin_lon_sq {x : ℝ} (h : |x| ≤ 2 * Real.pi) :
    ((min |x| (2 * Real.pi - |x|)) / Real.pi) ^ 2 ≤ Real.sin (x / 2) ^ 2 := by
  have hpi := Real.pi_pos
  rcases le_total |x| Real.pi with h1 | h1
  · rw [min_eq_left (by linarith)]
    have := sin_half_sq h1
    rwa [div_pow, sq_abs, ← div_pow]
  · rw [min_eq_right (by linarith)]
    have h2 := sin_half_sq (x := 2 * Real.pi - |x|) (by rw [abs_le]; constructor <;> linarith)
    refine h2.trans (le_of_eq ?_)
    rw [show (2 * Real.pi - |x|) / 2 = Real.pi - |x| / 2 by ring, Real.sin_pi_sub]
    rcases abs_choice x with h | h
    · rw [h]
    · rw [h, neg_div, Real.sin_neg, neg_sq]

theorem arcLength_ge {a b : Coord} (ha : a.Geo) (hb : b.Geo) : 2 * √(hav a b) ≤ arcLength a b := by
  rw [arcLength_eq ha hb]
  obtain ⟨h0, h1⟩ := hav_range ha hb
  have s0 := Real.sqrt_nonneg (hav a b)
  have s1 : √(hav a b) ≤ 1 := Real.sqrt_le_one.2 h1
  have h2 := Real.sin_le (Real.arcsin_nonneg.2 s0)
  rw [Real.sin_arcsin (by linarith) s1] at h2
  linarith

/-- The difference in longitude in microdegrees, the short way round. -/
def shortLon (a b : Coord) : ℤ := min |b.lon - a.lon| (360000000 - |b.lon - a.lon|)

theorem wrapDist_short (a b : Coord) : wrapDist a b ≤
    √((shortLon a b : ℝ) ^ 2 + ((b.lat - a.lat : ℤ) : ℝ) ^ 2) / 1000000 + 1 / 1000000 := by
  have hl : (((a.lat - b.lat : ℤ) : ℝ)) ^ 2 = ((b.lat - a.lat : ℤ) : ℝ) ^ 2 := by push_cast; ring
  unfold shortLon
  rcases le_total |b.lon - a.lon| (360000000 - |b.lon - a.lon|) with h | h
  · rw [min_eq_left h]
    refine (wrapDist_le a b 0 (Or.inl rfl)).trans ?_
    have : planeDist a b 0 = √(((|b.lon - a.lon| : ℤ) : ℝ) ^ 2 + ((b.lat - a.lat : ℤ) : ℝ) ^ 2) / 1000000 := by
      unfold planeDist
      rw [hl, Int.cast_abs, sq_abs]
      congr 3
      push_cast
      ring
    rw [this]
    linarith
  · rw [min_eq_right h]
    obtain ⟨k, hk, e⟩ : ∃ k : ℤ, (k = 0 ∨ k = 1 ∨ k = -1) ∧
        ((a.lon + k * 360000001 - b.lon : ℤ) : ℝ) ^ 2 =
          (((360000000 - |b.lon - a.lon| : ℤ) : ℝ) + 1) ^ 2 := by
      rcases abs_choice (b.lon - a.lon) with h | h
      · refine ⟨1, Or.inr (Or.inl rfl), ?_⟩
        rw [h]; push_cast; ring
      · refine ⟨-1, Or.inr (Or.inr rfl), ?_⟩
        rw [h]; push_cast; ring
    refine (wrapDist_le a b k hk).trans ?_
    unfold planeDist
    rw [hl, e, ← add_div]
    refine div_le_div_of_nonneg_right ?_ (by norm_num)
    have h1 := sqrt_triangle ((360000000 - |b.lon - a.lon| : ℤ) : ℝ) ((b.lat - a.lat : ℤ) : ℝ) 1 0
    simpa using h1

theorem cos_lat_ge {c : Coord} {φ : ℤ} (hφ : φ ≤ 90000000) (h : |c.lat| ≤ φ) :
    Real.cos (rad φ) ≤ Real.cos (rad c.lat) := by
  have h0 : 0 ≤ rad |c.lat| := by
    have := rad_le (abs_nonneg c.lat)
    rwa [rad_0] at this
  have h1 : Real.cos (rad c.lat) = Real.cos (rad |c.lat|) := by
    rcases abs_choice c.lat with h | h
    · rw [h]
    · rw [h, rad_neg, Real.cos_neg]
  rw [h1]
  refine Real.cos_le_cos_of_nonneg_of_le_pi h0 ?_ (rad_le h)
  have := rad_le hφ
  rw [rad_90] at this
  linarith [Real.pi_pos]

/-- The distance on the sphere of places up to a given latitude is at least a part of that for the
search. -/
theorem arcLength_wrap {a b : Coord} (ha : a.Geo) (hb : b.Geo) {φ : ℤ} (hφ : φ ≤ 90000000)
    (h1 : |a.lat| ≤ φ) (h2 : |b.lat| ≤ φ) :
    Real.cos (rad φ) * (wrapDist a b - 1 / 1000000) ≤ 90 * arcLength a b := by
  have hpi := Real.pi_pos
  have c0 : 0 ≤ Real.cos (rad φ) := by
    have h0 : (0 : ℤ) ≤ φ := (abs_nonneg _).trans h1
    apply Real.cos_nonneg_of_neg_pi_div_two_le_of_le
    · have := rad_le h0; rw [rad_0] at this; linarith
    · have := rad_le hφ; rwa [rad_90] at this
  have ca := cos_lat_ge hφ h1
  have cb := cos_lat_ge hφ h2
  set c := Real.cos (rad φ) with hc
  set M : ℝ := (shortLon a b : ℝ) with hM
  set Y : ℝ := ((b.lat - a.lat : ℤ) : ℝ) with hY
  have c1 : c ≤ 1 := Real.cos_le_one _
  have ey : rad b.lat - rad a.lat = Y / 1000000 * (Real.pi / 180) := by
    rw [← rad_sub]; rfl
  have ex : rad b.lon - rad a.lon = ((b.lon - a.lon : ℤ) : ℝ) / 1000000 * (Real.pi / 180) := by
    rw [← rad_sub]; rfl
  obtain ⟨a1, a2, a3, a4⟩ := ha
  obtain ⟨b1, b2, b3, b4⟩ := hb
  have dy : |rad b.lat - rad a.lat| ≤ Real.pi := by
    rw [← rad_sub, ← rad_180, abs_le, ← rad_neg]
    exact ⟨rad_le (by omega), rad_le (by omega)⟩
  have ax : |rad b.lon - rad a.lon| = ((|b.lon - a.lon| : ℤ) : ℝ) / 1000000 * (Real.pi / 180) := by
    rw [ex, abs_mul, abs_div, abs_of_nonneg (show (0 : ℝ) ≤ Real.pi / 180 by positivity),
      abs_of_nonneg (show (0 : ℝ) ≤ 1000000 by norm_num), Int.cast_abs]
  have bx : |b.lon - a.lon| ≤ 360000000 := by rw [abs_le]; omega
  have dx : |rad b.lon - rad a.lon| ≤ 2 * Real.pi := by
    have : ((|b.lon - a.lon| : ℤ) : ℝ) ≤ 360000000 := by exact_mod_cast bx
    rw [ax]
    calc _ ≤ 360000000 / 1000000 * (Real.pi / 180) := by gcongr
      _ = _ := by ring
  have em : min |rad b.lon - rad a.lon| (2 * Real.pi - |rad b.lon - rad a.lon|) =
      M / 1000000 * (Real.pi / 180) := by
    have e2 : 2 * Real.pi - |rad b.lon - rad a.lon| =
        ((360000000 - |b.lon - a.lon| : ℤ) : ℝ) / 1000000 * (Real.pi / 180) := by
      rw [ax]; push_cast; ring
    rw [e2, ax, hM]
    unfold shortLon
    rw [Int.cast_min, ← min_div_div_right (by norm_num), min_mul_of_nonneg _ _ (by positivity)]
  have s1 := sin_half_sq dy
  have s2 := sin_lon_sq dx
  rw [em] at s2
  rw [ey] at s1
  have key : (c * √(M ^ 2 + Y ^ 2) / 180000000) ^ 2 ≤ hav a b := by
    rw [div_pow, mul_pow, Real.sq_sqrt (by positivity)]
    unfold hav
    have p1 : (Y / 180000000) ^ 2 ≤ Real.sin ((rad b.lat - rad a.lat) / 2) ^ 2 := by
      rw [ey]
      refine le_trans (le_of_eq ?_) s1
      field_simp
      ring
    have p2 : (M / 180000000) ^ 2 ≤ Real.sin ((rad b.lon - rad a.lon) / 2) ^ 2 := by
      refine le_trans (le_of_eq ?_) s2
      field_simp
      ring
    have p3 : c * c ≤ Real.cos (rad a.lat) * Real.cos (rad b.lat) :=
      mul_le_mul ca cb c0 (c0.trans ca)
    have p4 : (M / 180000000) ^ 2 * (c * c) ≤ Real.sin ((rad b.lon - rad a.lon) / 2) ^ 2 *
        (Real.cos (rad a.lat) * Real.cos (rad b.lat)) := by gcongr
    have p5 : c * c * (Y / 180000000) ^ 2 ≤ 1 * (Y / 180000000) ^ 2 := by
      gcongr
      nlinarith
    calc c ^ 2 * (M ^ 2 + Y ^ 2) / 180000000 ^ 2 =
        c * c * (Y / 180000000) ^ 2 + (M / 180000000) ^ 2 * (c * c) := by ring
      _ ≤ 1 * (Y / 180000000) ^ 2 + _ := add_le_add p5 p4
      _ ≤ _ := by
        rw [one_mul, mul_assoc (Real.sin ((rad b.lon - rad a.lon) / 2) ^ 2)]
        exact add_le_add p1 le_rfl
  have r := Real.abs_le_sqrt key
  rw [abs_of_nonneg (by positivity)] at r
  have r2 := arcLength_ge (a := a) (b := b) ⟨a1, a2, a3, a4⟩ ⟨b1, b2, b3, b4⟩
  have r3 := wrapDist_short a b
  rw [← hM, ← hY] at r3
  calc c * (wrapDist a b - 1 / 1000000) ≤ c * (√(M ^ 2 + Y ^ 2) / 1000000) := by
        gcongr
        linarith
    _ = 180 * (c * √(M ^ 2 + Y ^ 2) / 180000000) := by ring
    _ ≤ 180 * √(hav a b) := by linarith
    _ ≤ _ := by linarith

end Capi
