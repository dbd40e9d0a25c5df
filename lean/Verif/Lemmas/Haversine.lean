import Verif.Model.Haversine
import Verif.Spec.Haversine
import Verif.Lemmas.Loop
import Verif.Lemmas.Binary64
import Mathlib.Analysis.InnerProductSpace.PiL2
import Verif.Props.Sphere
import Mathlib.Analysis.Real.Pi.Bounds
import Mathlib.Geometry.Euclidean.Angle.Unoriented.TriangleInequality

/-!
# Lemmas about distances on the sphere
-/

namespace Capi.Sphere

/-- The exact number under the root. -/
noncomputable def hav (a b : Coord) : ℝ :=
  Real.sin ((rad b.lat - rad a.lat) / 2) ^ 2 +
    Real.sin ((rad b.lon - rad a.lon) / 2) ^ 2 * Real.cos (rad a.lat) * Real.cos (rad b.lat)

theorem cos_two (x y : ℝ) : Real.cos (x - y) = 1 - 2 * Real.sin ((x - y) / 2) ^ 2 := by
  have h := Real.cos_two_mul ((x - y) / 2)
  rw [show 2 * ((x - y) / 2) = x - y by ring] at h
  rw [h, Real.cos_sq']
  ring

/-- The scalar product of two places. -/
theorem dot_eq (a b : Coord) :
    (onSphere a).1 * (onSphere b).1 + (onSphere a).2.1 * (onSphere b).2.1 +
      (onSphere a).2.2 * (onSphere b).2.2 = 1 - 2 * hav a b := by
  have h1 := cos_two (rad b.lat) (rad a.lat)
  have h2 := cos_two (rad b.lon) (rad a.lon)
  have h3 := Real.cos_sub (rad b.lat) (rad a.lat)
  have h4 := Real.cos_sub (rad b.lon) (rad a.lon)
  unfold hav onSphere
  dsimp only
  linear_combination h1 - h3 +
    Real.cos (rad a.lat) * Real.cos (rad b.lat) * (h2 - h4)

theorem cos_lat_nonneg {c : Coord} (hc : c.Geo) : 0 ≤ Real.cos (rad c.lat) := by
  obtain ⟨-, -, g3, g4⟩ := hc
  apply Real.cos_nonneg_of_neg_pi_div_two_le_of_le
  · rw [← rad_90, ← rad_neg]; exact rad_le g3
  · rw [← rad_90]; exact rad_le g4

theorem norm_onSphere (c : Coord) :
    (onSphere c).1 * (onSphere c).1 + (onSphere c).2.1 * (onSphere c).2.1 +
      (onSphere c).2.2 * (onSphere c).2.2 = 1 := by
  rw [dot_eq]
  unfold hav
  simp

theorem hav_range {a b : Coord} (ha : a.Geo) (hb : b.Geo) : 0 ≤ hav a b ∧ hav a b ≤ 1 := by
  constructor
  · have := cos_lat_nonneg ha
    have := cos_lat_nonneg hb
    unfold hav
    positivity
  · have h := dot_eq a b
    have h1 := norm_onSphere a
    have h2 := norm_onSphere b
    nlinarith [mul_self_nonneg ((onSphere a).1 + (onSphere b).1),
      mul_self_nonneg ((onSphere a).2.1 + (onSphere b).2.1),
      mul_self_nonneg ((onSphere a).2.2 + (onSphere b).2.2)]

/-- Half the distance is the angle whose sine is the root. -/
theorem arcLength_eq {a b : Coord} (ha : a.Geo) (hb : b.Geo) :
    arcLength a b = 2 * Real.arcsin (√(hav a b)) := by
  obtain ⟨h0, h1⟩ := hav_range ha hb
  have s0 := Real.sqrt_nonneg (hav a b)
  have s1 : √(hav a b) ≤ 1 := Real.sqrt_le_one.2 h1
  unfold arcLength
  rw [dot_eq]
  have hc : Real.cos (2 * Real.arcsin (√(hav a b))) = 1 - 2 * hav a b := by
    rw [Real.cos_two_mul, Real.cos_sq', Real.sin_arcsin (by linarith) s1, Real.sq_sqrt h0]
    ring
  rw [← hc, Real.arccos_cos]
  · linarith [Real.arcsin_nonneg.2 s0]
  · linarith [Real.arcsin_le_pi_div_two (√(hav a b))]

/-- A rounded product of numbers close to numbers of absolute value at most 1. -/
theorem prod_close {a b : ℚ} {x y e f : ℝ} (hx : |x| ≤ 1) (hy : |y| ≤ 1) (he : e ≤ 100) (hf : f ≤ 100)
    (ha : |(a : ℝ) - x| ≤ e / 2 ^ 50) (hb : |(b : ℝ) - y| ≤ f / 2 ^ 50) :
    |((fl (a * b) : ℚ) : ℝ) - x * y| ≤ (e + f + 1) / 2 ^ 50 := by
  have h1 := rel_fl (a * b)
  unfold Rel at h1
  push_cast at h1
  have hp : (0 : ℝ) < 1 / 2 ^ 50 := by positivity
  have e0 : 0 ≤ e / 2 ^ 50 := (abs_nonneg _).trans ha
  have f0 : 0 ≤ f / 2 ^ 50 := (abs_nonneg _).trans hb
  have ee : (a : ℝ) * b - x * y = (a - x) * (b - y) + x * (b - y) + y * (a - x) := by ring
  have h2 : |(a : ℝ) * b - x * y| ≤ (e + f + 1 / 2) / 2 ^ 50 := by
    rw [ee]
    have t1 : |((a : ℝ) - x) * (b - y)| ≤ 100 / 2 ^ 50 * (100 / 2 ^ 50) := by
      rw [abs_mul]
      refine mul_le_mul (ha.trans ?_) (hb.trans ?_) (abs_nonneg _) (by positivity) <;> gcongr
    have t2 : |x * (b - y)| ≤ 1 * (f / 2 ^ 50) := by
      rw [abs_mul]
      exact mul_le_mul hx hb (abs_nonneg _) zero_le_one
    have t3 : |y * (a - x)| ≤ 1 * (e / 2 ^ 50) := by
      rw [abs_mul]
      exact mul_le_mul hy ha (abs_nonneg _) zero_le_one
    have t4 := abs_add_le (((a : ℝ) - x) * (b - y) + x * (b - y)) (y * (a - x))
    have t5 := abs_add_le (((a : ℝ) - x) * (b - y)) (x * (b - y))
    have t6 : (100 : ℝ) / 2 ^ 50 * (100 / 2 ^ 50) ≤ 1 / 2 / 2 ^ 50 := by norm_num
    have t7 : (e + f + 1 / 2) / 2 ^ 50 = e / 2 ^ 50 + f / 2 ^ 50 + 1 / 2 / 2 ^ 50 := by ring
    linarith
  have h3 : |(a : ℝ) * b| ≤ 2 := by
    have t1 : |x * y| ≤ 1 := by
      rw [abs_mul]
      exact mul_le_one₀ hx (abs_nonneg _) hy
    have t2 := abs_sub_abs_le_abs_sub ((a : ℝ) * b) (x * y)
    have t3 : (e + f + 1 / 2) / 2 ^ 50 ≤ 201 / 2 ^ 50 := by gcongr; linarith
    have t4 : (201 : ℝ) / 2 ^ 50 ≤ 1 := by norm_num
    linarith
  have h4 := abs_sub_le ((fl (a * b) : ℚ) : ℝ) ((a : ℝ) * b) (x * y)
  have h5 : (1 : ℝ) / 2 ^ 53 * |(a : ℝ) * b| ≤ 1 / 2 / 2 ^ 50 := by
    calc (1 : ℝ) / 2 ^ 53 * |(a : ℝ) * b| ≤ 1 / 2 ^ 53 * 2 := by gcongr
      _ ≤ _ := by norm_num
  have h6 : (e + f + 1) / 2 ^ 50 = (e + f + 1 / 2) / 2 ^ 50 + 1 / 2 / 2 ^ 50 := by ring
  linarith

/-- The sine of half a difference. -/
theorem half_sin_close {L : Libm} (hL : L.Ok) {m n : ℤ} (hm : |m| ≤ 180000000)
    (hn : |n| ≤ 180000000) :
    |(L.sin (fl (1 / 2 * fl (radians n - radians m))) : ℝ) - Real.sin ((rad n - rad m) / 2)| ≤
      6 / 2 ^ 50 := by
  rw [abs_le] at hm hn
  have c1 := radians_close hm.1 hm.2
  have c2 := radians_close hn.1 hn.2
  have l1 := radians_lt hm.1 hm.2
  have l2 := radians_lt hn.1 hn.2
  have hp := Real.pi_lt_d2
  have r1 := rel_fl (radians n - radians m)
  have r2 := rel_fl (1 / 2 * fl (radians n - radians m))
  unfold Rel at r1 r2
  push_cast at r1 r2
  set d : ℝ := ((fl (radians n - radians m) : ℚ) : ℝ)
  set g : ℚ := fl (1 / 2 * fl (radians n - radians m))
  have a1 : |(radians n : ℝ) - radians m| ≤ 7 := by
    rw [abs_le]; rw [abs_lt] at l1 l2; constructor <;> linarith [l1.1, l1.2, l2.1, l2.2]
  have a2 : |d - ((radians n : ℝ) - radians m)| ≤ 7 / 2 ^ 53 := by
    refine r1.trans ?_
    calc (1 : ℝ) / 2 ^ 53 * |(radians n : ℝ) - radians m| ≤ 1 / 2 ^ 53 * 7 := by gcongr
      _ = _ := by ring
  have a3 : |d - (rad n - rad m)| ≤ 9 / 2 ^ 50 := by
    rw [abs_le] at *
    constructor <;> norm_num at * <;> linarith [a2.1, a2.2, c1.1, c1.2, c2.1, c2.2]
  have a4 : |(1 / 2 : ℝ) * d| ≤ 4 := by
    have : |d| ≤ 8 := by
      rw [abs_le] at *
      constructor <;> norm_num at * <;> linarith [a2.1, a2.2, a1.1, a1.2]
    rw [abs_mul, abs_of_pos (by norm_num : (0 : ℝ) < 1 / 2)]
    linarith
  have a5 : |(g : ℝ) - 1 / 2 * d| ≤ 4 / 2 ^ 53 := by
    refine r2.trans ?_
    calc (1 : ℝ) / 2 ^ 53 * |(1 / 2 : ℝ) * d| ≤ 1 / 2 ^ 53 * 4 := by gcongr
      _ = _ := by ring
  have a6 : |(g : ℝ) - (rad n - rad m) / 2| ≤ 5 / 2 ^ 50 := by
    rw [abs_le] at *
    constructor <;> norm_num at * <;> linarith [a3.1, a3.2, a5.1, a5.2]
  have a7 := (Real.abs_sin_sub_sin_le (g : ℝ) ((rad n - rad m) / 2)).trans a6
  have a8 := hL.sin g
  have a9 : (1 : ℝ) / 2 ^ 50 * |Real.sin (g : ℝ)| ≤ 1 / 2 ^ 50 := by
    have := Real.abs_sin_le_one (g : ℝ)
    have h : (0 : ℝ) < 1 / 2 ^ 50 := by positivity
    nlinarith
  have := abs_sub_le (L.sin g : ℝ) (Real.sin (g : ℝ)) (Real.sin ((rad n - rad m) / 2))
  have : (6 : ℝ) / 2 ^ 50 = 1 / 2 ^ 50 + 5 / 2 ^ 50 := by ring
  linarith

theorem cos_radians_pos {L : Libm} (hL : L.Ok) {c : Coord} (hc : c.Geo) : 0 < L.cos (radians c.lat) := by
  obtain ⟨-, -, g3, g4⟩ := hc
  have h := abs_lt.1 (radians_lt_half g3 g4)
  have hp : 0 < Real.cos (radians c.lat : ℝ) :=
    Real.cos_pos_of_mem_Ioo ⟨by linarith [h.1], by linarith [h.2]⟩
  have := (sign_of_rel (hL.cos (radians c.lat))).1 hp
  exact_mod_cast this

theorem haversine_nonneg {L : Libm} (hL : L.Ok) {a b : Coord} (ha : a.Geo) (hb : b.Geo) :
    0 ≤ haversine L a b := by
  have := (cos_radians_pos hL ha).le
  have := (cos_radians_pos hL hb).le
  unfold haversine
  have hf : ∀ {q : ℚ}, 0 ≤ q → 0 ≤ fl q := fun h => by
    have := fl_mono h; rwa [fl_zero] at this
  refine hf (add_nonneg (hf (mul_self_nonneg _)) (hf (mul_nonneg (hf (mul_nonneg (hf (mul_self_nonneg _)) ?_)) ?_))) <;>
    assumption

theorem haversine_close {L : Libm} (hL : L.Ok) {a b : Coord} (ha : a.Geo) (hb : b.Geo) :
    |(haversine L a b : ℝ) - hav a b| ≤ 39 / 2 ^ 50 := by
  obtain ⟨a1, a2, a3, a4⟩ := id ha
  obtain ⟨b1, b2, b3, b4⟩ := id hb
  have s := Real.abs_sin_le_one
  have k := Real.abs_cos_le_one
  have p1 := half_sin_close hL (m := a.lat) (n := b.lat) (by rw [abs_le]; omega) (by rw [abs_le]; omega)
  have p2 := half_sin_close hL (m := a.lon) (n := b.lon) (by rw [abs_le]; omega) (by rw [abs_le]; omega)
  have c1 := cos_close hL (n := a.lat) (by omega) (by omega)
  have c2 := cos_close hL (n := b.lat) (by omega) (by omega)
  have q1 := prod_close (s _) (s _) (by norm_num) (by norm_num) p1 p1
  have q2 := prod_close (s _) (s _) (by norm_num) (by norm_num) p2 p2
  have m1 : ∀ {x y : ℝ}, |x| ≤ 1 → |y| ≤ 1 → |x * y| ≤ 1 := fun hx hy => by
    rw [abs_mul]; exact mul_le_one₀ hx (abs_nonneg _) hy
  have q3 := prod_close (m1 (s _) (s _)) (k _) (by norm_num) (by norm_num) q2 c1
  have q4 := prod_close (m1 (m1 (s _) (s _)) (k _)) (k _) (by norm_num) (by norm_num) q3 c2
  obtain ⟨h0, h1⟩ := hav_range ha hb
  unfold haversine
  dsimp only
  set u : ℚ := fl (L.sin (fl (1 / 2 * fl (radians b.lat - radians a.lat))) *
    L.sin (fl (1 / 2 * fl (radians b.lat - radians a.lat))))
  set v : ℚ := fl (fl (fl (L.sin (fl (1 / 2 * fl (radians b.lon - radians a.lon))) *
    L.sin (fl (1 / 2 * fl (radians b.lon - radians a.lon)))) * L.cos (radians a.lat)) *
      L.cos (radians b.lat))
  have r := rel_fl (u + v)
  unfold Rel at r
  push_cast at r
  have e : |(u : ℝ) + v - hav a b| ≤ 38 / 2 ^ 50 := by
    unfold hav
    rw [abs_le] at *
    norm_num at *
    constructor <;> nlinarith [q1.1, q1.2, q4.1, q4.2]
  have e2 : |(u : ℝ) + v| ≤ 2 := by
    rw [abs_le] at *
    norm_num at *
    constructor <;> linarith [e.1, e.2]
  have e3 : (1 : ℝ) / 2 ^ 53 * |(u : ℝ) + v| ≤ 2 / 2 ^ 53 := by
    calc (1 : ℝ) / 2 ^ 53 * |(u : ℝ) + v| ≤ 1 / 2 ^ 53 * 2 := by gcongr
      _ = _ := by ring
  have := abs_sub_le ((fl (u + v) : ℚ) : ℝ) (u + v) (hav a b)
  norm_num at *
  linarith

/-- The angles of two sines of which the squares are close. -/
theorem angle_close {s t δ : ℝ} (hs0 : 0 ≤ s) (hs1 : s ≤ Real.pi / 2) (ht0 : 0 ≤ t)
    (ht1 : t ≤ Real.pi / 2) (h : |Real.sin s ^ 2 - Real.sin t ^ 2| ≤ δ) :
    |s - t| ^ 2 ≤ (Real.pi / 2) ^ 2 * δ ∧
      |s - t| * Real.sin (s + t) ≤ Real.pi / 2 * δ ∧
        Real.sin (2 * t) - |s - t| ≤ Real.sin (s + t) := by
  have hpi := Real.pi_pos
  have e : Real.sin s ^ 2 - Real.sin t ^ 2 = Real.sin (s - t) * Real.sin (s + t) := by
    rw [Real.sin_sub, Real.sin_add]
    have h1 := Real.sin_sq_add_cos_sq s
    have h2 := Real.sin_sq_add_cos_sq t
    linear_combination Real.sin t ^ 2 * h1 - Real.sin s ^ 2 * h2
  set d := |s - t| with hd
  have d0 : 0 ≤ d := abs_nonneg _
  have d1 : d ≤ Real.pi / 2 := by rw [hd, abs_le]; constructor <;> linarith
  have d2 : d ≤ s + t := by rw [hd, abs_le]; constructor <;> linarith
  have d3 : s + t ≤ Real.pi - d := by
    rcases abs_cases (s - t) with ⟨h, -⟩ | ⟨h, -⟩ <;> rw [hd, h] <;> linarith
  have j := Real.mul_le_sin d0 d1
  have sd : |Real.sin (s - t)| = Real.sin d := by
    rw [hd]
    rcases abs_cases (s - t) with ⟨h, h'⟩ | ⟨h, h'⟩
    · rw [h, abs_of_nonneg]
      exact Real.sin_nonneg_of_nonneg_of_le_pi h' (by linarith)
    · rw [h, Real.sin_neg, abs_of_nonpos]
      exact Real.sin_nonpos_of_nonpos_of_neg_pi_le h'.le (by linarith)
  have s2 : Real.sin d ≤ Real.sin (s + t) := by
    by_cases hc : s + t ≤ Real.pi / 2
    · exact Real.sin_le_sin_of_le_of_le_pi_div_two (by linarith) hc d2
    · rw [← Real.sin_pi_sub (s + t)]
      exact Real.sin_le_sin_of_le_of_le_pi_div_two (by linarith) (by linarith) (by linarith)
  have sp : 0 ≤ Real.sin d := Real.sin_nonneg_of_nonneg_of_le_pi d0 (by linarith)
  rw [e, abs_mul, sd, abs_of_nonneg (sp.trans s2)] at h
  have j' : d ≤ Real.pi / 2 * Real.sin d := by
    have := mul_le_mul_of_nonneg_left j (by positivity : 0 ≤ Real.pi / 2)
    rwa [show Real.pi / 2 * (2 / Real.pi * d) = d by field_simp] at this
  refine ⟨?_, ?_, ?_⟩
  · calc d ^ 2 ≤ (Real.pi / 2 * Real.sin d) ^ 2 := by gcongr
      _ = (Real.pi / 2) ^ 2 * (Real.sin d * Real.sin d) := by ring
      _ ≤ (Real.pi / 2) ^ 2 * (Real.sin d * Real.sin (s + t)) := by gcongr
      _ ≤ _ := by gcongr
  · calc d * Real.sin (s + t) ≤ Real.pi / 2 * Real.sin d * Real.sin (s + t) := by
          gcongr; exact sp.trans s2
      _ = Real.pi / 2 * (Real.sin d * Real.sin (s + t)) := by ring
      _ ≤ _ := by gcongr
  · have := Real.abs_sin_sub_sin_le (2 * t) (s + t)
    rw [show 2 * t - (s + t) = -(s - t) by ring, abs_neg] at this
    linarith [(abs_le.1 this).2]

/-- From the squares of the sines to the distance. -/
theorem double_close {s t o : ℝ} (hs0 : 0 ≤ s) (hs1 : s ≤ Real.pi / 2) (ht0 : 0 ≤ t)
    (ht1 : t ≤ Real.pi / 2) (h : |Real.sin s ^ 2 - Real.sin t ^ 2| ≤ 40 / 2 ^ 50)
    (ho : |o - 2 * s| ≤ 4 / 2 ^ 50) :
    |o - 2 * t| ≤ 1 / 1000000 ∧ |o - 2 * t| * Real.sin (2 * t) ≤ 1 / 2 ^ 41 := by
  obtain ⟨k1, k2, k3⟩ := angle_close hs0 hs1 ht0 ht1 h
  have hpi := Real.pi_lt_d2
  have hpi0 := Real.pi_pos
  have hall : |o - 2 * t| ≤ 2 * |s - t| + 4 / 2 ^ 50 := by
    have h2 : |2 * s - 2 * t| = 2 * |s - t| := by
      rw [← mul_sub, abs_mul, abs_of_pos (by norm_num : (0 : ℝ) < 2)]
    have := abs_sub_le o (2 * s) (2 * t)
    linarith
  have e0 : 0 ≤ |s - t| := abs_nonneg _
  generalize |s - t| = e at *
  have hpi2 : (Real.pi / 2) ^ 2 ≤ 2.5 := by
    calc (Real.pi / 2) ^ 2 ≤ (3.15 / 2) ^ 2 := by gcongr
      _ ≤ _ := by norm_num
  have k1' : e ^ 2 ≤ (10 / 2 ^ 25) ^ 2 := by
    refine k1.trans ?_
    calc (Real.pi / 2) ^ 2 * (40 / 2 ^ 50) ≤ 2.5 * (40 / 2 ^ 50) := by gcongr
      _ = _ := by norm_num
  have e1 : e ≤ 10 / 2 ^ 25 := le_of_sq_le_sq k1' (by positivity)
  have sd0 : 0 ≤ Real.sin (2 * t) :=
    Real.sin_nonneg_of_nonneg_of_le_pi (by linarith) (by linarith)
  have sd1 : Real.sin (2 * t) ≤ 1 := Real.sin_le_one _
  constructor
  · have : 2 * (10 / 2 ^ 25 : ℝ) + 4 / 2 ^ 50 ≤ 1 / 1000000 := by norm_num
    linarith
  · have key : 2 * e * Real.sin (2 * t) ≤ 400 / 2 ^ 50 := by
      by_cases hc : 2 * e ≤ Real.sin (2 * t)
      · have h1 : e * (Real.sin (2 * t) / 2) ≤ e * Real.sin (s + t) := by
          gcongr; linarith
        have h2 : Real.pi / 2 * (40 / 2 ^ 50) ≤ 1.6 * (40 / 2 ^ 50) := by gcongr; linarith
        have h3 : (4 : ℝ) * (1.6 * (40 / 2 ^ 50)) ≤ 400 / 2 ^ 50 := by norm_num
        linarith
      · push Not at hc
        have h1 : 2 * e * Real.sin (2 * t) ≤ 2 * e * (2 * e) := by gcongr
        have h3 : (4 : ℝ) * (10 / 2 ^ 25) ^ 2 ≤ 400 / 2 ^ 50 := by norm_num
        nlinarith
    calc |o - 2 * t| * Real.sin (2 * t)
        ≤ (2 * e + 4 / 2 ^ 50) * Real.sin (2 * t) := by gcongr
      _ = 2 * e * Real.sin (2 * t) + 4 / 2 ^ 50 * Real.sin (2 * t) := by ring
      _ ≤ 400 / 2 ^ 50 + 4 / 2 ^ 50 * 1 := by gcongr
      _ ≤ _ := by norm_num

theorem asin_close {L : Libm} {asin : ℚ → ℚ} (hs : AsinOk L asin) {y : ℚ} (y0 : 0 ≤ y) (y1 : y ≤ 1) :
    |((fl (2 * asin y) : ℚ) : ℝ) - 2 * Real.arcsin y| ≤ 4 / 2 ^ 50 := by
  have hpi := Real.pi_lt_d2
  have s0 : 0 ≤ Real.arcsin (y : ℝ) := Real.arcsin_nonneg.2 (by exact_mod_cast y0)
  have s1 : Real.arcsin (y : ℝ) ≤ Real.pi / 2 := Real.arcsin_le_pi_div_two _
  have ha1 := hs.close y y0 y1
  generalize Real.arcsin (y : ℝ) = s at *
  have hr := rel_fl (2 * asin y)
  unfold Rel at hr
  push_cast at hr
  have ha2 : |(asin y : ℝ) - s| ≤ 1.6 / 2 ^ 50 := by
    refine ha1.trans ?_
    calc (1 : ℝ) / 2 ^ 50 * s ≤ 1 / 2 ^ 50 * 1.6 := by gcongr; linarith
      _ = _ := by ring
  generalize (asin y : ℝ) = x at *
  have h0 := abs_le.1 ha2
  have ha3 : |2 * x| ≤ 4 := by
    have : (1.6 : ℝ) / 2 ^ 50 ≤ 0.1 := by norm_num
    rw [abs_le]
    constructor <;> linarith [h0.1, h0.2]
  have hr' := hr.trans (mul_le_mul_of_nonneg_left ha3 (by positivity))
  have h1 := abs_le.1 hr'
  have h2 : 2 * (1.6 / 2 ^ 50 : ℝ) + 1 / 2 ^ 53 * 4 ≤ 4 / 2 ^ 50 := by norm_num
  rw [abs_le]
  constructor <;> linarith [h0.1, h0.2, h1.1, h1.2]

theorem root_close {L : Libm} (hL : L.Ok) {q : ℚ} (q0 : 0 ≤ q) (q1 : q ≤ 1) :
    0 ≤ L.sqrt q ∧ |(L.sqrt q : ℝ) ^ 2 - q| ≤ 1 / 2 ^ 51 := by
  rcases q0.eq_or_lt with h | h
  · rw [← h, hL.sqrt.zero]; norm_num
  · refine ⟨(hL.sqrt.pos q h).le, ?_⟩
    have h2 : |L.sqrt q ^ 2 - q| ≤ 1 / 2 ^ 51 := by
      rw [pow_two]
      refine (hL.sqrt.close q h).trans ?_
      gcongr
    have h3 : ((|L.sqrt q ^ 2 - q| : ℚ) : ℝ) ≤ ((1 / 2 ^ 51 : ℚ) : ℝ) := by exact_mod_cast h2
    push_cast at h3
    exact h3

theorem radians_inj {m n : ℤ} (hm : |m| ≤ 180000000) (hn : |n| ≤ 180000000)
    (h : radians m = radians n) : m = n := by
  rw [abs_le] at hm hn
  have c1 := radians_close hm.1 hm.2
  have c2 := radians_close hn.1 hn.2
  rw [h] at c1
  have hr : |rad m - rad n| ≤ 8 / 2 ^ 50 := by
    rw [abs_le] at *
    norm_num at *
    constructor <;> linarith [c1.1, c1.2, c2.1, c2.2]
  by_contra hne
  have h1 : (1 : ℝ) ≤ |((m - n : ℤ) : ℝ)| := by
    rw [← Int.cast_abs]
    exact_mod_cast Int.one_le_abs (sub_ne_zero.2 hne)
  have h2 : rad m - rad n = ((m - n : ℤ) : ℝ) * (Real.pi / 180000000) := by
    unfold rad; push_cast; ring
  rw [h2, abs_mul, abs_of_pos (by positivity : (0 : ℝ) < Real.pi / 180000000)] at hr
  have h3 := Real.pi_gt_three
  have h4 : (1 : ℝ) * (3 / 180000000) ≤ |((m - n : ℤ) : ℝ)| * (Real.pi / 180000000) := by gcongr
  norm_num at *
  linarith

/-- The sine of half a difference vanishes for equal coordinates only. -/
theorem half_sin_ne {L : Libm} (hL : L.Ok) {m n : ℤ} (hm : |m| ≤ 180000000) (hn : |n| ≤ 180000000)
    (h : m ≠ n) : L.sin (fl (1 / 2 * fl (radians n - radians m))) ≠ 0 := by
  have hd : radians n - radians m ≠ 0 := sub_ne_zero.2 fun e => h (radians_inj hm hn e.symm)
  rw [abs_le] at hm hn
  have hle : ∀ k : ℤ, -180000000 ≤ k → k ≤ 180000000 → -piD ≤ radians k ∧ radians k ≤ piD := by
    intro k h1 h2
    have a := radians_mono h1
    have b := radians_mono h2
    rw [radians_neg] at a
    constructor <;> linarith [radians_full]
  obtain ⟨m1, m2⟩ := hle m hm.1 hm.2
  obtain ⟨n1, n2⟩ := hle n hn.1 hn.2
  have p1 : fl piD = piD := by
    have := fl_exact 884279719003555 (-48) (by norm_num)
    rwa [show ((884279719003555 : ℤ) : ℚ) * 2 ^ (-48 : ℤ) = piD by unfold piD; norm_num] at this
  have p2 : fl (2 * piD) = 2 * piD := by
    have := fl_exact 884279719003555 (-47) (by norm_num)
    rwa [show ((884279719003555 : ℤ) : ℚ) * 2 ^ (-47 : ℤ) = 2 * piD by unfold piD; norm_num] at this
  have hb := fl_abs_le p2 (x := radians n - radians m) (by rw [abs_le]; constructor <;> linarith)
  have hg := fl_abs_le p1 (x := 1 / 2 * fl (radians n - radians m)) (by
    rw [abs_mul, abs_of_pos (by norm_num : (0 : ℚ) < 1 / 2)]; linarith)
  have hg0 : fl (1 / 2 * fl (radians n - radians m)) ≠ 0 := by
    rw [Ne, fl_eq_zero_iff, mul_eq_zero, fl_eq_zero_iff]
    push Not
    exact ⟨by norm_num, hd⟩
  set g := fl (1 / 2 * fl (radians n - radians m))
  have hgr : |(g : ℝ)| < Real.pi := by
    have : ((|g| : ℚ) : ℝ) ≤ ((piD : ℚ) : ℝ) := by exact_mod_cast hg
    push_cast at this
    linarith [piD_close.2]
  rw [abs_lt] at hgr
  have hsg := sign_of_rel (hL.sin g)
  rcases lt_or_gt_of_ne hg0 with hlt | hgt
  · have : (g : ℝ) < 0 := by exact_mod_cast hlt
    have := hsg.2.1 (Real.sin_neg_of_neg_of_neg_pi_lt this hgr.1)
    exact fun e => by rw [e] at this; simp at this
  · have : (0 : ℝ) < g := by exact_mod_cast hgt
    have := hsg.1 (Real.sin_pos_of_pos_of_lt_pi this hgr.2)
    exact fun e => by rw [e] at this; simp at this

theorem asin_zero {L : Libm} {asin : ℚ → ℚ} (hs : AsinOk L asin) : asin 0 = 0 := by
  have := hs.close 0 le_rfl zero_le_one
  rw [Rat.cast_zero, Real.arcsin_zero, mul_zero, sub_zero, abs_nonpos_iff] at this
  exact_mod_cast this

theorem sin_zero' {L : Libm} (hL : L.Ok) : L.sin 0 = 0 := by
  have := hL.sin 0
  rw [Rat.cast_zero, Real.sin_zero, abs_zero, mul_zero, sub_zero, abs_nonpos_iff] at this
  exact_mod_cast this

/-- Distances on the sphere are subject to the inequality of the triangle. -/
theorem arcLength_triangle (a b c : Coord) : arcLength a c ≤ arcLength a b + arcLength b c := by
  let v : Coord → EuclideanSpace ℝ (Fin 3) := fun x =>
    !₂[(onSphere x).1, (onSphere x).2.1, (onSphere x).2.2]
  have hi : ∀ x y, inner ℝ (v x) (v y) = (onSphere x).1 * (onSphere y).1 +
      (onSphere x).2.1 * (onSphere y).2.1 + (onSphere x).2.2 * (onSphere y).2.2 := by
    intro x y
    simp [v, PiLp.inner_apply, Fin.sum_univ_three]
    ring
  have hn : ∀ x, ‖v x‖ = 1 := by
    intro x
    have := hi x x
    rw [norm_onSphere, real_inner_self_eq_norm_sq] at this
    nlinarith [norm_nonneg (v x)]
  have ha : ∀ x y, arcLength x y = InnerProductGeometry.angle (v x) (v y) := by
    intro x y
    unfold arcLength InnerProductGeometry.angle
    rw [hi, hn, hn, mul_one, div_one]
  rw [ha, ha, ha]
  exact InnerProductGeometry.angle_le_angle_add_angle _ _ _

end Capi.Sphere

namespace Capi.Sphere

/-- The direction with the given longitude and latitude in radians. -/
noncomputable def dir (x y : ℝ) : EuclideanSpace ℝ (Fin 3) :=
  !₂[Real.cos y * Real.cos x, Real.cos y * Real.sin x, Real.sin y]

theorem inner_dir (x y x' y' : ℝ) : inner ℝ (dir x y) (dir x' y') =
    1 - 2 * (Real.sin ((y' - y) / 2) ^ 2 +
      Real.sin ((x' - x) / 2) ^ 2 * Real.cos y * Real.cos y') := by
  have h1 := cos_two y' y
  have h2 := cos_two x' x
  have h3 := Real.cos_sub y' y
  have h4 := Real.cos_sub x' x
  have : inner ℝ (dir x y) (dir x' y') = Real.cos y * Real.cos x * (Real.cos y' * Real.cos x') +
      Real.cos y * Real.sin x * (Real.cos y' * Real.sin x') + Real.sin y * Real.sin y' := by
    simp [dir, PiLp.inner_apply, Fin.sum_univ_three]
    ring
  rw [this]
  linear_combination h1 - h3 + Real.cos y * Real.cos y' * (h2 - h4)

theorem norm_dir (x y : ℝ) : ‖dir x y‖ = 1 := by
  have := inner_dir x y x y
  rw [real_inner_self_eq_norm_sq] at this
  simp only [sub_self, zero_div, Real.sin_zero] at this
  nlinarith [norm_nonneg (dir x y)]

/-- A short step on the sphere is hardly longer than in the plane. -/
theorem angle_step {x y u v r : ℝ} (hr0 : 0 < r) (hr1 : r ≤ 1 / 2) (h : u ^ 2 + v ^ 2 = r ^ 2) :
    InnerProductGeometry.angle (dir x y) (dir (x + u) (y + v)) ≤ r + r ^ 3 := by
  unfold InnerProductGeometry.angle
  rw [inner_dir, norm_dir, norm_dir, mul_one, div_one]
  have e1 : Real.sin ((y + v - y) / 2) ^ 2 ≤ (v / 2) ^ 2 := by
    rw [show (y + v - y) / 2 = v / 2 by ring]
    exact Real.sin_sq_le_sq
  have e2 : Real.sin ((x + u - x) / 2) ^ 2 ≤ (u / 2) ^ 2 := by
    rw [show (x + u - x) / 2 = u / 2 by ring]
    exact Real.sin_sq_le_sq
  have e3 : Real.cos y * Real.cos (y + v) ≤ 1 := by
    have := abs_mul (Real.cos y) (Real.cos (y + v))
    have h2 := mul_le_one₀ (Real.abs_cos_le_one y) (abs_nonneg _) (Real.abs_cos_le_one (y + v))
    exact (le_abs_self _).trans (this.trans_le h2)
  have e4 : 1 - r ^ 2 / 2 ≤ 1 - 2 * (Real.sin ((y + v - y) / 2) ^ 2 +
      Real.sin ((x + u - x) / 2) ^ 2 * Real.cos y * Real.cos (y + v)) := by
    have : Real.sin ((x + u - x) / 2) ^ 2 * Real.cos y * Real.cos (y + v) ≤
        Real.sin ((x + u - x) / 2) ^ 2 := by
      rw [mul_assoc]
      exact mul_le_of_le_one_right (sq_nonneg _) e3
    nlinarith
  have hs : Real.cos (r + r ^ 3) ≤ 1 - r ^ 2 / 2 := by
    have hp : 0 < r ^ 3 := by positivity
    have hw := Real.sin_gt_sub_cube (x := (r + r ^ 3) / 2) (by positivity)
    have hr3 : r ^ 3 ≤ r / 4 := by nlinarith
    have hw3 : ((r + r ^ 3) / 2) ^ 3 ≤ r ^ 3 := by gcongr; linarith
    have hsin : r / 2 ≤ Real.sin ((r + r ^ 3) / 2) := by linarith
    have hc := cos_two (r + r ^ 3) 0
    rw [sub_zero] at hc
    have : (r / 2) ^ 2 ≤ Real.sin ((r + r ^ 3) / 2) ^ 2 := by gcongr
    rw [hc]
    linarith
  refine (Real.arccos_le_arccos (hs.trans e4)).trans ?_
  rw [Real.arccos_cos (by positivity)]
  have : r ^ 3 ≤ 1 := by
    calc r ^ 3 ≤ (1 / 2) ^ 3 := by gcongr
      _ ≤ 1 := by norm_num
  linarith [Real.pi_gt_three]

/-- Directions are no farther apart than their longitudes and latitudes in the plane. -/
theorem angle_plane {x y u v D : ℝ} (hD : 0 < D) (h : u ^ 2 + v ^ 2 = D ^ 2) :
    InnerProductGeometry.angle (dir x y) (dir (x + u) (y + v)) ≤ D := by
  have steps : ∀ (m : ℕ) (w z r : ℝ), 0 < r → r ≤ 1 / 2 → w ^ 2 + z ^ 2 = r ^ 2 →
      InnerProductGeometry.angle (dir x y) (dir (x + m * w) (y + m * z)) ≤ m * (r + r ^ 3) := by
    intro m w z r h0 h1 h2
    induction m with
    | zero =>
      have : dir x y ≠ 0 := fun e => by
        have := norm_dir x y
        rw [e, norm_zero] at this
        norm_num at this
      simp [InnerProductGeometry.angle_self this]
    | succ m ih =>
      refine (InnerProductGeometry.angle_le_angle_add_angle _ (dir (x + m * w) (y + m * z)) _).trans ?_
      have := angle_step (x := x + m * w) (y := y + m * z) h0 h1 h2
      rw [show x + m * w + w = x + (m + 1 : ℕ) * w by push_cast; ring,
        show y + m * z + z = y + (m + 1 : ℕ) * z by push_cast; ring] at this
      push_cast at this ⊢
      linarith
  refine le_of_forall_pos_le_add fun ε hε => ?_
  obtain ⟨n, hn⟩ := exists_nat_gt (2 * D + D ^ 3 / ε + 1)
  have hq : 0 < D ^ 3 / ε := by positivity
  have n1 : (1 : ℝ) ≤ n := by linarith
  have n0 : (0 : ℝ) < n := by linarith
  have := steps n (u / n) (v / n) (D / n) (by positivity) (by rw [div_le_iff₀ n0]; linarith) (by
    rw [div_pow, div_pow, div_pow, ← add_div, h])
  rw [mul_div_cancel₀ _ n0.ne', mul_div_cancel₀ _ n0.ne'] at this
  refine this.trans ?_
  have e : (n : ℝ) * (D / n + (D / n) ^ 3) = D + D ^ 3 / n / n := by field_simp
  rw [e]
  have h1 : D ^ 3 / n ≤ ε := by
    rw [div_le_iff₀ n0]
    have : D ^ 3 / ε ≤ n := by linarith
    rwa [div_le_iff₀ hε, mul_comm] at this
  have h2 : D ^ 3 / n / n ≤ D ^ 3 / n := div_le_self (by positivity) n1
  linarith

theorem arcLength_dir (a b : Coord) : arcLength a b =
    InnerProductGeometry.angle (dir (rad a.lon) (rad a.lat)) (dir (rad b.lon) (rad b.lat)) := by
  unfold arcLength InnerProductGeometry.angle
  rw [inner_dir, norm_dir, norm_dir, mul_one, div_one, dot_eq]
  rfl

end Capi.Sphere
