import Verif.Spec.Islet
import Verif.Lemmas.Loop

/-!
# Lemmas about triple products of close points
-/

namespace Capi

open Sphere

namespace Sphere

/-! ### The triple product in coordinates of the tangent plane -/

/-- Eastward coordinate seen from `a`. -/
noncomputable def east (a c : Coord) : ℝ :=
  Real.cos (rad c.lat) * Real.sin (rad c.lon - rad a.lon)

/-- Northward coordinate seen from `a`. -/
noncomputable def north (a c : Coord) : ℝ :=
  Real.sin (rad c.lat - rad a.lat) +
    Real.sin (rad a.lat) * Real.cos (rad c.lat) * (1 - Real.cos (rad c.lon - rad a.lon))

theorem sphereDet_tangent (a b c : Coord) :
    sphereDet a b c = east a b * north a c - east a c * north a b := by
  unfold sphereDet east north onSphere
  simp only [Real.sin_sub, Real.cos_sub]
  generalize Real.sin (rad a.lat) = sa
  generalize Real.cos (rad a.lat) = ca
  generalize Real.sin (rad b.lat) = sb
  generalize Real.cos (rad b.lat) = cb
  generalize Real.sin (rad c.lat) = sc
  generalize Real.cos (rad c.lat) = cc
  have h := Real.sin_sq_add_cos_sq (rad a.lon)
  revert h
  generalize Real.sin (rad a.lon) = xa
  generalize Real.cos (rad a.lon) = ya
  generalize Real.sin (rad b.lon) = xb
  generalize Real.cos (rad b.lon) = yb
  generalize Real.sin (rad c.lon) = xc
  generalize Real.cos (rad c.lon) = yc
  intro h
  linear_combination (sa * cb * cc * (xb * yc - xc * yb)) * h

theorem sin_sub_self_le {x w : ℝ} (hx : |x| ≤ w) (hw : w ≤ 1) : |Real.sin x - x| ≤ w ^ 3 / 4 := by
  have h0 : 0 ≤ |x| := abs_nonneg x
  have hb := Real.sin_bound (hx.trans hw)
  have e : Real.sin x - x = (Real.sin x - (x - x ^ 3 / 6)) + (-(x ^ 3 / 6)) := by ring
  have h1 : |-(x ^ 3 / 6)| = |x| ^ 3 / 6 := by
    rw [abs_neg, abs_div, abs_pow]; norm_num
  rw [e]
  refine (abs_add_le _ _).trans ?_
  rw [h1]
  have h2 : |x| ^ 5 ≤ |x| ^ 3 := pow_le_pow_of_le_one h0 (hx.trans hw) (by norm_num)
  have h3 : |x| ^ 3 ≤ w ^ 3 := pow_le_pow_left₀ h0 hx 3
  have h4 : 0 ≤ |x| ^ 3 := by positivity
  linarith

theorem one_sub_cos_le (x : ℝ) : 1 - Real.cos x ≤ x ^ 2 / 2 := by
  linarith [Real.one_sub_sq_div_two_le_cos (x := x)]

theorem mul_abs_le {a b x y : ℝ} (ha : |a| ≤ x) (hb : |b| ≤ y) : |a * b| ≤ x * y := by
  rw [abs_mul]
  exact mul_le_mul ha hb (abs_nonneg _) ((abs_nonneg _).trans ha)

/-- One of the two products. -/
theorem term_close {p q r xb yb yc xc s w : ℝ} (hw0 : 0 ≤ w) (hw : w ≤ 1)
    (hpq : |p - q| ≤ w) (hp : |p| ≤ 1) (hq : |q| ≤ 1) (hr : |r| ≤ 1) (hs : |s| ≤ 1)
    (h1 : |xb| ≤ w) (h2 : |yc| ≤ w) (h3 : |xc| ≤ w) (_h4 : |yb| ≤ w) :
    |p * Real.sin xb * (Real.sin yc + s * r * (1 - Real.cos xc)) - q * (xb * yc)| ≤ 2 * w ^ 3 := by
  have e : p * Real.sin xb * (Real.sin yc + s * r * (1 - Real.cos xc)) - q * (xb * yc) =
      (p - q) * (Real.sin xb * Real.sin yc) + q * ((Real.sin xb - xb) * Real.sin yc) +
      q * (xb * (Real.sin yc - yc)) + p * Real.sin xb * (s * r * (1 - Real.cos xc)) := by ring
  have sx : |Real.sin xb| ≤ w := (Real.abs_sin_le_abs).trans h1
  have sy : |Real.sin yc| ≤ w := (Real.abs_sin_le_abs).trans h2
  have t1 := mul_abs_le hpq (mul_abs_le sx sy)
  have t2 := mul_abs_le hq (mul_abs_le (sin_sub_self_le h1 hw) sy)
  have t3 := mul_abs_le hq (mul_abs_le h1 (sin_sub_self_le h2 hw))
  have v : |1 - Real.cos xc| ≤ w ^ 2 / 2 := by
    rw [abs_of_nonneg (by linarith [Real.cos_le_one xc])]
    have := one_sub_cos_le xc
    have : xc ^ 2 ≤ w ^ 2 := by rw [← sq_abs xc]; exact pow_le_pow_left₀ (abs_nonneg _) h3 2
    linarith
  have t4 := mul_abs_le (mul_abs_le hp sx) (mul_abs_le (mul_abs_le hs hr) v)
  rw [e]
  have a1 := abs_add_le ((p - q) * (Real.sin xb * Real.sin yc) +
    q * ((Real.sin xb - xb) * Real.sin yc) + q * (xb * (Real.sin yc - yc)))
    (p * Real.sin xb * (s * r * (1 - Real.cos xc)))
  have a2 := abs_add_le ((p - q) * (Real.sin xb * Real.sin yc) +
    q * ((Real.sin xb - xb) * Real.sin yc)) (q * (xb * (Real.sin yc - yc)))
  have a3 := abs_add_le ((p - q) * (Real.sin xb * Real.sin yc))
    (q * ((Real.sin xb - xb) * Real.sin yc))
  have w4 : w ^ 4 ≤ w ^ 3 := pow_le_pow_of_le_one hw0 hw (by norm_num)
  have c1 : w * (w * w) = w ^ 3 := by ring
  have c2 : 1 * (w ^ 3 / 4 * w) = w ^ 4 / 4 := by ring
  have c3 : 1 * (w * (w ^ 3 / 4)) = w ^ 4 / 4 := by ring
  have c4 : 1 * w * (1 * 1 * (w ^ 2 / 2)) = w ^ 3 / 2 := by ring
  rw [c1] at t1
  rw [c2] at t2
  rw [c3] at t3
  rw [c4] at t4
  linarith

/-- The triple product of points within `w` is that of the map, up to a term of third order. -/
theorem sphereDet_close (a b c : Coord) {w : ℝ} (hw0 : 0 ≤ w) (hw : w ≤ 1)
    (hb1 : |rad b.lon - rad a.lon| ≤ w) (hb2 : |rad b.lat - rad a.lat| ≤ w)
    (hc1 : |rad c.lon - rad a.lon| ≤ w) (hc2 : |rad c.lat - rad a.lat| ≤ w) :
    |sphereDet a b c - Real.cos (rad a.lat) * ((rad b.lon - rad a.lon) * (rad c.lat - rad a.lat) -
      (rad c.lon - rad a.lon) * (rad b.lat - rad a.lat))| ≤ 4 * w ^ 3 := by
  rw [sphereDet_tangent]
  unfold east north
  have k := Real.abs_cos_le_one
  have t1 := term_close (p := Real.cos (rad b.lat)) (q := Real.cos (rad a.lat))
    (r := Real.cos (rad c.lat)) (s := Real.sin (rad a.lat)) hw0 hw
    ((Real.abs_cos_sub_cos_le _ _).trans hb2) (k _) (k _) (k _) (Real.abs_sin_le_one _)
    hb1 hc2 hc1 hb2
  have t2 := term_close (p := Real.cos (rad c.lat)) (q := Real.cos (rad a.lat))
    (r := Real.cos (rad b.lat)) (s := Real.sin (rad a.lat)) hw0 hw
    ((Real.abs_cos_sub_cos_le _ _).trans hc2) (k _) (k _) (k _) (Real.abs_sin_le_one _)
    hc1 hb2 hb1 hc2
  rw [abs_le] at *
  constructor <;> linarith [t1.1, t1.2, t2.1, t2.2]

/-! ### From radians to microdegrees -/

theorem rad_diff (x y : ℤ) : rad x - rad y = rad (x - y) := by
  unfold rad; push_cast; ring

/-- One microdegree. -/
noncomputable def micro : ℝ := Real.pi / 180000000

theorem rad_eq (x : ℤ) : rad x = x * micro := by unfold rad micro; ring

theorem micro_pos : 0 < micro := by unfold micro; positivity

theorem micro_lo : 17453288 / 10 ^ 15 < micro := by
  unfold micro
  have := Real.pi_gt_d6
  norm_num at *
  linarith

theorem micro_hi : micro < 17453295 / 10 ^ 15 := by
  unfold micro
  have := Real.pi_lt_d6
  norm_num at *
  linarith

theorem rad_abs_le {n W : ℤ} (h : |n| ≤ W) : |rad n| ≤ W * micro := by
  rw [rad_eq, abs_mul, abs_of_pos micro_pos]
  refine mul_le_mul_of_nonneg_right ?_ micro_pos.le
  exact_mod_cast h

theorem cos_half {n : ℤ} (h : |n| ≤ 60000000) : 1 / 2 ≤ Real.cos (rad n) := by
  rw [← Real.cos_abs]
  have e : Real.pi / 3 = (60000000 : ℤ) * micro := by unfold micro; push_cast; ring
  have h1 : |rad n| ≤ Real.pi / 3 := by rw [e]; exact rad_abs_le h
  rw [← Real.cos_pi_div_three]
  exact Real.cos_le_cos_of_nonneg_of_le_pi (abs_nonneg _) (by linarith [Real.pi_pos]) h1

/-- The triple product in terms of the map, for points within `W` microdegrees of the first. -/
theorem sphereDet_micro {W : ℤ} (hW : W ≤ 10000000) {a b c : Coord} (hb : Nearby W a b)
    (hc : Nearby W a c) :
    |sphereDet a b c - Real.cos (rad a.lat) * (area2 a b c * micro ^ 2)| ≤
      4 * (W * micro) ^ 3 := by
  have hW0 : 0 ≤ W := (abs_nonneg _).trans hb.1
  have hW0' : (0 : ℝ) ≤ W := by exact_mod_cast hW0
  have hWr : (W : ℝ) ≤ 10000000 := by exact_mod_cast hW
  have hw : (W : ℝ) * micro ≤ 1 := by nlinarith [micro_hi, micro_pos]
  have key := sphereDet_close a b c (w := W * micro) (mul_nonneg hW0' micro_pos.le) hw
    (by rw [rad_diff]; exact rad_abs_le hb.1) (by rw [rad_diff]; exact rad_abs_le hb.2)
    (by rw [rad_diff]; exact rad_abs_le hc.1) (by rw [rad_diff]; exact rad_abs_le hc.2)
  have e : (area2 a b c : ℝ) * micro ^ 2 = (rad b.lon - rad a.lon) * (rad c.lat - rad a.lat) -
      (rad c.lon - rad a.lon) * (rad b.lat - rad a.lat) := by
    simp only [rad_eq, area2]; push_cast; ring
  rw [e]
  exact key

/-- What is to the left on the map by more than the margin is so on the sphere. -/
theorem sphereDet_left {W : ℤ} (hW : W ≤ 10000000) {a b c : Coord} (ha : |a.lat| ≤ 60000000)
    (hb : Nearby W a b) (hc : Nearby W a c) (h : Beyond W (area2 a b c)) :
    1 / 2 ^ 41 < sphereDet a b c := by
  have hW0 : 0 ≤ W := (abs_nonneg _).trans hb.1
  have hW0' : (0 : ℝ) ≤ W := by exact_mod_cast hW0
  have k := (abs_le.1 (sphereDet_micro hW hb hc)).1
  have hcos := cos_half ha
  have h' : (W : ℝ) ^ 3 ≤ 7000000 * ((area2 a b c : ℝ) - 3000) := by exact_mod_cast h
  set x : ℝ := (area2 a b c : ℝ)
  have hm := micro_pos
  have m1 := micro_lo
  have m2 := micro_hi
  have hx : 3000 + (W : ℝ) ^ 3 / 7000000 ≤ x := by linarith
  have h3 : 0 ≤ (W : ℝ) ^ 3 := by positivity
  have hm2 : 0 < micro ^ 2 := by positivity
  have s1 : (3000 + (W : ℝ) ^ 3 / 7000000) * micro ^ 2 ≤ x * micro ^ 2 :=
    mul_le_mul_of_nonneg_right hx hm2.le
  have hx0 : 0 ≤ x * micro ^ 2 := le_trans (by positivity) s1
  have s2 : 1 / 2 * (x * micro ^ 2) ≤ Real.cos (rad a.lat) * (x * micro ^ 2) :=
    mul_le_mul_of_nonneg_right hcos hx0
  have s3 : 4 * ((W : ℝ) * micro) ^ 3 ≤ 1 / 2 * ((W : ℝ) ^ 3 / 7000000 * micro ^ 2) := by
    have : 4 * ((W : ℝ) * micro) ^ 3 = (W : ℝ) ^ 3 * micro ^ 2 * (4 * micro) := by ring
    rw [this]
    have e2 : 1 / 2 * ((W : ℝ) ^ 3 / 7000000 * micro ^ 2) =
        (W : ℝ) ^ 3 * micro ^ 2 * (1 / 14000000) := by ring
    rw [e2]
    exact mul_le_mul_of_nonneg_left (by linarith) (by positivity)
  have s4 : (1 : ℝ) / 2 ^ 41 < 1 / 2 * (3000 * micro ^ 2) := by
    have : (17453288 / 10 ^ 15 : ℝ) ^ 2 < micro ^ 2 := by
      apply pow_lt_pow_left₀ m1 (by norm_num) (by norm_num)
    norm_num at *
    linarith
  linarith

/-- What is to the right on the map by more than the margin is so on the sphere. -/
theorem sphereDet_right {W : ℤ} (hW : W ≤ 10000000) {a b c : Coord} (ha : |a.lat| ≤ 60000000)
    (hb : Nearby W a b) (hc : Nearby W a c) (h : Beyond W (-area2 a b c)) :
    sphereDet a b c < -(1 / 2 ^ 41) := by
  have e : sphereDet a c b = -sphereDet a b c := by unfold sphereDet; ring
  have e' : area2 a c b = -area2 a b c := by unfold area2; ring
  have := sphereDet_left hW ha hc hb (by rw [e']; exact h)
  rw [e] at this
  linarith

/-! ### Points of a cone -/

/-- The scalar product. -/
def dot (a b : Point) : ℚ := a.1 * b.1 + a.2.1 * b.2.1 + a.2.2 * b.2.2

theorem inCone_dot {vs : List Point} {p : Point} (h : InCone vs p) :
    ∃ S : ℚ, 0 ≤ S ∧ ∀ q lo, (∀ v ∈ vs, lo ≤ dot v q) → S * lo ≤ dot p q := by
  induction vs generalizing p with
  | nil =>
    refine ⟨0, le_rfl, fun q lo _ => ?_⟩
    have : p = 0 := h
    subst this
    simp [dot]
  | cons v r ih =>
    obtain ⟨s, hs, hr⟩ := h
    obtain ⟨S, hS, hd⟩ := ih hr
    refine ⟨s + S, by linarith, fun q lo hv => ?_⟩
    have h1 := hd q lo fun x hx => hv x (by simp [hx])
    have h2 := mul_le_mul_of_nonneg_left (hv v (by simp)) hs
    have e : dot (p - s • v) q = dot p q - s * dot v q := by
      simp only [dot, Prod.fst_sub, Prod.snd_sub, Prod.smul_fst, Prod.smul_snd, smul_eq_mul]; ring
    rw [e] at h1
    linarith

theorem inCone_det {vs : List Point} {p : Point} (h : InCone vs p) (a b : Point)
    (hv : ∀ v ∈ vs, 0 ≤ det a b v) : 0 ≤ det a b p := by
  obtain ⟨S, _, hd⟩ := inCone_dot h
  have e : ∀ v : Point, det a b v = dot v (a.2.1 * b.2.2 - a.2.2 * b.2.1,
      a.2.2 * b.1 - a.1 * b.2.2, a.1 * b.2.1 - a.2.1 * b.1) := fun v => by
    simp only [det, dot]; ring
  rw [e]
  have := hd (a.2.1 * b.2.2 - a.2.2 * b.2.1, a.2.2 * b.1 - a.1 * b.2.2,
    a.1 * b.2.1 - a.2.1 * b.1) 0 fun v hx => by rw [← e]; exact hv v hx
  simpa using this

/-- The scalar product of the exact points. -/
noncomputable def sphereDot (a b : Coord) : ℝ :=
  (onSphere a).1 * (onSphere b).1 + (onSphere a).2.1 * (onSphere b).2.1 +
    (onSphere a).2.2 * (onSphere b).2.2

theorem sphereDot_eq (a b : Coord) : 1 - sphereDot a b =
    (1 - Real.cos (rad b.lat - rad a.lat)) +
      Real.cos (rad a.lat) * Real.cos (rad b.lat) * (1 - Real.cos (rad b.lon - rad a.lon)) := by
  unfold sphereDot onSphere
  simp only [Real.cos_sub]
  ring

theorem mul2_close {a b x y ε : ℝ} (hε0 : 0 ≤ ε) (hε : ε ≤ 1 / 100) (ha : |a - x| ≤ ε)
    (hb : |b - y| ≤ ε) (hx : |x| ≤ 1) (hy : |y| ≤ 1) : |a * b - x * y| ≤ 3 * ε := by
  have e : a * b - x * y = (a - x) * (b - y) + x * (b - y) + (a - x) * y := by ring
  rw [e]
  have t1 := mul_abs_le ha hb
  have t2 := mul_abs_le hx hb
  have t3 := mul_abs_le ha hy
  have a1 := abs_add_le ((a - x) * (b - y) + x * (b - y)) ((a - x) * y)
  have a2 := abs_add_le ((a - x) * (b - y)) (x * (b - y))
  nlinarith

theorem dot_close {L : Libm} (hL : L.Ok) {a b : Coord} (ha : a.Geo) (hb : b.Geo) :
    |(dot (toPoint L a) (toPoint L b) : ℝ) - sphereDot a b| ≤ 1 / 2 ^ 42 := by
  obtain ⟨a1, a2, a3⟩ := toPoint_close hL ha
  obtain ⟨b1, b2, b3⟩ := toPoint_close hL hb
  obtain ⟨x1, x2, x3⟩ := onSphere_abs a
  obtain ⟨y1, y2, y3⟩ := onSphere_abs b
  have e0 : (0 : ℝ) ≤ 1 / 2 ^ 46 := by positivity
  have e1 : (1 : ℝ) / 2 ^ 46 ≤ 1 / 100 := by norm_num
  have t1 := mul2_close e0 e1 a1 b1 x1 y1
  have t2 := mul2_close e0 e1 a2 b2 x2 y2
  have t3 := mul2_close e0 e1 a3 b3 x3 y3
  rw [abs_le] at *
  have q : 9 * ((1 : ℝ) / 2 ^ 46) ≤ 1 / 2 ^ 42 := by norm_num
  unfold dot sphereDot
  push_cast
  constructor <;> linarith [t1.1, t1.2, t2.1, t2.2, t3.1, t3.2]

theorem sphereDot_self (a : Coord) : sphereDot a a = 1 := by
  have := sphereDot_eq a a
  simp at this
  linarith

theorem sphereDot_le (a b : Coord) : sphereDot a b ≤ 1 := by
  have h : sphereDot a b ≤ (sphereDot a a + sphereDot b b) / 2 := by
    unfold sphereDot
    nlinarith [sq_nonneg ((onSphere a).1 - (onSphere b).1),
      sq_nonneg ((onSphere a).2.1 - (onSphere b).2.1), sq_nonneg ((onSphere a).2.2 - (onSphere b).2.2)]
  rw [sphereDot_self, sphereDot_self] at h
  linarith

theorem sphereDot_ge {a b : Coord} {w : ℝ} (h1 : |rad b.lon - rad a.lon| ≤ w)
    (h2 : |rad b.lat - rad a.lat| ≤ w) : 1 - w ^ 2 ≤ sphereDot a b := by
  have e := sphereDot_eq a b
  have a1 := one_sub_cos_le (rad b.lat - rad a.lat)
  have a2 := one_sub_cos_le (rad b.lon - rad a.lon)
  have b1 : (rad b.lat - rad a.lat) ^ 2 ≤ w ^ 2 := by
    rw [← sq_abs]; exact pow_le_pow_left₀ (abs_nonneg _) h2 2
  have b2 : (rad b.lon - rad a.lon) ^ 2 ≤ w ^ 2 := by
    rw [← sq_abs]; exact pow_le_pow_left₀ (abs_nonneg _) h1 2
  have c0 : 0 ≤ 1 - Real.cos (rad b.lon - rad a.lon) := by
    linarith [Real.cos_le_one (rad b.lon - rad a.lon)]
  have c1 : Real.cos (rad a.lat) * Real.cos (rad b.lat) ≤ 1 := by
    have := mul_abs_le (Real.abs_cos_le_one (rad a.lat)) (Real.abs_cos_le_one (rad b.lat))
    rw [one_mul] at this
    exact (abs_le.1 this).2
  have c2 : Real.cos (rad a.lat) * Real.cos (rad b.lat) *
      (1 - Real.cos (rad b.lon - rad a.lon)) ≤ 1 * (1 - Real.cos (rad b.lon - rad a.lon)) :=
    mul_le_mul_of_nonneg_right c1 c0
  linarith

/-- A point of the cone over close points is close. -/
theorem inCone_dot_ge {L : Libm} (hL : L.Ok) {vs : List Coord} (hv : ∀ v ∈ vs, v.Geo) {p u : Coord}
    (hp : p.Geo) (hu : u.Geo) {w : ℝ} (hw : w ^ 2 ≤ 1 / 2)
    (h : ∀ v ∈ vs, 1 - w ^ 2 ≤ sphereDot u v) (hc : InCone (loop L vs) (toPoint L p)) :
    1 - w ^ 2 - 1 / 2 ^ 39 ≤ sphereDot u p := by
  obtain ⟨S, hS, hd⟩ := inCone_dot hc
  have hS' : (0 : ℝ) ≤ S := by exact_mod_cast hS
  -- the sum of the coefficients
  have n1 : (1 - 1 / 2 ^ 42 : ℝ) ≤ S * (1 + 1 / 2 ^ 42) := by
    have h1 : S * (-(1 + 1 / 2 ^ 42)) ≤ dot (toPoint L p) (-toPoint L p) := by
      apply hd
      intro v hv'
      obtain ⟨c, hc', rfl⟩ := List.mem_map.1 hv'
      have e : dot (toPoint L c) (-toPoint L p) = -dot (toPoint L c) (toPoint L p) := by
        simp only [dot, Prod.fst_neg, Prod.snd_neg]; ring
      rw [e]
      have h2 := (abs_le.1 (dot_close hL (hv c hc') hp)).2
      have h3 := sphereDot_le c p
      have h4 : (dot (toPoint L c) (toPoint L p) : ℝ) ≤ ((1 + 1 / 2 ^ 42 : ℚ) : ℝ) := by
        push_cast; linarith
      have h5 : dot (toPoint L c) (toPoint L p) ≤ 1 + 1 / 2 ^ 42 := by exact_mod_cast h4
      linarith
    have e : dot (toPoint L p) (-toPoint L p) = -dot (toPoint L p) (toPoint L p) := by
      simp only [dot, Prod.fst_neg, Prod.snd_neg]; ring
    rw [e] at h1
    have h2 : dot (toPoint L p) (toPoint L p) ≤ S * (1 + 1 / 2 ^ 42) := by linarith
    have h3 : (dot (toPoint L p) (toPoint L p) : ℝ) ≤ ((S * (1 + 1 / 2 ^ 42) : ℚ) : ℝ) := by
      exact_mod_cast h2
    push_cast at h3
    have h4 := (abs_le.1 (dot_close hL hp hp)).1
    rw [sphereDot_self] at h4
    linarith
  -- the scalar product with `u`
  have n2 : (S : ℝ) * (1 - w ^ 2 - 1 / 2 ^ 42) ≤ dot (toPoint L p) (toPoint L u) := by
    by_contra hcon
    push Not at hcon
    have hSpos : (0 : ℝ) < S := by
      rcases hS'.lt_or_eq with h | h
      · exact h
      · rw [← h] at n1; norm_num at n1
    have : (dot (toPoint L p) (toPoint L u) : ℝ) / S < 1 - w ^ 2 - 1 / 2 ^ 42 := by
      rw [div_lt_iff₀ hSpos]; linarith
    obtain ⟨lo, l1, l2⟩ := exists_rat_btwn this
    have h1 : S * lo ≤ dot (toPoint L p) (toPoint L u) := by
      apply hd
      intro v hv'
      obtain ⟨c, hc', rfl⟩ := List.mem_map.1 hv'
      have h2 := (abs_le.1 (dot_close hL (hv c hc') hu)).1
      have e : sphereDot c u = sphereDot u c := by unfold sphereDot; ring
      rw [e] at h2
      have h3 := h c hc'
      have h4 : (lo : ℝ) ≤ dot (toPoint L c) (toPoint L u) := by linarith
      exact_mod_cast h4
    have h2 : (S : ℝ) * lo ≤ dot (toPoint L p) (toPoint L u) := by exact_mod_cast h1
    rw [div_lt_iff₀ hSpos] at l1
    linarith
  have n3 := (abs_le.1 (dot_close hL hp hu)).2
  have e : sphereDot p u = sphereDot u p := by unfold sphereDot; ring
  rw [e] at n3
  have n4 : (1 : ℝ) - 1 / 2 ^ 41 ≤ S := by
    norm_num at *
    linarith
  have hw0 : 0 ≤ w ^ 2 := sq_nonneg w
  have n5 : (1 - 1 / 2 ^ 41) * (1 - w ^ 2 - 1 / 2 ^ 42) ≤ (S : ℝ) * (1 - w ^ 2 - 1 / 2 ^ 42) :=
    mul_le_mul_of_nonneg_right n4 (by norm_num at *; linarith)
  norm_num at *
  linarith

theorem sq_le_vers {t : ℝ} (ht : |t| ≤ Real.pi) :
    t ^ 2 ≤ Real.pi ^ 2 / 2 * (1 - Real.cos t) := by
  have := Real.cos_le_one_sub_mul_cos_sq ht
  have hpi : 0 < Real.pi ^ 2 := by positivity
  have h1 : 2 / Real.pi ^ 2 * t ^ 2 ≤ 1 - Real.cos t := by linarith
  have h2 := mul_le_mul_of_nonneg_left h1 (by positivity : 0 ≤ Real.pi ^ 2 / 2)
  have h3 : Real.pi ^ 2 / 2 * (2 / Real.pi ^ 2 * t ^ 2) = t ^ 2 := by field_simp
  linarith

theorem sq_le_five {t : ℝ} (ht : |t| ≤ Real.pi) : t ^ 2 ≤ 4.935 * (1 - Real.cos t) := by
  have h := sq_le_vers ht
  have pi2 := Real.pi_lt_d6
  have pi0 := Real.pi_pos
  have pisq : Real.pi ^ 2 ≤ 9.87 := by nlinarith
  have h1 : 0 ≤ 1 - Real.cos t := by linarith [Real.cos_le_one t]
  have := mul_le_mul_of_nonneg_right (by linarith : Real.pi ^ 2 / 2 ≤ 4.935) h1
  linarith

/-- The longitude: an angle of small versed sine not near a full turn is small. -/
theorem lon_small {x w : ℝ} (w0 : 0 ≤ w) (ws : w ^ 2 ≤ 31 / 100000)
    (hx : |x| ≤ 35 / 18 * Real.pi) (h : 23 / 100 * (1 - Real.cos x) ≤ 101 / 100 * w ^ 2) :
    |x| ≤ 3 * w := by
  have pi1 := Real.pi_gt_d6
  have hxpi : |x| ≤ Real.pi := by
    by_contra hcon
    push Not at hcon
    have hc : Real.cos x = Real.cos (2 * Real.pi - |x|) := by
      rw [Real.cos_two_pi_sub, Real.cos_abs]
    have h2 : |2 * Real.pi - (|x|)| ≤ Real.pi := by
      rw [abs_le]; constructor <;> linarith
    have q := sq_le_five h2
    rw [← hc] at q
    have h3 : 17 / 100 ≤ 2 * Real.pi - |x| := by linarith
    have h4 : (17 / 100 : ℝ) ^ 2 ≤ (2 * Real.pi - |x|) ^ 2 := pow_le_pow_left₀ (by norm_num) h3 2
    linarith
  have q := sq_le_five hxpi
  have hxs : x ^ 2 ≤ 1 / 100 := by linarith
  have hx3 : |x| ≤ 1 := by
    apply abs_le_of_sq_le_sq _ (by norm_num)
    linarith
  have hx4 := (abs_le.1 (Real.cos_bound hx3)).2
  have hx5 : |x| ^ 4 = x ^ 2 * x ^ 2 := by
    rw [show |x| ^ 4 = (|x| ^ 2) * (|x| ^ 2) by ring, sq_abs]
  rw [hx5] at hx4
  have hx6 : x ^ 2 * x ^ 2 ≤ x ^ 2 * (1 / 100) := mul_le_mul_of_nonneg_left hxs (sq_nonneg x)
  have e : (3 * w) ^ 2 = 9 * w ^ 2 := by ring
  apply abs_le_of_sq_le_sq _ (by positivity)
  rw [e]
  linarith [sq_nonneg w]

/-- Close on the sphere, close on the map, away from poles and meridian. -/
theorem near_of_dot {a p : Coord} (ha : |a.lon| ≤ 170000000 ∧ |a.lat| ≤ 60000000) (hp : p.Geo)
    {W : ℤ} (hW0 : 1000 ≤ W) (hW : W ≤ 1000000)
    (h : 1 - (W * micro) ^ 2 - 1 / 2 ^ 39 ≤ sphereDot a p) : Nearby (3 * W) a p := by
  have e := sphereDot_eq a p
  have m0 := micro_pos
  have m1 := micro_lo
  have m2 := micro_hi
  have hWr0 : (1000 : ℝ) ≤ W := by exact_mod_cast hW0
  have hWr : (W : ℝ) ≤ 1000000 := by exact_mod_cast hW
  set w : ℝ := W * micro with hw
  have w0 : 0 ≤ w := by positivity
  have wl : 1000 * (17453288 / 10 ^ 15) ≤ w := by
    rw [hw]; exact mul_le_mul hWr0 m1.le (by norm_num) (by linarith)
  have wh : w ≤ 1000000 * (17453295 / 10 ^ 15) := by
    rw [hw]; exact mul_le_mul hWr m2.le m0.le (by norm_num)
  have hsmall : (1 : ℝ) / 2 ^ 39 ≤ 1 / 100 * w ^ 2 := by
    have : (1000 * (17453288 / 10 ^ 15) : ℝ) ^ 2 ≤ w ^ 2 := pow_le_pow_left₀ (by norm_num) wl 2
    norm_num at *
    linarith
  have whs : w ^ 2 ≤ 31 / 100000 := by
    have : w ^ 2 ≤ (1000000 * (17453295 / 10 ^ 15) : ℝ) ^ 2 := pow_le_pow_left₀ w0 wh 2
    norm_num at *
    linarith
  obtain ⟨g1, g2, g3, g4⟩ := hp
  have e90 : Real.pi / 2 = (90000000 : ℤ) * micro := by unfold micro; push_cast; ring
  have hpl : |rad p.lat| ≤ Real.pi / 2 := by
    rw [e90]; exact rad_abs_le (abs_le.2 ⟨by omega, by omega⟩)
  have hcp : 0 ≤ Real.cos (rad p.lat) := Real.cos_nonneg_of_mem_Icc (abs_le.1 hpl)
  have hca := cos_half ha.2
  set y := rad p.lat - rad a.lat with hy
  set x := rad p.lon - rad a.lon with hx
  have vx : 0 ≤ 1 - Real.cos x := by linarith [Real.cos_le_one x]
  have hsum : (1 - Real.cos y) + Real.cos (rad a.lat) * Real.cos (rad p.lat) * (1 - Real.cos x) ≤
      101 / 100 * w ^ 2 := by linarith
  have hprod : 0 ≤ Real.cos (rad a.lat) * Real.cos (rad p.lat) * (1 - Real.cos x) := by positivity
  have hy1 : 1 - Real.cos y ≤ 101 / 100 * w ^ 2 := by linarith
  have hyabs : |y| ≤ Real.pi := by
    rw [hy, rad_diff]
    have e180 : Real.pi = (180000000 : ℤ) * micro := by unfold micro; push_cast; ring
    rw [e180]
    obtain ⟨q1, q2⟩ := abs_le.1 ha.2
    exact rad_abs_le (abs_le.2 ⟨by omega, by omega⟩)
  have hy2 : y ^ 2 ≤ 5 * w ^ 2 := by
    have q := sq_le_five hyabs
    linarith
  have hyw : |y| ≤ 3 * w := by
    have e3 : (3 * w) ^ 2 = 9 * w ^ 2 := by ring
    apply abs_le_of_sq_le_sq _ (by positivity)
    rw [e3]
    linarith [sq_nonneg w]
  have hys : |y| ≤ 4 / 100 := by
    apply abs_le_of_sq_le_sq _ (by norm_num)
    linarith
  have hcp2 : 46 / 100 ≤ Real.cos (rad p.lat) := by
    have := (abs_le.1 ((Real.abs_cos_sub_cos_le (rad p.lat) (rad a.lat)).trans hys)).1
    linarith
  have hcc : 23 / 100 ≤ Real.cos (rad a.lat) * Real.cos (rad p.lat) := by
    have := mul_le_mul hca hcp2 (by norm_num) (by linarith)
    linarith
  have hx1 : 23 / 100 * (1 - Real.cos x) ≤ 101 / 100 * w ^ 2 := by
    have := mul_le_mul_of_nonneg_right hcc vx
    have q1 : 0 ≤ 1 - Real.cos y := by linarith [Real.cos_le_one y]
    linarith
  have hxabs : |x| ≤ 35 / 18 * Real.pi := by
    rw [hx, rad_diff]
    obtain ⟨q1, q2⟩ := abs_le.1 ha.1
    have := rad_abs_le (n := p.lon - a.lon) (W := 350000000) (abs_le.2 ⟨by omega, by omega⟩)
    have e350 : ((350000000 : ℤ) : ℝ) * micro = 35 / 18 * Real.pi := by
      unfold micro; push_cast; ring
    rw [e350] at this
    exact this
  have hxw : |x| ≤ 3 * w := lon_small w0 whs hxabs hx1
  have back : ∀ n : ℤ, |rad n| ≤ 3 * w → |n| ≤ 3 * W := by
    intro n hn
    rw [rad_eq, abs_mul, abs_of_pos m0, hw, ← mul_assoc] at hn
    have := le_of_mul_le_mul_right hn m0
    exact_mod_cast this
  exact ⟨back _ (by rw [← rad_diff]; exact hxw), back _ (by rw [← rad_diff]; exact hyw)⟩

/-! ### Convex polygons in triangles from the first corner -/

theorem inCone_zero (vs : List Point) : InCone vs 0 := by
  induction vs with
  | nil => rfl
  | cons v r ih => exact ⟨0, le_rfl, by simpa using ih⟩

theorem inCone_add {vs : List Point} {q v : Point} {s : ℚ} (hs : 0 ≤ s) (hv : v ∈ vs)
    (h : InCone vs q) : InCone vs (s • v + q) := by
  induction vs generalizing q with
  | nil => cases hv
  | cons x r ih =>
    obtain ⟨t, ht, hr⟩ := h
    rcases List.mem_cons.1 hv with rfl | hv
    · refine ⟨s + t, by linarith, ?_⟩
      have e : s • v + q - (s + t) • v = q - t • v := by rw [add_smul]; abel
      rw [e]
      exact hr
    · refine ⟨t, ht, ?_⟩
      have e : s • v + q - t • x = s • v + (q - t • x) := by abel
      rw [e]
      exact ih hv hr

theorem inCone_triangle {vs : List Point} {a b c p : Point} (ha : a ∈ vs) (hb : b ∈ vs)
    (hc : c ∈ vs) (h : InTriangle a b c p) : InCone vs p := by
  obtain ⟨s, t, u, hs, ht, hu, rfl⟩ := h
  have := inCone_add hs ha (inCone_add ht hb (inCone_add hu hc (inCone_zero vs)))
  rwa [add_zero, ← add_assoc] at this

theorem inTriangle_of_det {a b c p : Point} (hD : 0 < det a b c) (h1 : 0 ≤ det b c p)
    (h2 : 0 ≤ det c a p) (h3 : 0 ≤ det a b p) : InTriangle a b c p := by
  refine ⟨det b c p / det a b c, det c a p / det a b c, det a b p / det a b c,
    by positivity, by positivity, by positivity, ?_⟩
  have hne := hD.ne'
  have key : det a b c • p = det b c p • a + det c a p • b + det a b p • c := by
    obtain ⟨a1, a2, a3⟩ := a
    obtain ⟨b1, b2, b3⟩ := b
    obtain ⟨c1, c2, c3⟩ := c
    obtain ⟨p1, p2, p3⟩ := p
    simp only [det, Prod.smul_mk, Prod.mk_add_mk, smul_eq_mul, Prod.mk.injEq]
    refine ⟨?_, ?_, ?_⟩ <;> ring
  have e := congrArg (fun q => (det a b c)⁻¹ • q) key
  simp only [smul_add, smul_smul, inv_mul_cancel₀ hne, one_smul] at e
  simp only [div_eq_inv_mul]
  exact e

theorem det_cycle (a b c : Point) : det b c a = det a b c := by simp only [det]; ring

theorem det_swap (a b c : Point) : det b a c = -det a b c := by simp only [det]; ring

/-- Strictly to the left of all edges of a convex loop, in the cone. -/
theorem inCone_of_left {vs : List Point} (h : ConvexLoop vs) {p : Point}
    (hp : ∀ e ∈ loopEdges vs, 0 < det e.1 e.2 p) : InCone vs p := by
  obtain ⟨h3, hnd, ht⟩ := h
  have at' : ∀ i (hi : i < vs.length), vs.getD (i % vs.length) default = vs[i] := fun i hi => by
    rw [Nat.mod_eq_of_lt hi, List.getD_eq_getElem?_getD, List.getElem?_eq_getElem hi]; rfl
  have edge : ∀ i (hi : i + 1 < vs.length), (vs[i], vs[i + 1]) ∈ loopEdges vs := fun i hi => by
    refine List.mem_map.2 ⟨i, List.mem_range.2 (by omega), ?_⟩
    rw [at' i (by omega), at' (i + 1) hi]
  have last : (vs[vs.length - 1]'(by omega), vs[0]'(by omega)) ∈ loopEdges vs := by
    refine List.mem_map.2 ⟨vs.length - 1, List.mem_range.2 (by omega), ?_⟩
    rw [at' (vs.length - 1) (by omega), show vs.length - 1 + 1 = vs.length by omega, Nat.mod_self,
      List.getD_eq_getElem?_getD, List.getElem?_eq_getElem (by omega)]
    rfl
  set v0 := vs[0]'(by omega) with hv0
  have f1 : 0 < det v0 (vs[1]'(by omega)) p := hp _ (edge 0 (by omega))
  have fl' : det v0 (vs[vs.length - 1]'(by omega)) p < 0 := by
    have := hp _ last
    rw [det_swap] at this
    linarith
  have hex : ∃ j, ∃ hj : j < vs.length, 1 ≤ j ∧ det v0 vs[j] p ≤ 0 :=
    ⟨vs.length - 1, by omega, by omega, fl'.le⟩
  classical
  obtain ⟨j, ⟨hj, hj1, hjd⟩, hmin⟩ : ∃ j, (∃ hj : j < vs.length, 1 ≤ j ∧ det v0 vs[j] p ≤ 0) ∧
      ∀ m < j, ¬ ∃ hj : m < vs.length, 1 ≤ m ∧ det v0 vs[m] p ≤ 0 :=
    ⟨Nat.find hex, Nat.find_spec hex, fun m hm => Nat.find_min hex hm⟩
  rcases j with _ | _ | i'
  · omega
  · exact absurd f1 (not_lt.2 hjd)
  set i := i' + 1 with hi
  have hil : i + 1 < vs.length := hj
  have hjd' : det v0 vs[i + 1] p ≤ 0 := hjd
  have hid : 0 < det v0 (vs[i]'(by omega)) p := by
    by_contra hcon
    exact hmin i (by omega) ⟨by omega, by omega, not_lt.1 hcon⟩
  have hD : 0 < det (vs[i]'(by omega)) vs[i + 1] v0 := by
    refine ht _ (edge i hil) v0 (List.getElem_mem _) ?_ ?_
    · intro e
      have := (hnd.getElem_inj_iff (hi := by omega) (hj := by omega)).1 e
      omega
    · intro e
      have := (hnd.getElem_inj_iff (hi := by omega) (hj := by omega)).1 e
      omega
  refine inCone_triangle (List.getElem_mem _) (List.getElem_mem _) (List.getElem_mem _)
    (inTriangle_of_det hD ?_ hid.le (hp _ (edge i hil)).le)
  rw [det_swap]
  linarith

end Sphere

end Capi
