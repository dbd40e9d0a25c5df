import Verif.Spec.Loop
import Verif.Lemmas.Sphere
import Verif.Props.SpherePoint

/-!
# Lemmas about points of S2 and their triple products
-/

namespace Capi

open Sphere

namespace Sphere

theorem sin_close {L : Libm} (hL : L.Ok) {n : ℤ} (h1 : -180000000 ≤ n) (h2 : n ≤ 180000000) :
    |(L.sin (radians n) : ℝ) - Real.sin (rad n)| ≤ 5 / 2 ^ 50 := by
  have e1 := hL.sin (radians n)
  have e2 : |Real.sin (radians n : ℝ) - Real.sin (rad n)| ≤ 4 / 2 ^ 50 :=
    (Real.abs_sin_sub_sin_le _ _).trans (radians_close h1 h2)
  have e3 := Real.abs_sin_le_one (radians n : ℝ)
  have e4 := abs_sub_le (L.sin (radians n) : ℝ) (Real.sin (radians n : ℝ)) (Real.sin (rad n))
  have e5 : (1 : ℝ) / 2 ^ 50 * |Real.sin (radians n : ℝ)| ≤ 1 / 2 ^ 50 := by
    have : (0 : ℝ) < 1 / 2 ^ 50 := by positivity
    nlinarith
  linarith

theorem cos_close {L : Libm} (hL : L.Ok) {n : ℤ} (h1 : -180000000 ≤ n) (h2 : n ≤ 180000000) :
    |(L.cos (radians n) : ℝ) - Real.cos (rad n)| ≤ 5 / 2 ^ 50 := by
  have e1 := hL.cos (radians n)
  have e2 : |Real.cos (radians n : ℝ) - Real.cos (rad n)| ≤ 4 / 2 ^ 50 :=
    (Real.abs_cos_sub_cos_le _ _).trans (radians_close h1 h2)
  have e3 := Real.abs_cos_le_one (radians n : ℝ)
  have e4 := abs_sub_le (L.cos (radians n) : ℝ) (Real.cos (radians n : ℝ)) (Real.cos (rad n))
  have e5 : (1 : ℝ) / 2 ^ 50 * |Real.cos (radians n : ℝ)| ≤ 1 / 2 ^ 50 := by
    have : (0 : ℝ) < 1 / 2 ^ 50 := by positivity
    nlinarith
  linarith

/-- A rounded product of numbers close to numbers of absolute value at most 1. -/
theorem fl_mul_close {a b : ℚ} {x y : ℝ} (hx : |x| ≤ 1) (hy : |y| ≤ 1)
    (ha : |(a : ℝ) - x| ≤ 5 / 2 ^ 50) (hb : |(b : ℝ) - y| ≤ 5 / 2 ^ 50) :
    |((fl (a * b) : ℚ) : ℝ) - y * x| ≤ 1 / 2 ^ 46 := by
  have h1 := rel_fl (a * b)
  unfold Rel at h1
  push_cast at h1
  have e : (a : ℝ) * b - y * x = (a - x) * (b - y) + x * (b - y) + y * (a - x) := by ring
  have h2 : |(a : ℝ) * b - y * x| ≤ 11 / 2 ^ 50 := by
    rw [e]
    have t1 : |((a : ℝ) - x) * (b - y)| ≤ 5 / 2 ^ 50 * (5 / 2 ^ 50) := by
      rw [abs_mul]
      exact mul_le_mul ha hb (abs_nonneg _) (by positivity)
    have t2 : |x * (b - y)| ≤ 1 * (5 / 2 ^ 50) := by
      rw [abs_mul]
      exact mul_le_mul hx hb (abs_nonneg _) (by positivity)
    have t3 : |y * (a - x)| ≤ 1 * (5 / 2 ^ 50) := by
      rw [abs_mul]
      exact mul_le_mul hy ha (abs_nonneg _) (by positivity)
    have t4 := abs_add_le (((a : ℝ) - x) * (b - y) + x * (b - y)) (y * (a - x))
    have t5 := abs_add_le (((a : ℝ) - x) * (b - y)) (x * (b - y))
    norm_num at *
    linarith
  have h3 : |(a : ℝ) * b| ≤ 2 := by
    have t1 : |y * x| ≤ 1 := by
      rw [abs_mul]
      exact mul_le_one₀ hy (abs_nonneg _) hx
    have t2 := abs_sub_abs_le_abs_sub ((a : ℝ) * b) (y * x)
    norm_num at *
    linarith
  have h4 := abs_sub_le ((fl (a * b) : ℚ) : ℝ) ((a : ℝ) * b) (y * x)
  norm_num at *
  linarith

theorem toPoint_close {L : Libm} (hL : L.Ok) {c : Coord} (hc : c.Geo) :
    |((toPoint L c).1 : ℝ) - (onSphere c).1| ≤ 1 / 2 ^ 46 ∧
    |((toPoint L c).2.1 : ℝ) - (onSphere c).2.1| ≤ 1 / 2 ^ 46 ∧
    |((toPoint L c).2.2 : ℝ) - (onSphere c).2.2| ≤ 1 / 2 ^ 46 := by
  obtain ⟨g1, g2, g3, g4⟩ := hc
  have s := Real.abs_sin_le_one
  have k := Real.abs_cos_le_one
  refine ⟨fl_mul_close (k _) (k _) (cos_close hL g1 g2) (cos_close hL (by omega) (by omega)),
    fl_mul_close (s _) (k _) (sin_close hL g1 g2) (cos_close hL (by omega) (by omega)),
    (sin_close hL (by omega) (by omega)).trans (by norm_num)⟩

theorem onSphere_abs (c : Coord) :
    |(onSphere c).1| ≤ 1 ∧ |(onSphere c).2.1| ≤ 1 ∧ |(onSphere c).2.2| ≤ 1 := by
  refine ⟨?_, ?_, Real.abs_sin_le_one _⟩ <;> unfold onSphere <;> dsimp only <;> rw [abs_mul]
  · exact mul_le_one₀ (Real.abs_cos_le_one _) (abs_nonneg _) (Real.abs_cos_le_one _)
  · exact mul_le_one₀ (Real.abs_cos_le_one _) (abs_nonneg _) (Real.abs_sin_le_one _)

theorem mul3_close {a b c x y z ε : ℝ} (hε0 : 0 ≤ ε) (hε : ε ≤ 1 / 100) (ha : |a - x| ≤ ε)
    (hb : |b - y| ≤ ε) (hc : |c - z| ≤ ε) (hx : |x| ≤ 1) (hy : |y| ≤ 1) (hz : |z| ≤ 1) :
    |a * (b * c) - x * (y * z)| ≤ 4 * ε := by
  have two : ∀ {a b x y δ : ℝ}, 0 ≤ δ → |a - x| ≤ ε → |b - y| ≤ δ → |x| ≤ 1 → |y| ≤ 1 →
      |a * b - x * y| ≤ ε + (1 + ε) * δ := by
    intro a b x y δ hδ ha hb hx hy
    have e : a * b - x * y = (a - x) * y + a * (b - y) := by ring
    rw [e]
    have t1 : |(a - x) * y| ≤ ε * 1 := by
      rw [abs_mul]; exact mul_le_mul ha hy (abs_nonneg _) hε0
    have ha' : |a| ≤ 1 + ε := by
      have := abs_sub_abs_le_abs_sub a x
      linarith
    have t2 : |a * (b - y)| ≤ (1 + ε) * δ := by
      rw [abs_mul]; exact mul_le_mul ha' hb (abs_nonneg _) (by linarith)
    have := abs_add_le ((a - x) * y) (a * (b - y))
    linarith
  have h1 := two hε0 hb hc hy hz
  have h2 : |y * z| ≤ 1 := by
    rw [abs_mul]; exact mul_le_one₀ hy (abs_nonneg _) hz
  have h3 := two (by nlinarith) ha h1 hx h2
  have s1 : ε ^ 2 ≤ ε / 100 := by nlinarith
  have s2 : ε ^ 3 ≤ ε ^ 2 := by nlinarith [sq_nonneg ε]
  refine h3.trans ?_
  have : ε + (1 + ε) * (ε + (1 + ε) * ε) = 3 * ε + 3 * ε ^ 2 + ε ^ 3 := by ring
  rw [this]
  linarith

/-- The triple product of the doubles is close to the exact one. -/
theorem det_close {L : Libm} (hL : L.Ok) {a b c : Coord} (ha : a.Geo) (hb : b.Geo) (hc : c.Geo) :
    |(det (toPoint L a) (toPoint L b) (toPoint L c) : ℝ) - sphereDet a b c| ≤ 1 / 2 ^ 41 := by
  obtain ⟨a1, a2, a3⟩ := toPoint_close hL ha
  obtain ⟨b1, b2, b3⟩ := toPoint_close hL hb
  obtain ⟨c1, c2, c3⟩ := toPoint_close hL hc
  obtain ⟨x1, x2, x3⟩ := onSphere_abs a
  obtain ⟨y1, y2, y3⟩ := onSphere_abs b
  obtain ⟨z1, z2, z3⟩ := onSphere_abs c
  have e0 : (0 : ℝ) ≤ 1 / 2 ^ 46 := by positivity
  have e1 : (1 : ℝ) / 2 ^ 46 ≤ 1 / 100 := by norm_num
  have t1 := mul3_close e0 e1 a1 b2 c3 x1 y2 z3
  have t2 := mul3_close e0 e1 a1 b3 c2 x1 y3 z2
  have t3 := mul3_close e0 e1 a2 b1 c3 x2 y1 z3
  have t4 := mul3_close e0 e1 a2 b3 c1 x2 y3 z1
  have t5 := mul3_close e0 e1 a3 b1 c2 x3 y1 z2
  have t6 := mul3_close e0 e1 a3 b2 c1 x3 y2 z1
  rw [abs_le] at *
  have p : (4 : ℝ) * (1 / 2 ^ 46) = 1 / 2 ^ 44 := by norm_num
  rw [p] at *
  have q : 6 * ((1 : ℝ) / 2 ^ 44) ≤ 1 / 2 ^ 41 := by norm_num
  unfold det sphereDet
  push_cast
  constructor <;> linarith [t1.1, t1.2, t2.1, t2.2, t3.1, t3.2, t4.1, t4.2, t5.1, t5.2, t6.1, t6.2]

theorem det_neg {L : Libm} (hL : L.Ok) {a b c : Coord} (ha : a.Geo) (hb : b.Geo) (hc : c.Geo)
    (h : sphereDet a b c < -(1 / 2 ^ 41)) :
    det (toPoint L a) (toPoint L b) (toPoint L c) < 0 := by
  have := (abs_le.1 (det_close hL ha hb hc)).2
  have h' : (det (toPoint L a) (toPoint L b) (toPoint L c) : ℝ) < 0 := by linarith
  exact_mod_cast h'

theorem det_pos {L : Libm} (hL : L.Ok) {a b c : Coord} (ha : a.Geo) (hb : b.Geo) (hc : c.Geo)
    (h : 1 / 2 ^ 41 < sphereDet a b c) :
    0 < det (toPoint L a) (toPoint L b) (toPoint L c) := by
  have := (abs_le.1 (det_close hL ha hb hc)).1
  have h' : (0 : ℝ) < det (toPoint L a) (toPoint L b) (toPoint L c) := by linarith
  exact_mod_cast h'

/-! ### Signs of the coordinates of points -/

theorem sign_of_rel {a b : ℝ} (h : |a - b| ≤ 1 / 2 ^ 50 * |b|) : (0 < b → 0 < a) ∧
    (b < 0 → a < 0) ∧ (b = 0 → a = 0) := by
  refine ⟨fun hb => ?_, fun hb => ?_, fun hb => ?_⟩
  · rw [abs_of_pos hb] at h
    have := (abs_le.1 h).1
    norm_num at *
    linarith
  · rw [abs_of_neg hb] at h
    have := (abs_le.1 h).2
    norm_num at *
    linarith
  · subst hb
    simpa using h

theorem lat_z {L : Libm} (hL : L.Ok) {c : Coord} (hc : c.Geo) :
    (0 < (toPoint L c).2.2 ↔ 0 < c.lat) ∧ ((toPoint L c).2.2 < 0 ↔ c.lat < 0) := by
  obtain ⟨g1, g2, g3, g4⟩ := hc
  have hs := hL.sin (radians c.lat)
  have hr := abs_lt.1 (radians_lt_half g3 g4)
  have hn := radians_rel c.lat
  unfold Rel at hn
  obtain ⟨n1, n2, n3⟩ := sign_of_rel hn
  obtain ⟨s1, s2, s3⟩ := sign_of_rel hs
  have hpi := Real.pi_pos
  have pos : 0 < c.lat → (0 : ℝ) < L.sin (radians c.lat) := fun h =>
    s1 (Real.sin_pos_of_pos_of_lt_pi (n1 (by
      have : (0 : ℝ) < c.lat := by exact_mod_cast h
      unfold rad; positivity)) (by linarith))
  have neg : c.lat < 0 → (L.sin (radians c.lat) : ℝ) < 0 := fun h =>
    s2 (Real.sin_neg_of_neg_of_neg_pi_lt (n2 (by
      have : (c.lat : ℝ) < 0 := by exact_mod_cast h
      unfold rad
      have : (c.lat : ℝ) / 1000000 < 0 := by linarith
      nlinarith)) (by linarith))
  have zero : c.lat = 0 → (L.sin (radians c.lat) : ℝ) = 0 := fun h =>
    s3 (by rw [n3 (by rw [h]; simp [rad])]; simp)
  show (0 < L.sin (radians c.lat) ↔ _) ∧ (L.sin (radians c.lat) < 0 ↔ _)
  rcases lt_trichotomy c.lat 0 with h | h | h
  · have : L.sin (radians c.lat) < 0 := by exact_mod_cast neg h
    exact ⟨⟨fun h' => absurd h' this.not_gt, fun h' => absurd h' (by omega)⟩, iff_of_true this h⟩
  · have : L.sin (radians c.lat) = 0 := by exact_mod_cast zero h
    rw [this, h]
    simp
  · have : 0 < L.sin (radians c.lat) := by exact_mod_cast pos h
    exact ⟨iff_of_true this h, ⟨fun h' => absurd h' this.not_gt, fun h' => absurd h' (by omega)⟩⟩

theorem fl_sign (q : ℚ) : (0 < q → 0 < fl q) ∧ (q < 0 → fl q < 0) := by
  have h : |((fl q : ℚ) : ℝ) - q| ≤ 1 / 2 ^ 50 * |(q : ℝ)| := (rel_fl q).mono (by norm_num)
  obtain ⟨h1, h2, -⟩ := sign_of_rel h
  exact ⟨fun h => by exact_mod_cast h1 (by exact_mod_cast h),
    fun h => by exact_mod_cast h2 (by exact_mod_cast h)⟩

theorem lon_x {L : Libm} (hL : L.Ok) {c : Coord} (hc : c.Geo) :
    (|c.lon| ≤ 90000000 → 0 < (toPoint L c).1) ∧ (90000000 < |c.lon| → (toPoint L c).1 < 0) := by
  obtain ⟨g1, g2, g3, g4⟩ := hc
  have hpi := Real.pi_pos
  have hlat : 0 < L.cos (radians c.lat) := by
    have := (sign_of_rel (hL.cos (radians c.lat))).1 (cos_pos_of g3 g4)
    exact_mod_cast this
  refine ⟨fun h => (fl_sign _).1 (mul_pos ?_ hlat), fun h => (fl_sign _).2
    (mul_neg_of_neg_of_pos ?_ hlat)⟩
  · have := (sign_of_rel (hL.cos (radians c.lon))).1
      (cos_pos_of (by rw [abs_le] at h; omega) (by rw [abs_le] at h; omega))
    exact_mod_cast this
  · have key : ∀ n : ℤ, 90000000 < n → n ≤ 180000000 → Real.cos (radians n : ℝ) < 0 := by
      intro n h1 h2
      have hn : (90000001 : ℝ) ≤ n := by exact_mod_cast h1
      have hr := (abs_le.1 (radians_close (by omega) h2)).1
      have hl := abs_lt.1 (radians_lt (by omega) h2)
      refine Real.cos_neg_of_pi_div_two_lt_of_lt ?_ (by linarith)
      have h3 := Real.pi_gt_three
      have : Real.pi / 2 + 1 / 100000000 ≤ rad n := by
        unfold rad
        nlinarith
      norm_num at *
      linarith
    have hneg : Real.cos (radians c.lon : ℝ) < 0 := by
      rcases lt_abs.1 h with h | h
      · exact key _ h g2
      · have := key (-c.lon) h (by omega)
        rw [radians_neg] at this
        push_cast at this
        rwa [Real.cos_neg] at this
    have := (sign_of_rel (hL.cos (radians c.lon))).2.1 hneg
    exact_mod_cast this

end Sphere

end Capi
