import Verif.Spec.Cone
import Verif.Lemmas.Winding

/-!
# Helper lemmas for `ThreeVertexPolyline`
-/

namespace Capi

/-- Error of a product in degrees, before and after rounding it. -/
theorem prod_deg_errs (k l : ℤ) :
    |Coord.degOfMicro k * Coord.degOfMicro l - k * l / 1000000000000| ≤
        6 * |(k : ℚ) * l| / 1000000000000 / 2 ^ 53 ∧
      |fl (Coord.degOfMicro k * Coord.degOfMicro l) - k * l / 1000000000000| ≤
        6 * |(k : ℚ) * l| / 1000000000000 / 2 ^ 53 := by
  have h1 := degOfMicro_err (k := k) (B := |k|) le_rfl
  have h2 := degOfMicro_err (k := l) (B := |l|) le_rfl
  push_cast at h1 h2
  generalize Coord.degOfMicro k = x at *
  generalize Coord.degOfMicro l = y at *
  rw [abs_mul]
  set K := |(k : ℚ)| with hK
  set L := |(l : ℚ)| with hL
  have hK0 : 0 ≤ K := abs_nonneg _
  have hL0 : 0 ≤ L := abs_nonneg _
  have kx : |(k : ℚ) / 1000000| = K / 1000000 := by rw [abs_div]; norm_num; rfl
  have ly : |(l : ℚ) / 1000000| = L / 1000000 := by rw [abs_div]; norm_num; rfl
  have hy : |y| ≤ L / 1000000 * (1 + 3 / 2 ^ 53) := by
    rw [show y = (y - l / 1000000) + l / 1000000 by ring]
    refine (abs_add_le _ _).trans ?_
    rw [ly]
    have : L / 1000000 * (2001 / 1000) / 2 ^ 53 ≤ L / 1000000 * 3 / 2 ^ 53 := by
      gcongr; norm_num
    have e : L / 1000000 * (1 + 3 / 2 ^ 53) = L / 1000000 * 3 / 2 ^ 53 + L / 1000000 := by ring
    linarith
  have hx : |x| ≤ K / 1000000 * (1 + 3 / 2 ^ 53) := by
    rw [show x = (x - k / 1000000) + k / 1000000 by ring]
    refine (abs_add_le _ _).trans ?_
    rw [kx]
    have : K / 1000000 * (2001 / 1000) / 2 ^ 53 ≤ K / 1000000 * 3 / 2 ^ 53 := by
      gcongr; norm_num
    have e : K / 1000000 * (1 + 3 / 2 ^ 53) = K / 1000000 * 3 / 2 ^ 53 + K / 1000000 := by ring
    linarith
  have m1 : |x * y - k * l / 1000000000000| ≤
      K * L / 1000000000000 * (4003 / 1000) / 2 ^ 53 := by
    rw [show x * y - (k : ℚ) * l / 1000000000000 =
      (x - k / 1000000) * y + k / 1000000 * (y - l / 1000000) by ring]
    refine (abs_add_le _ _).trans ?_
    rw [abs_mul, abs_mul, kx]
    calc |x - k / 1000000| * |y| + K / 1000000 * |y - l / 1000000|
        ≤ (K / 1000000 * (2001 / 1000) / 2 ^ 53) * (L / 1000000 * (1 + 3 / 2 ^ 53)) +
          K / 1000000 * (L / 1000000 * (2001 / 1000) / 2 ^ 53) := by gcongr
      _ = K * L / 1000000000000 * (2001 / 1000 * (2 + 3 / 2 ^ 53)) / 2 ^ 53 := by ring
      _ ≤ K * L / 1000000000000 * (4003 / 1000) / 2 ^ 53 := by gcongr; norm_num
  have m2 : |x * y| ≤ K * L / 1000000000000 * (1001 / 1000) := by
    rw [abs_mul]
    calc |x| * |y| ≤ (K / 1000000 * (1 + 3 / 2 ^ 53)) * (L / 1000000 * (1 + 3 / 2 ^ 53)) := by gcongr
      _ = K * L / 1000000000000 * ((1 + 3 / 2 ^ 53) * (1 + 3 / 2 ^ 53)) := by ring
      _ ≤ K * L / 1000000000000 * (1001 / 1000) := by gcongr; norm_num
  have m3 : |fl (x * y) - x * y| ≤ K * L / 1000000000000 * (1001 / 1000) / 2 ^ 53 :=
    (fl_err _).trans (by gcongr)
  refine ⟨m1.trans ?_, ?_⟩
  · rw [show K * L / 1000000000000 * (4003 / 1000) / 2 ^ 53 =
      (4003 / 1000) * (K * L) / 1000000000000 / 2 ^ 53 by ring]
    gcongr
    norm_num
  rw [show fl (x * y) - (k : ℚ) * l / 1000000000000 =
    (fl (x * y) - x * y) + (x * y - k * l / 1000000000000) by ring]
  refine (abs_add_le _ _).trans ((add_le_add m3 m1).trans ?_)
  rw [show K * L / 1000000000000 * (1001 / 1000) / 2 ^ 53 +
    K * L / 1000000000000 * (4003 / 1000) / 2 ^ 53 =
    (5004 / 1000) * (K * L) / 1000000000000 / 2 ^ 53 by ring]
  gcongr
  norm_num

theorem prod_deg_err (k l : ℤ) :
    |fl (Coord.degOfMicro k * Coord.degOfMicro l) - k * l / 1000000000000| ≤
      6 * |(k : ℚ) * l| / 1000000000000 / 2 ^ 53 := (prod_deg_errs k l).2

/-- The determinant at the corner exceeds the rounding error of `is_reflex`. -/
def CornerResolved (v1 v2 v3 : Coord) : Prop :=
  6 * (|(v2.lon - v1.lon) * (v3.lat - v2.lat)| + |(v2.lat - v1.lat) * (v3.lon - v2.lon)|) <
    2 ^ 53 * |area2 v1 v2 v3|

instance (v1 v2 v3 : Coord) : Decidable (CornerResolved v1 v2 v3) := by
  unfold CornerResolved; infer_instance

/-- Two products close to those of the determinant compare as the determinant says. -/
theorem det_sign {v1 v2 v3 : Coord} (h : CornerResolved v1 v2 v3) {X Y : ℚ}
    (e1 : |X - (v2.lon - v1.lon : ℤ) * (v3.lat - v2.lat : ℤ) / 1000000000000| ≤
      6 * |((v2.lon - v1.lon : ℤ) : ℚ) * (v3.lat - v2.lat : ℤ)| / 1000000000000 / 2 ^ 53)
    (e2 : |Y - (v2.lat - v1.lat : ℤ) * (v3.lon - v2.lon : ℤ) / 1000000000000| ≤
      6 * |((v2.lat - v1.lat : ℤ) : ℚ) * (v3.lon - v2.lon : ℤ)| / 1000000000000 / 2 ^ 53) :
    X < Y ↔ area2 v1 v2 v3 < 0 := by
  have hdet : area2 v1 v2 v3 =
      (v2.lon - v1.lon) * (v3.lat - v2.lat) - (v2.lat - v1.lat) * (v3.lon - v2.lon) := by
    unfold area2; ring
  unfold CornerResolved at h
  rw [hdet] at h ⊢
  set p := v2.lon - v1.lon
  set q := v3.lat - v2.lat
  set r := v2.lat - v1.lat
  set s := v3.lon - v2.lon
  have e1 := abs_le.1 e1
  have e2 := abs_le.1 e2
  have hq : (6 : ℚ) * (|(p : ℚ) * q| + |(r : ℚ) * s|) < 2 ^ 53 * |(p : ℚ) * q - r * s| := by
    have : ((6 * (|p * q| + |r * s|) : ℤ) : ℚ) < ((2 ^ 53 * |p * q - r * s| : ℤ) : ℚ) := by
      exact_mod_cast h
    push_cast at this
    exact this
  set A := |(p : ℚ) * q|
  set B := |(r : ℚ) * s|
  have hcast : p * q - r * s < 0 ↔ (p : ℚ) * q - r * s < 0 := by
    constructor
    · intro h; exact_mod_cast h
    · intro h; exact_mod_cast h
  rw [hcast]
  have hE : 6 * A / 1000000000000 / 2 ^ 53 + 6 * B / 1000000000000 / 2 ^ 53 <
      |(p : ℚ) * q - r * s| / 1000000000000 := by
    rw [show 6 * A / 1000000000000 / 2 ^ 53 + 6 * B / 1000000000000 / 2 ^ 53 =
      6 * (A + B) / 2 ^ 53 / 1000000000000 by ring]
    gcongr
    rw [div_lt_iff₀ (by positivity)]
    linarith
  have hsub : ((p : ℚ) * q - r * s) / 1000000000000 =
    (p : ℚ) * q / 1000000000000 - r * s / 1000000000000 := by ring
  rcases lt_trichotomy ((p : ℚ) * q - r * s) 0 with h0 | h0 | h0
  · refine ⟨fun _ => h0, fun _ => ?_⟩
    rw [abs_of_neg h0] at hE
    have : -((p : ℚ) * q - r * s) / 1000000000000 =
      -(((p : ℚ) * q - r * s) / 1000000000000) := by ring
    linarith [e1.2, e2.1]
  · rw [h0] at hE
    have : (0 : ℚ) ≤ 6 * A / 1000000000000 / 2 ^ 53 := by positivity
    have : (0 : ℚ) ≤ 6 * B / 1000000000000 / 2 ^ 53 := by positivity
    simp at hE; linarith
  · refine ⟨fun hlt => ?_, fun h => absurd h (not_lt.2 h0.le)⟩
    rw [abs_of_pos h0] at hE
    linarith [e1.1, e2.2]

theorem isReflex_iff {v1 v2 v3 : Coord} (h : CornerResolved v1 v2 v3) :
    Polyline.isReflex v1 v2 v3 = true ↔ area2 v1 v2 v3 < 0 := by
  unfold Polyline.isReflex
  rw [decide_eq_true_eq, fl_neg_iff, sub_neg]
  unfold Coord.lonDeg Coord.latDeg
  simp only [sub_lon, sub_lat]
  exact det_sign h (prod_deg_err _ _) (prod_deg_err _ _)

/-! ### Cones and signs -/

theorem cone_coords {a v b c : Coord} {x y : ℚ}
    (h1 : (c.lon : ℚ) - v.lon = x * (a.lon - v.lon) + y * (b.lon - v.lon))
    (h2 : (c.lat : ℚ) - v.lat = x * (a.lat - v.lat) + y * (b.lat - v.lat)) :
    (((b.sub v).cross (c.sub v) : ℤ) : ℚ) = x * area2 a v b ∧
    (((a.sub v).cross (c.sub v) : ℤ) : ℚ) = -(y * area2 a v b) := by
  simp only [Coord.cross, sub_lon, sub_lat, area2]
  push_cast
  rw [h1, h2]
  constructor <;> ring

theorem cone_exists {a v b : Coord} (c : Coord) (h : area2 a v b ≠ 0) :
    ∃ x y : ℚ, (c.lon : ℚ) - v.lon = x * (a.lon - v.lon) + y * (b.lon - v.lon) ∧
      (c.lat : ℚ) - v.lat = x * (a.lat - v.lat) + y * (b.lat - v.lat) := by
  have hq : (area2 a v b : ℚ) ≠ 0 := by exact_mod_cast h
  refine ⟨((b.sub v).cross (c.sub v) : ℤ) / area2 a v b,
    -((a.sub v).cross (c.sub v) : ℤ) / area2 a v b, ?_, ?_⟩
  · field_simp
    simp only [Coord.cross, sub_lon, sub_lat, area2]; push_cast; ring
  · field_simp
    simp only [Coord.cross, sub_lon, sub_lat, area2]; push_cast; ring

theorem cone_unique {a v b c : Coord} (h : area2 a v b ≠ 0) {x y x' y' : ℚ}
    (h1 : (c.lon : ℚ) - v.lon = x * (a.lon - v.lon) + y * (b.lon - v.lon))
    (h2 : (c.lat : ℚ) - v.lat = x * (a.lat - v.lat) + y * (b.lat - v.lat))
    (h1' : (c.lon : ℚ) - v.lon = x' * (a.lon - v.lon) + y' * (b.lon - v.lon))
    (h2' : (c.lat : ℚ) - v.lat = x' * (a.lat - v.lat) + y' * (b.lat - v.lat)) :
    x = x' ∧ y = y' := by
  have hq : (area2 a v b : ℚ) ≠ 0 := by exact_mod_cast h
  obtain ⟨e1, e2⟩ := cone_coords h1 h2
  obtain ⟨f1, f2⟩ := cone_coords h1' h2'
  exact ⟨mul_right_cancel₀ hq (e1.symm.trans f1),
    mul_right_cancel₀ hq (neg_injective (e2.symm.trans f2))⟩

theorem orient_cases (u d : Coord) :
    (u.orient d = .clockwise ↔ ((u.cross d : ℤ) : ℚ) < 0) ∧
    (u.orient d = .counterClockwise ↔ 0 < ((u.cross d : ℤ) : ℚ)) ∧
    (u.orient d = .collinear ↔ ((u.cross d : ℤ) : ℚ) = 0) := by
  unfold Coord.orient Coord.orientOfSign
  have h1 : ((u.cross d : ℤ) : ℚ) < 0 ↔ u.cross d < 0 := by norm_cast
  have h2 : 0 < ((u.cross d : ℤ) : ℚ) ↔ 0 < u.cross d := by norm_cast
  have h3 : ((u.cross d : ℤ) : ℚ) = 0 ↔ u.cross d = 0 := by norm_cast
  rw [h1, h2, h3]
  split_ifs <;> simp <;> omega

end Capi
