import Verif.Lemmas.Haversine

/-!
# C86: distances on the sphere
-/

namespace Capi

open Sphere

/-- **C86** The computed distance of two places is their distance on the unit sphere up to a
millionth, and up to a part in `2^41` divided by the sine of the distance. -/
theorem C86_accurate (L : Libm) (hL : L.Ok) (asin : ℚ → ℚ) (hs : AsinOk L asin) (a b : Coord)
    (ha : a.Geo) (hb : b.Geo) :
    |(distance L asin a b : ℝ) - arcLength a b| ≤ 1 / 1000000 ∧
      |(distance L asin a b : ℝ) - arcLength a b| * Real.sin (arcLength a b) ≤ 1 / 2 ^ 41 := by
  obtain ⟨h0, h1⟩ := hav_range ha hb
  have hc := haversine_close hL ha hb
  have hn := haversine_nonneg hL ha hb
  set h : ℝ := hav a b with hh
  set q : ℚ := min 1 (haversine L a b) with hq
  have q0 : 0 ≤ q := le_min zero_le_one hn
  have q1 : q ≤ 1 := min_le_left _ _
  have hqc : |(q : ℝ) - h| ≤ 39 / 2 ^ 50 := by
    rw [hq, Rat.cast_min, Rat.cast_one]
    rcases min_cases (1 : ℝ) (haversine L a b : ℝ) with ⟨e, e'⟩ | ⟨e, e'⟩ <;> rw [e]
    · rw [abs_of_nonneg (by linarith)]
      linarith [(abs_le.1 hc).2]
    · exact hc
  obtain ⟨y0, hyq⟩ := root_close hL q0 q1
  have y1 : L.sqrt q ≤ 1 := hs.root q q0 q1
  have hyy : |(L.sqrt q : ℝ) ^ 2 - h| ≤ 40 / 2 ^ 50 := by
    have h2 := abs_sub_le ((L.sqrt q : ℝ) ^ 2) q h
    have h3 : (1 : ℝ) / 2 ^ 51 + 39 / 2 ^ 50 ≤ 40 / 2 ^ 50 := by norm_num
    linarith
  have yr0 : (0 : ℝ) ≤ L.sqrt q := by exact_mod_cast y0
  have yr1 : (L.sqrt q : ℝ) ≤ 1 := by exact_mod_cast y1
  rw [arcLength_eq ha hb]
  refine double_close (Real.arcsin_nonneg.2 yr0) (Real.arcsin_le_pi_div_two _)
    (Real.arcsin_nonneg.2 (Real.sqrt_nonneg _)) (Real.arcsin_le_pi_div_two _) ?_ (asin_close hs y0 y1)
  rw [Real.sin_arcsin (by linarith) yr1, Real.sin_arcsin
    (by linarith [Real.sqrt_nonneg (hav a b)]) (Real.sqrt_le_one.2 h1), Real.sq_sqrt h0]
  exact hyy

/-- A quarter of the equator. -/
example (L : Libm) (hL : L.Ok) (asin : ℚ → ℚ) (hs : AsinOk L asin) :
    |(distance L asin ⟨0, 0⟩ ⟨90000000, 0⟩ : ℝ) - Real.pi / 2| ≤ 1 / 2 ^ 41 := by
  have h := (C86_accurate L hL asin hs ⟨0, 0⟩ ⟨90000000, 0⟩ (by decide) (by decide)).2
  have : arcLength ⟨0, 0⟩ ⟨90000000, 0⟩ = Real.pi / 2 := by
    unfold arcLength onSphere
    dsimp only
    rw [rad_90, rad_0, Real.cos_pi_div_two, Real.sin_zero]
    simp
  rwa [this, Real.sin_pi_div_two, mul_one] at h

/-- There are functions as assumed. -/
example : ∃ (L : Libm) (asin : ℚ → ℚ), L.Ok ∧ AsinOk L asin := by
  obtain ⟨L, hL⟩ := exists_libm
  have near : ∀ x : ℝ, ∃ q : ℚ, 0 ≤ x → |(q : ℝ) - x| ≤ 1 / 2 ^ 50 * x := by
    intro x
    rcases le_or_gt x 0 with hx | hx
    · exact ⟨0, fun h => by rw [le_antisymm hx h]; simp⟩
    · obtain ⟨q, h1, h2⟩ := exists_rat_btwn (show x < x + 1 / 2 ^ 50 * x by
        have : (0 : ℝ) < 1 / 2 ^ 50 * x := by positivity
        linarith)
      exact ⟨q, fun _ => by rw [abs_of_pos (by linarith)]; linarith⟩
  choose f hf using near
  refine ⟨{ L with sqrt := fun q => if q ≤ 1 then min 1 (L.sqrt q) else L.sqrt q },
    fun y => f (Real.arcsin y), ⟨hL.sin, hL.cos, hL.atan2, ⟨?_, fun q h => ?_, fun q h => ?_⟩,
      hL.round⟩, fun y h0 _ => hf _ (Real.arcsin_nonneg.2 (by exact_mod_cast h0)), fun q _ h1 => ?_⟩
  · simp [hL.sqrt.zero]
  · dsimp only
    split
    · exact lt_min one_pos (hL.sqrt.pos q h)
    · exact hL.sqrt.pos q h
  · dsimp only
    have hc := hL.sqrt.close q h
    split
    · rename_i h1
      rcases min_cases 1 (L.sqrt q) with ⟨e, e'⟩ | ⟨e, e'⟩ <;> rw [e]
      · have := (abs_le.1 hc).2
        rw [abs_of_nonneg (by linarith)]
        nlinarith
      · exact hc
    · exact hc
  · dsimp only
    rw [if_pos h1]
    exact min_le_left _ _

/-- **C86** The computed distance is never negative, and zero for equal coordinates only. -/
theorem C86_zero (L : Libm) (hL : L.Ok) (asin : ℚ → ℚ) (hs : AsinOk L asin) (a b : Coord)
    (ha : a.Geo) (hb : b.Geo) :
    0 ≤ distance L asin a b ∧ (distance L asin a b = 0 ↔ a = b) := by
  have hn := haversine_nonneg hL ha hb
  have hpos : 0 < haversine L a b → 0 < distance L asin a b := by
    intro h
    have hq : 0 < min 1 (haversine L a b) := lt_min one_pos h
    have hy := hL.sqrt.pos _ hq
    have hy1 := hs.root _ hq.le (min_le_left _ _)
    have hc := hs.close _ hy.le hy1
    have ht : 0 < Real.arcsin ((L.sqrt (min 1 (haversine L a b)) : ℚ) : ℝ) :=
      Real.arcsin_pos.2 (by exact_mod_cast hy)
    have : 0 < asin (L.sqrt (min 1 (haversine L a b))) := by
      have hc' : |(asin (L.sqrt (min 1 (haversine L a b))) : ℝ) -
          Real.arcsin ((L.sqrt (min 1 (haversine L a b)) : ℚ) : ℝ)| ≤
            1 / 2 ^ 50 * |Real.arcsin ((L.sqrt (min 1 (haversine L a b)) : ℚ) : ℝ)| := by
        rwa [abs_of_pos ht]
      exact_mod_cast (sign_of_rel hc').1 ht
    unfold distance
    exact fl_pos (by linarith)
  have hzero : haversine L a b = 0 → distance L asin a b = 0 := by
    intro h
    unfold distance
    rw [h, min_eq_right zero_le_one, hL.sqrt.zero, asin_zero hs, mul_zero, fl_zero]
  constructor
  · rcases hn.eq_or_lt with h | h
    · rw [hzero h.symm]
    · exact (hpos h).le
  · constructor
    · intro h0
      by_contra hne
      refine absurd h0 (hpos ?_).ne'
      obtain ⟨a1, a2, a3, a4⟩ := id ha
      obtain ⟨b1, b2, b3, b4⟩ := id hb
      have ca := cos_radians_pos hL ha
      have cb := cos_radians_pos hL hb
      have hf : ∀ {q : ℚ}, 0 ≤ q → 0 ≤ fl q := fun h => by
        have := fl_mono h; rwa [fl_zero] at this
      unfold haversine
      by_cases hlat : a.lat = b.lat
      · have hlon : a.lon ≠ b.lon := fun h => hne (Coord.ext' h hlat)
        have := half_sin_ne hL (m := a.lon) (n := b.lon) (by rw [abs_le]; omega)
          (by rw [abs_le]; omega) hlon
        refine fl_pos (add_pos_of_nonneg_of_pos (hf (mul_self_nonneg _)) (fl_pos (mul_pos
          (fl_pos (mul_pos (fl_pos (mul_self_pos.2 this)) ca)) cb)))
      · have := half_sin_ne hL (m := a.lat) (n := b.lat) (by rw [abs_le]; omega)
          (by rw [abs_le]; omega) hlat
        refine fl_pos (add_pos_of_pos_of_nonneg (fl_pos (mul_self_pos.2 this)) (hf (mul_nonneg
          (hf (mul_nonneg (hf (mul_self_nonneg _)) ca.le)) cb.le)))
    · rintro rfl
      apply hzero
      unfold haversine
      simp only [sub_self, fl_zero, mul_zero, sin_zero' hL, zero_mul, add_zero]

/-- The poles. -/
example (L : Libm) (hL : L.Ok) (asin : ℚ → ℚ) (hs : AsinOk L asin) :
    distance L asin ⟨7, 90000000⟩ ⟨7, 90000000⟩ = 0 ∧ 0 < distance L asin ⟨7, 90000000⟩ ⟨8, 90000000⟩ := by
  refine ⟨(C86_zero L hL asin hs _ _ (by decide) (by decide)).2.2 rfl, ?_⟩
  obtain ⟨h, h'⟩ := C86_zero L hL asin hs ⟨7, 90000000⟩ ⟨8, 90000000⟩ (by decide) (by decide)
  exact lt_of_le_of_ne h fun e => absurd (h'.1 e.symm) (by decide)

/-- False: places that are the same have distance zero.  The meridian of 180 degrees has two names. -/
theorem C86_place_false (L : Libm) (hL : L.Ok) (asin : ℚ → ℚ) (hs : AsinOk L asin) (y : ℤ)
    (h1 : -90000000 ≤ y) (h2 : y ≤ 90000000) :
    onSphere ⟨180000000, y⟩ = onSphere ⟨-180000000, y⟩ ∧
      0 < distance L asin ⟨180000000, y⟩ ⟨-180000000, y⟩ := by
  constructor
  · unfold onSphere
    dsimp only
    rw [rad_neg, rad_180, Real.cos_neg, Real.sin_neg, Real.sin_pi, neg_zero]
  · obtain ⟨h, h'⟩ := C86_zero L hL asin hs ⟨180000000, y⟩ ⟨-180000000, y⟩
      ⟨by simp, by simp, h1, h2⟩ ⟨by simp, by simp, h1, h2⟩
    refine lt_of_le_of_ne h fun e => ?_
    have := h'.1 e.symm
    simp at this

/-- **C86** The computed distance is the same both ways, keeps the inequality of the triangle, and
is at most that of opposite places, up to rounding. -/
theorem C86_metric (L : Libm) (hL : L.Ok) (asin : ℚ → ℚ) (hs : AsinOk L asin) (a b c : Coord)
    (ha : a.Geo) (hb : b.Geo) (hc : c.Geo) :
    |(distance L asin a b : ℝ) - distance L asin b a| ≤ 2 / 1000000 ∧
      (distance L asin a c : ℝ) ≤ distance L asin a b + distance L asin b c + 3 / 1000000 ∧
        (distance L asin a b : ℝ) ≤ Real.pi + 1 / 1000000 := by
  have ab := abs_le.1 (C86_accurate L hL asin hs a b ha hb).1
  have ba := abs_le.1 (C86_accurate L hL asin hs b a hb ha).1
  have bc := abs_le.1 (C86_accurate L hL asin hs b c hb hc).1
  have ac := abs_le.1 (C86_accurate L hL asin hs a c ha hc).1
  have hsym : arcLength a b = arcLength b a := by
    unfold arcLength
    congr 1
    ring
  have htri := arcLength_triangle a b c
  have hpi : arcLength a b ≤ Real.pi := Real.arccos_le_pi _
  refine ⟨?_, ?_, ?_⟩
  · rw [abs_le]; constructor <;> linarith [ab.1, ab.2, ba.1, ba.2]
  · linarith [ab.1, bc.1, ac.2]
  · linarith [ab.2]

example (L : Libm) (hL : L.Ok) (asin : ℚ → ℚ) (hs : AsinOk L asin) :
    (distance L asin ⟨0, 0⟩ ⟨90000000, 0⟩ : ℝ) ≤ distance L asin ⟨0, 0⟩ ⟨20000000, 45000000⟩ +
      distance L asin ⟨20000000, 45000000⟩ ⟨90000000, 0⟩ + 3 / 1000000 :=
  (C86_metric L hL asin hs ⟨0, 0⟩ ⟨20000000, 45000000⟩ ⟨90000000, 0⟩ (by decide) (by decide)
    (by decide)).2.1

/-- **C86** Distances on the sphere are at most the distances in the plane, with which the search
works: no leg is longer in reality than for the search. -/
theorem C86_plane (a b : Coord) : arcLength a b ≤ planeDist a b 0 * (Real.pi / 180) := by
  rcases eq_or_ne a b with rfl | hne
  · have h1 : arcLength a a = 0 := by
      unfold arcLength; rw [norm_onSphere, Real.arccos_one]
    rw [h1]
    unfold planeDist
    positivity
  · rw [arcLength_dir]
    have hk : (0 : ℝ) < Real.pi / 180 := by positivity
    have hp : 0 < planeDist a b 0 := by
      unfold planeDist
      refine div_pos (Real.sqrt_pos.2 ?_) (by norm_num)
      by_cases hx : a.lon = b.lon
      · have hy : a.lat - b.lat ≠ 0 := fun h => hne (Coord.ext' hx (by omega))
        have : ((a.lat - b.lat : ℤ) : ℝ) ≠ 0 := by exact_mod_cast hy
        positivity
      · have hy : a.lon + 0 * 360000001 - b.lon ≠ 0 := by omega
        have : ((a.lon + 0 * 360000001 - b.lon : ℤ) : ℝ) ≠ 0 := by exact_mod_cast hy
        positivity
    have := angle_plane (x := rad a.lon) (y := rad a.lat) (u := rad b.lon - rad a.lon)
      (v := rad b.lat - rad a.lat) (D := planeDist a b 0 * (Real.pi / 180)) (by positivity) (by
        unfold planeDist rad
        rw [mul_pow, div_pow, Real.sq_sqrt (by positivity)]
        push_cast
        ring)
    rwa [add_sub_cancel, add_sub_cancel] at this

/-- **C86** The same for legs across the meridian, up to a microdegree. -/
theorem C86_wrap (a b : Coord) : arcLength a b ≤ (wrapDist a b + 1 / 1000000) * (Real.pi / 180) := by
  have hpi : (0 : ℝ) < Real.pi / 180 := by positivity
  have key : ∀ k : ℤ, |k| ≤ 1 → arcLength a b ≤ (planeDist a b k + 1 / 1000000) * (Real.pi / 180) := by
    intro k hk
    have hs : onSphere ⟨a.lon + k * 360000000, a.lat⟩ = onSphere a := by
      have : rad (a.lon + k * 360000000) = rad a.lon + k * (2 * Real.pi) := by
        unfold rad; push_cast; ring
      unfold onSphere
      dsimp only
      rw [this, Real.cos_add_int_mul_two_pi, Real.sin_add_int_mul_two_pi]
    have h1 : arcLength a b = arcLength ⟨a.lon + k * 360000000, a.lat⟩ b := by
      unfold arcLength; rw [hs]
    rw [h1]
    refine (C86_plane _ b).trans (mul_le_mul_of_nonneg_right ?_ hpi.le)
    unfold planeDist
    dsimp only
    have h2 : √(((a.lon + k * 360000000 + 0 * 360000001 - b.lon : ℤ) : ℝ) ^ 2 +
        ((a.lat - b.lat : ℤ) : ℝ) ^ 2) ≤
        √(((a.lon + k * 360000001 - b.lon : ℤ) : ℝ) ^ 2 + ((a.lat - b.lat : ℤ) : ℝ) ^ 2) + 1 := by
      set p : ℝ := ((a.lon + k * 360000001 - b.lon : ℤ) : ℝ) with hp
      set q : ℝ := ((a.lat - b.lat : ℤ) : ℝ)
      have e : ((a.lon + k * 360000000 + 0 * 360000001 - b.lon : ℤ) : ℝ) = p - k := by
        rw [hp]; push_cast; ring
      rw [e]
      have hk' : |(k : ℝ)| ≤ 1 := by exact_mod_cast hk
      have hr := Real.sqrt_nonneg (p ^ 2 + q ^ 2)
      have hpr : |p| ≤ √(p ^ 2 + q ^ 2) := Real.abs_le_sqrt (by nlinarith)
      rw [Real.sqrt_le_left (by linarith), add_sq, Real.sq_sqrt (by positivity)]
      have h3 : |p * k| ≤ √(p ^ 2 + q ^ 2) * 1 := by
        rw [abs_mul]
        exact mul_le_mul hpr hk' (abs_nonneg _) hr
      have h4 : (k : ℝ) ^ 2 ≤ 1 := (sq_le_one_iff_abs_le_one _).2 hk'
      nlinarith [(abs_le.1 h3).1]
    exact (div_le_div_of_nonneg_right h2 (by norm_num)).trans_eq (add_div _ _ _)
  unfold wrapDist
  have h0 := key 0 (by norm_num)
  have h1 := key 1 (by norm_num)
  have h2 := key (-1) (by norm_num)
  rcases min_choice (planeDist a b 0) (min (planeDist a b 1) (planeDist a b (-1))) with h | h
  · rw [h]; exact h0
  · rw [h]
    rcases min_choice (planeDist a b 1) (planeDist a b (-1)) with h | h
    · rw [h]; exact h1
    · rw [h]; exact h2

/-- **C86** No leg of a route is longer in reality than for the search, up to a microdegree. -/
theorem C86_leg (E : ShortestPath.Env) (a b : Coord) :
    arcLength a b ≤ (legLength E a b + 1 / 1000000) * (Real.pi / 180) := by
  refine (C86_wrap a b).trans ?_
  have : wrapDist a b ≤ legLength E a b := by
    unfold legLength wrapDist
    split
    · exact min_le_right _ _
    · exact min_le_left _ _
  have hpi : (0 : ℝ) < Real.pi / 180 := by positivity
  gcongr

/-- Two degrees across the meridian. -/
example : arcLength ⟨179000000, 0⟩ ⟨-179000000, 0⟩ ≤ 2.000002 * (Real.pi / 180) := by
  refine (C86_wrap _ _).trans ?_
  have h : wrapDist ⟨179000000, 0⟩ ⟨-179000000, 0⟩ ≤ 2.000001 := by
    unfold wrapDist
    refine (min_le_right _ _).trans ((min_le_right _ _).trans ?_)
    unfold planeDist
    rw [div_le_iff₀ (by norm_num), Real.sqrt_le_left (by norm_num)]
    norm_num
  have hpi : (0 : ℝ) < Real.pi / 180 := by positivity
  nlinarith

/-- False: the lengths of the search exceed those on the sphere by a bounded factor. -/
theorem C86_plane_false : ¬ ∃ k : ℝ, ∀ a b : Coord, a.Geo → b.Geo →
    planeDist a b 0 ≤ k * arcLength a b := by
  rintro ⟨k, h⟩
  have := h ⟨0, 90000000⟩ ⟨180000000, 90000000⟩ (by decide) (by decide)
  have h0 : arcLength ⟨0, 90000000⟩ ⟨180000000, 90000000⟩ = 0 := by
    unfold arcLength onSphere
    dsimp only
    rw [rad_90, Real.cos_pi_div_two, Real.sin_pi_div_two]
    simp
  rw [h0, mul_zero] at this
  unfold planeDist at this
  have h1 : (0 : ℝ) < √(((0 + 0 * 360000001 - 180000000 : ℤ) : ℝ) ^ 2 +
      ((90000000 - 90000000 : ℤ) : ℝ) ^ 2) / 1000000 := by
    refine div_pos (Real.sqrt_pos.2 ?_) (by norm_num)
    norm_num
  exact absurd this (not_le.2 h1)

/-- On the 60th parallel the plane doubles the distances. -/
example : arcLength ⟨0, 60000000⟩ ⟨90000000, 60000000⟩ ≤ Real.pi / 2 := by
  have h := C86_plane ⟨0, 60000000⟩ ⟨90000000, 60000000⟩
  have e : planeDist ⟨0, 60000000⟩ ⟨90000000, 60000000⟩ 0 = 90 := by
    unfold planeDist
    rw [div_eq_iff (by norm_num), Real.sqrt_eq_iff_mul_self_eq_of_pos (by norm_num)]
    norm_num
  rw [e] at h
  linarith

end Capi
