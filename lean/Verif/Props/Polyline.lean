import Verif.Lemmas.Polyline

/-!
# C16: the observer's own corner
-/

namespace Capi

open Polyline

/-- **C16** At a corner whose turn exceeds the rounding error of `is_reflex`, a point strictly
inside the interior angle is not visible and a point strictly outside is not blocked.
Missing for the full statement: corners with a tiny determinant, for which it is false
(`C16_thin_corner_false`). -/
theorem C16_corner_partial (v1 v2 v3 c : Coord) (h : CornerResolved v1 v2 v3) :
    (InsideCorner v1 v2 v3 c → visible v1 v2 v3 c = false) ∧
    (OutsideCorner v1 v2 v3 c → visible v1 v2 v3 c = true) := by
  have hr := isReflex_iff h
  unfold visible visibleWith
  obtain ⟨a1, a2, a3⟩ := orient_cases (v1.sub v2) (c.sub v2)
  obtain ⟨b1, b2, b3⟩ := orient_cases (v3.sub v2) (c.sub v2)
  constructor
  · rintro (⟨hA, x, y, hx, hy, e1, e2⟩ | ⟨hA, hn⟩)
    · have hAq : (0 : ℚ) < area2 v1 v2 v3 := by exact_mod_cast hA
      have hnr : isReflex v1 v2 v3 = false := by
        rw [← Bool.not_eq_true, hr]; omega
      obtain ⟨f1, f2⟩ := cone_coords e1 e2
      have ho1 := a1.2 (by rw [f2]; have := mul_pos hy hAq; linarith)
      have ho2 := b2.2 (by rw [f1]; exact mul_pos hx hAq)
      simp [hnr, ho1, ho2]
    · have hAq : (area2 v1 v2 v3 : ℚ) < 0 := by exact_mod_cast hA
      obtain ⟨x, y, e1, e2⟩ := cone_exists c (ne_of_lt hA)
      obtain ⟨f1, f2⟩ := cone_coords e1 e2
      have hxy : x < 0 ∨ y < 0 := by
        by_contra hc
        push Not at hc
        exact hn ⟨x, y, hc.1, hc.2, e1, e2⟩
      rw [hr.2 hA]
      rcases hxy with hx | hy
      · have : 0 < x * (area2 v1 v2 v3 : ℚ) := mul_pos_of_neg_of_neg hx hAq
        have ho2 := b2.2 (by rw [f1]; exact this)
        simp [ho2]
      · have : 0 < y * (area2 v1 v2 v3 : ℚ) := mul_pos_of_neg_of_neg hy hAq
        have ho1 := a1.2 (by rw [f2]; linarith)
        simp [ho1]
  · rintro (⟨hA, hn⟩ | ⟨hA, x, y, hx, hy, e1, e2⟩)
    · have hAq : (0 : ℚ) < area2 v1 v2 v3 := by exact_mod_cast hA
      have hnr : isReflex v1 v2 v3 = false := by
        rw [← Bool.not_eq_true, hr]; omega
      obtain ⟨x, y, e1, e2⟩ := cone_exists c (ne_of_gt hA)
      obtain ⟨f1, f2⟩ := cone_coords e1 e2
      have hxy : x < 0 ∨ y < 0 := by
        by_contra hc
        push Not at hc
        exact hn ⟨x, y, hc.1, hc.2, e1, e2⟩
      rw [hnr]
      rcases hxy with hx | hy
      · have : x * (area2 v1 v2 v3 : ℚ) < 0 := mul_neg_of_neg_of_pos hx hAq
        have ho2 := b1.2 (by rw [f1]; exact this)
        simp [ho2]
      · have : y * (area2 v1 v2 v3 : ℚ) < 0 := mul_neg_of_neg_of_pos hy hAq
        have ho1 := a2.2 (by rw [f2]; linarith)
        simp [ho1]
    · have hAq : (area2 v1 v2 v3 : ℚ) < 0 := by exact_mod_cast hA
      obtain ⟨f1, f2⟩ := cone_coords e1 e2
      have ho1 := a2.2 (by rw [f2]; have := mul_neg_of_pos_of_neg hy hAq; linarith)
      have ho2 := b1.2 (by rw [f1]; exact mul_neg_of_pos_of_neg hx hAq)
      simp [hr.2 hA, ho1, ho2]

example : CornerResolved ⟨0, 0⟩ ⟨10, 0⟩ ⟨10, 10⟩ := by decide
example : InsideCorner ⟨0, 0⟩ ⟨10, 0⟩ ⟨10, 10⟩ ⟨5, 5⟩ :=
  Or.inl ⟨by decide, 1 / 2, 1 / 2, by norm_num, by norm_num, by norm_num, by norm_num⟩

/-- **C16** Every corner with edges of at most 22 degrees, and every corner whose determinant
is at least 300 square microdegrees, is covered by `C16_corner_partial`. -/
theorem C16_coverage (v1 v2 v3 : Coord) :
    (|v2.lon - v1.lon| ≤ 22000000 → |v2.lat - v1.lat| ≤ 22000000 →
      |v3.lon - v2.lon| ≤ 22000000 → |v3.lat - v2.lat| ≤ 22000000 →
      area2 v1 v2 v3 ≠ 0 → CornerResolved v1 v2 v3) ∧
    (v1.Per → v2.Per → v3.Per → 300 ≤ |area2 v1 v2 v3| → CornerResolved v1 v2 v3) := by
  unfold CornerResolved
  constructor
  · intro h1 h2 h3 h4 hA
    have e1 := abs_mul_le h1 h4
    have e2 := abs_mul_le h2 h3
    have e3 : 1 ≤ |area2 v1 v2 v3| := Int.one_le_abs hA
    omega
  · intro h1 h2 h3 hA
    unfold Coord.Per at h1 h2 h3
    have e1 : |(v2.lon - v1.lon) * (v3.lat - v2.lat)| ≤ 1080000002 * 180000000 :=
      abs_mul_le (by rw [abs_le]; omega) (by rw [abs_le]; omega)
    have e2 : |(v2.lat - v1.lat) * (v3.lon - v2.lon)| ≤ 180000000 * 1080000002 :=
      abs_mul_le (by rw [abs_le]; omega) (by rw [abs_le]; omega)
    omega

/-- **C16** On the boundary of the interior angle, a point is visible along an edge up to its
end (with a relative tolerance of about two millionths) and blocked beyond. -/
theorem C16_along_edges (v1 v2 v3 c : Coord) (h : CornerResolved v1 v2 v3) (k : ℚ) (hk : 0 < k)
    (hon : OnRay v2 v1 c k ∨ OnRay v2 v3 c k) :
    (k ≤ 1 + 1 / 1000000 → visible v1 v2 v3 c = true) ∧
    (1 + 3 / 1000000 ≤ k → visible v1 v2 v3 c = false) := by
  have hr := isReflex_iff h
  have hA0 : area2 v1 v2 v3 ≠ 0 := by
    intro h0
    unfold CornerResolved at h
    rw [h0] at h
    have := abs_nonneg ((v2.lon - v1.lon) * (v3.lat - v2.lat))
    have := abs_nonneg ((v2.lat - v1.lat) * (v3.lon - v2.lon))
    simp only [abs_zero, mul_zero] at h
    omega
  have hbet : (k ≤ 1 + 1 / 1000000 → between (fl k) = true) ∧
      (1 + 3 / 1000000 ≤ k → between (fl k) = false) := by
    unfold between
    constructor
    · intro hk1
      rw [Bool.and_eq_true, decide_eq_true_eq, decide_eq_true_eq]
      constructor
      · have h1 : fl (-eps - eps) ≤ 0 := by decide +kernel
        have := fl_pos hk
        linarith
      · refine fl_mono (hk1.trans ?_)
        decide +kernel
    · intro hk1
      rw [Bool.and_eq_false_iff]
      right
      rw [decide_eq_false_iff_not, not_le]
      have h1 : fl (fl (1 + eps) + eps) < fl (1 + 3 / 1000000) := by decide +kernel
      exact lt_of_lt_of_le h1 (fl_mono hk1)
  -- the factor read by the code is `fl k`
  have hfac : ∀ a : Coord, a ≠ v2 → OnRay v2 a c k →
      (a.sub v2).scalarMultiple (c.sub v2) = some (fl k) := by
    intro a ha ⟨e1, e2⟩
    have hn : a.sub v2 ≠ ⟨0, 0⟩ := fun h => ha (sub_eq_zero_iff.1 h)
    have hp : (a.sub v2).parallel (c.sub v2) = true := by
      rw [parallel_iff, cross_eq_zero_iff hn]
      refine ⟨k, ?_, ?_⟩
      · rw [sub_lon, sub_lon]; push_cast; exact e1
      · rw [sub_lat, sub_lat]; push_cast; exact e2
    obtain ⟨k', f1, f2, f3⟩ := scalarMultiple_of_parallel hp hn
    rw [f3]
    have : k' = k := by
      rw [sub_lon, sub_lon] at f1
      rw [sub_lat, sub_lat] at f2
      push_cast at f1 f2
      by_cases hx : (a.lon : ℚ) - v2.lon = 0
      · have hy : (a.lat : ℚ) - v2.lat ≠ 0 := by
          intro hy
          apply ha
          apply Coord.ext'
          · have : (a.lon : ℚ) = v2.lon := by linarith
            exact_mod_cast this
          · have : (a.lat : ℚ) = v2.lat := by linarith
            exact_mod_cast this
        exact mul_right_cancel₀ hy (f2.symm.trans e2)
      · exact mul_right_cancel₀ hx (f1.symm.trans e1)
    rw [this]
  have n1 : v1 ≠ v2 := by
    rintro rfl; apply hA0; unfold area2; ring
  have n3 : v3 ≠ v2 := by
    rintro rfl; apply hA0; unfold area2; ring
  unfold visible visibleWith
  obtain ⟨a1, a2, a3⟩ := orient_cases (v1.sub v2) (c.sub v2)
  obtain ⟨b1, b2, b3⟩ := orient_cases (v3.sub v2) (c.sub v2)
  rcases hon with hon | hon
  · obtain ⟨f1, f2⟩ := cone_coords (a := v1) (v := v2) (b := v3) (c := c) (x := k) (y := 0)
      (by rw [hon.1]; ring) (by rw [hon.2]; ring)
    have ho1 := a3.2 (by rw [f2]; ring)
    have hs := hfac v1 n1 hon
    rcases lt_or_gt_of_ne hA0 with hA | hA
    · have hAq : (area2 v1 v2 v3 : ℚ) < 0 := by exact_mod_cast hA
      have ho2 := b1.2 (by rw [f1]; exact mul_neg_of_pos_of_neg hk hAq)
      simp only [hr.2 hA, ho1, ho2, hs, betweenO]
      constructor
      · intro hh; simp [hbet.1 hh]
      · intro hh; simp [hbet.2 hh]
    · have hAq : (0 : ℚ) < area2 v1 v2 v3 := by exact_mod_cast hA
      have hnr : isReflex v1 v2 v3 = false := by
        rw [← Bool.not_eq_true, hr]; omega
      have ho2 := b2.2 (by rw [f1]; exact mul_pos hk hAq)
      simp only [hnr, ho1, ho2, hs, betweenO]
      constructor
      · intro hh; simp [hbet.1 hh]
      · intro hh; simp [hbet.2 hh]
  · obtain ⟨f1, f2⟩ := cone_coords (a := v1) (v := v2) (b := v3) (c := c) (x := 0) (y := k)
      (by rw [hon.1]; ring) (by rw [hon.2]; ring)
    have ho2 := b3.2 (by rw [f1]; ring)
    have hs := hfac v3 n3 hon
    rcases lt_or_gt_of_ne hA0 with hA | hA
    · have hAq : (area2 v1 v2 v3 : ℚ) < 0 := by exact_mod_cast hA
      have ho1 := a2.2 (by rw [f2]; have := mul_neg_of_pos_of_neg hk hAq; linarith)
      simp only [hr.2 hA, ho1, ho2, hs, betweenO]
      constructor
      · intro hh; simp [hbet.1 hh]
      · intro hh; simp [hbet.2 hh]
    · have hAq : (0 : ℚ) < area2 v1 v2 v3 := by exact_mod_cast hA
      have hnr : isReflex v1 v2 v3 = false := by
        rw [← Bool.not_eq_true, hr]; omega
      have ho1 := a1.2 (by rw [f2]; have := mul_pos hk hAq; linarith)
      simp only [hnr, ho1, ho2, hs, betweenO]
      constructor
      · intro hh; simp [hbet.1 hh]
      · intro hh; simp [hbet.2 hh]

example : OnRay ⟨10, 0⟩ ⟨0, 0⟩ ⟨5, 0⟩ (1 / 2) := ⟨by norm_num, by norm_num⟩

/-- **C16** (false for thin corners) `is_reflex` computes in doubles and takes a long, thin,
convex corner for a reflex one, so that a point far outside is reported as hidden. -/
theorem C16_thin_corner_false :
    ¬ ∀ v1 v2 v3 c : Coord, v1.Geo → v2.Geo → v3.Geo → c.Geo →
      OutsideCorner v1 v2 v3 c → visible v1 v2 v3 c = true := by
  intro h
  have hc : ¬ ClosedCone ⟨-180000000, -90000000⟩ ⟨-14158729, -17131424⟩ ⟨-134454106, -69987705⟩
      ⟨0, 0⟩ := by
    rintro ⟨x, y, hx, hy, e1, e2⟩
    norm_num at e1 e2
    linarith
  exact absurd (h ⟨-180000000, -90000000⟩ ⟨-14158729, -17131424⟩ ⟨-134454106, -69987705⟩ ⟨0, 0⟩
    (by decide) (by decide) (by decide) (by decide) (Or.inl ⟨by decide, hc⟩)) (by decide +kernel)

end Capi
