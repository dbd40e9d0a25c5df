import Verif.Lemmas.AngleTie

/-!
# C11 — angular sweep order
-/

namespace Capi

open AngleSorter

/-- C11: the comparison lambda decides the sweep order: the observer first, then by the real
counter-clockwise angle from east, nearer first on the same ray (the rounded distance comparison
is exact there).  The sweep order is a strict total order. -/
theorem C11_comparison (obs : Coord) (ho : obs.Per) :
    (∀ a b : Coord, a.Per → b.Per → a ≠ b → (less obs a b = true ↔ SweepBefore obs a b)) ∧
    (∀ a, ¬ SweepBefore obs a a) ∧
    (∀ a b c, SweepBefore obs a b → SweepBefore obs b c → SweepBefore obs a c) ∧
    (∀ a b, a ≠ b → SweepBefore obs a b ∨ SweepBefore obs b a) :=
  ⟨fun _ _ ha hb hab => less_iff ho ha hb hab, sweep_irrefl obs, fun _ _ _ => sweep_trans,
    fun _ _ => sweep_total⟩

example : less ⟨0, 0⟩ ⟨5, 5⟩ ⟨-3, 0⟩ = true ∧ SweepBefore ⟨0, 0⟩ ⟨5, 5⟩ ⟨-3, 0⟩ := by
  have h : less ⟨0, 0⟩ ⟨5, 5⟩ ⟨-3, 0⟩ = true := by decide +kernel
  exact ⟨h, ((C11_comparison ⟨0, 0⟩ (by decide)).1 _ _ (by decide) (by decide) (by decide)).1 h⟩

/-- C11: sorting gives a permutation in sweep order; every sorted permutation is the same list,
so the result does not depend on the sorting algorithm. -/
theorem C11_unique (obs : Coord) (vs : List Coord) (ho : obs.Per) (hp : ∀ v ∈ vs, v.Per)
    (hn : vs.Nodup) :
    (sort obs vs).Perm vs ∧ (sort obs vs).Pairwise (SweepBefore obs) ∧
    ∀ l : List Coord, l.Perm vs → l.Pairwise (fun a b => less obs b a = false) →
      l = sort obs vs := by
  refine ⟨sort_perm obs vs, sort_sorted ho hp hn, fun l hl hs => ?_⟩
  have hln : l.Nodup := hl.nodup_iff.2 hn
  have hs' : l.Pairwise (SweepBefore obs) := by
    refine List.Pairwise.imp_of_mem ?_ (hs.and hln)
    rintro a b ha hb ⟨h1, h2⟩
    rcases sweep_total (obs := obs) h2 with h | h
    · exact h
    · have := (less_iff ho (hp b (hl.subset hb)) (hp a (hl.subset ha)) h2.symm).2 h
      rw [h1] at this; exact absurd this (by simp)
  exact (hl.trans (sort_perm obs vs).symm).eq_of_pairwise
    (fun a b _ _ h1 h2 => absurd (sweep_trans h1 h2) (sweep_irrefl obs a)) hs'
    (sort_sorted ho hp hn)

example (l : List Coord) (hl : l.Perm [⟨5, -5⟩, ⟨2, 2⟩, ⟨-3, 0⟩])
    (h : l.Pairwise fun a b => less ⟨0, 0⟩ b a = false) : l = [⟨2, 2⟩, ⟨-3, 0⟩, ⟨5, -5⟩] := by
  rw [(C11_unique ⟨0, 0⟩ [⟨5, -5⟩, ⟨2, 2⟩, ⟨-3, 0⟩] (by decide) (by decide) (by decide)).2.2 l hl h]
  decide +kernel

/-- C11: the result does not depend on the input order. -/
theorem C11_order_independent (obs : Coord) (vs ws : List Coord) (ho : obs.Per)
    (hp : ∀ v ∈ vs, v.Per) (hn : vs.Nodup) (h : ws.Perm vs) : sort obs ws = sort obs vs := by
  have hws : ∀ v ∈ ws, v.Per := fun v hv => hp v (h.subset hv)
  refine ((sort_perm obs ws).trans (h.trans (sort_perm obs vs).symm)).eq_of_pairwise
    (fun a b _ _ h1 h2 => absurd (sweep_trans h1 h2) (sweep_irrefl obs a))
    (sort_sorted ho hws (h.nodup_iff.2 hn)) (sort_sorted ho hp hn)

example : sort ⟨1, 1⟩ [⟨2, 2⟩, ⟨5, -5⟩] = sort ⟨1, 1⟩ [⟨5, -5⟩, ⟨2, 2⟩] :=
  C11_order_independent _ _ _ (by decide) (by decide) (by decide) (List.Perm.swap _ _ _)

/-- The observer, if present, comes first. -/
theorem C11_observer_first (obs : Coord) (vs : List Coord) (ho : obs.Per) (hp : ∀ v ∈ vs, v.Per)
    (hn : vs.Nodup) (hm : obs ∈ vs) : (sort obs vs).head? = some obs := by
  have hs := sort_sorted ho hp hn
  have hm' : obs ∈ sort obs vs := (sort_perm obs vs).symm.subset hm
  cases hl : sort obs vs with
  | nil => rw [hl] at hm'; simp at hm'
  | cons a r =>
    rw [hl] at hs hm'
    rcases List.mem_cons.1 hm' with h | h
    · simp [h]
    · have := (List.pairwise_cons.1 hs).1 obs h
      rcases this with ⟨_, h'⟩ | ⟨_, h', _⟩ <;> exact absurd rfl h'

example : (sort ⟨2, 2⟩ [⟨5, -5⟩, ⟨2, 2⟩, ⟨-3, 0⟩]).head? = some ⟨2, 2⟩ :=
  C11_observer_first _ _ (by decide) (by decide) (by decide) (by decide)

/-- C11 (partial: exactness of `std::atan2` is outside the model).  Take any angle function
`at2` within `η` of the real angle.  Comparing with it agrees with the exact comparison for
vectors whose lengths and cross product satisfy `2·η·|u|·|v| < |u × v|`, and for vectors more
than a right angle apart. -/
theorem C11_atan2_partial (at2 : Coord → ℝ) (η : ℝ) (hη : ∀ v, |at2 v - ccwAngle v| ≤ η)
    (hη1 : η < 1 / 2) (u v : Coord) (hu : u ≠ ⟨0, 0⟩) (hv : v ≠ ⟨0, 0⟩)
    (h : 2 * η * (u.len * v.len) < |((u.cross v : ℤ) : ℝ)| ∨ u.dot v < 0) :
    at2 u < at2 v ↔ angleLt u v = true := by
  rw [angleLt_iff hu hv]
  have pu := len_pos hu
  have pv := len_pos hv
  have e1 := abs_le.1 (hη u)
  have e2 := abs_le.1 (hη v)
  have hgap : 2 * η < |ccwAngle v - ccwAngle u| := by
    rcases h with h | hd
    · rw [cross_sin, abs_mul, abs_of_pos (mul_pos pu pv)] at h
      have hsin : |Real.sin (ccwAngle v - ccwAngle u)| ≤ |ccwAngle v - ccwAngle u| :=
        abs_sin_le _
      have := mul_le_mul_of_nonneg_left hsin (mul_pos pu pv).le
      have h3 : 2 * η * (u.len * v.len) < |ccwAngle v - ccwAngle u| * (u.len * v.len) := by
        linarith
      exact lt_of_mul_lt_mul_right h3 (mul_pos pu pv).le
    · have hd' : ((u.dot v : ℤ) : ℝ) < 0 := by exact_mod_cast hd
      rw [dot_cos] at hd'
      have hcos : Real.cos (ccwAngle v - ccwAngle u) < 0 := by
        by_contra hcc
        push Not at hcc
        have := mul_nonneg (mul_pos pu pv).le hcc
        linarith
      by_contra hle
      push Not at hle
      have h2 := abs_le.1 (hle.trans (show 2 * η ≤ 1 by linarith))
      have hpi := Real.two_le_pi
      have := Real.cos_nonneg_of_neg_pi_div_two_le_of_le (x := ccwAngle v - ccwAngle u)
        (by linarith [h2.1]) (by linarith [h2.2])
      linarith
  constructor
  · intro hlt
    by_contra hc
    push Not at hc
    rw [abs_of_nonpos (by linarith)] at hgap
    linarith
  · intro hlt
    rw [abs_of_pos (by linarith)] at hgap
    linarith

example : ccwAngle ⟨1, 1⟩ < ccwAngle ⟨-5, 1⟩ ↔ angleLt ⟨1, 1⟩ ⟨-5, 1⟩ = true :=
  C11_atan2_partial ccwAngle 0 (by simp) (by norm_num) _ _ (by decide) (by decide)
    (Or.inr (by decide))

/-- With an `atan2` accurate to `2⁻⁴⁹` the comparison is exact for all vectors up to
16.7 degrees long, whatever their directions (parallel vectors are not compared by angle). -/
theorem C11_short_vectors (at2 : Coord → ℝ) (hη : ∀ v, |at2 v - ccwAngle v| ≤ 1 / 2 ^ 49)
    (u v : Coord) (hu : u ≠ ⟨0, 0⟩) (hv : v ≠ ⟨0, 0⟩)
    (h : u.cross v ≠ 0 ∨ u.dot v < 0)
    (lu : u.lon * u.lon + u.lat * u.lat < 2 ^ 48) (lv : v.lon * v.lon + v.lat * v.lat < 2 ^ 48) :
    at2 u < at2 v ↔ angleLt u v = true := by
  refine C11_atan2_partial at2 _ hη (by norm_num) u v hu hv ?_
  by_cases hc : u.cross v = 0
  · right
    rcases h with h | h
    · exact absurd hc h
    · exact h
  · left
    have h1 : (1 : ℝ) ≤ |((u.cross v : ℤ) : ℝ)| := by
      have : 1 ≤ |u.cross v| := Int.one_le_abs hc
      exact_mod_cast this
    have b : ∀ w : Coord, w.lon * w.lon + w.lat * w.lat < 2 ^ 48 → w.len < 2 ^ 24 := by
      intro w hw
      have e := len_sq w
      have hwr : ((w.lon * w.lon + w.lat * w.lat : ℤ) : ℝ) < 2 ^ 48 := by exact_mod_cast hw
      rw [← e] at hwr
      by_contra hge
      push Not at hge
      have : ((2 : ℝ) ^ 24) ^ 2 ≤ w.len ^ 2 := by gcongr
      norm_num at this hwr
      linarith
    have : u.len * v.len < 2 ^ 24 * 2 ^ 24 :=
      mul_lt_mul'' (b u lu) (b v lv) (len_pos hu).le (len_pos hv).le
    have h3 : 2 * (1 / 2 ^ 49) * (u.len * v.len) < 2 * (1 / 2 ^ 49) * ((2 : ℝ) ^ 24 * 2 ^ 24) := by
      gcongr
    norm_num at h3 ⊢
    linarith

example : ccwAngle ⟨1000, 1⟩ < ccwAngle ⟨1001, 2⟩ ↔ angleLt ⟨1000, 1⟩ ⟨1001, 2⟩ = true :=
  C11_short_vectors ccwAngle (by simp) _ _ (by decide) (by decide) (Or.inl (by decide))
    (by decide) (by decide)

/-- C11: with doubles the sweep order is lost for long vectors, however good `atan2` is.  Take
any angle function that returns doubles within `2⁻⁴⁹` of the real angle: there are two points of the map, in different directions from the observer, that the comparison
cannot tell apart.  Both orders then count as sorted. -/
theorem C11_tie_false (at2 : Coord → ℚ) (hd : ∀ v, fl (at2 v) = at2 v)
    (hη : ∀ v, |(at2 v : ℝ) - ccwAngle v| ≤ 1 / 2 ^ 49) :
    ∃ obs a b : Coord, obs.Geo ∧ a.Geo ∧ b.Geo ∧
      (offset obs a).cross (offset obs b) ≠ 0 ∧ SweepBefore obs a b ∧
      lessWith (fun u v => decide (at2 u < at2 v)) obs a b = false ∧
      lessWith (fun u v => decide (at2 u < at2 v)) obs b a = false := by
  obtain ⟨b, c, hb, hbc, hc, he⟩ := steep_tie at2 hd hη
  have h1 : 0 < (steep c).cross (steep b) := by
    have : (steep c).cross (steep b) = 4 * (c - b) := by unfold steep Coord.cross; ring
    omega
  have h2 : (steep b).cross (steep c) ≠ 0 := by
    have : (steep b).cross (steep c) = -(steep c).cross (steep b) := by unfold Coord.cross; ring
    omega
  have ho : ∀ d, offset ⟨0, 90000000⟩ (Coord.add ⟨0, 90000000⟩ (steep d)) = steep d := fun d =>
    Coord.ext' (by simp [offset, Coord.add]) (by simp [offset, Coord.add])
  have hn : ∀ d, Coord.add ⟨0, 90000000⟩ (steep d) ≠ ⟨0, 90000000⟩ := by
    intro d h
    have := congrArg Coord.lon h
    simp [steep, Coord.add] at this
  refine ⟨⟨0, 90000000⟩, Coord.add ⟨0, 90000000⟩ (steep c), Coord.add ⟨0, 90000000⟩ (steep b),
    by decide, ?_, ?_, ?_, Or.inr ⟨hn c, hn b, Or.inl ?_⟩, ?_, ?_⟩
  · unfold Coord.Geo steep Coord.add; simp only; omega
  · unfold Coord.Geo steep Coord.add; simp only; omega
  · rw [ho, ho]; exact h1.ne'
  · rw [ho, ho, ← angleLt_iff (steep_ne c) (steep_ne b)]
    have l : ∀ d, 0 < d → lowerHalf (steep d) = true := by
      intro d hd; unfold lowerHalf steep; simp; omega
    unfold angleLt
    rw [l c (by omega), l b (by omega), if_pos rfl]
    exact decide_eq_true h1
  · rw [lessWith_angle _ h1.ne', he]; simp
  · rw [lessWith_angle _ h2, he]; simp

/-- C11: nor is the comparison a strict weak order, which `std::sort` requires.  If moreover
doubling a vector does not change its computed angle, there are three points `a`, `b`, `c` of the
map with `a` before `c`, while `b` is equivalent to both. -/
theorem C11_weak_order_false (at2 : Coord → ℚ) (hd : ∀ v, fl (at2 v) = at2 v)
    (hη : ∀ v, |(at2 v : ℝ) - ccwAngle v| ≤ 1 / 2 ^ 49)
    (h2 : ∀ v : Coord, at2 ⟨2 * v.lon, 2 * v.lat⟩ = at2 v) :
    ∃ obs a b c : Coord, obs.Geo ∧ a.Geo ∧ b.Geo ∧ c.Geo ∧
      let less := lessWith (fun u v => decide (at2 u < at2 v)) obs
      less a c = true ∧ less a b = false ∧ less b a = false ∧ less b c = false ∧
        less c b = false := by
  obtain ⟨b, c, hb, hbc, hc, he⟩ := steep_tie at2 hd hη
  have hhalf : at2 ⟨1, -b⟩ = at2 (steep b) := by
    rw [← h2 ⟨1, -b⟩]; unfold steep; congr 2; ring
  have hsd : SD ⟨1, -b⟩ (steep b) := by
    refine ⟨by unfold steep Coord.cross; ring, ?_⟩
    have := mul_self_nonneg b
    have e : Coord.dot ⟨1, -b⟩ (steep b) = 2 + 2 * (b * b) := by unfold steep Coord.dot; ring
    omega
  have hmag : Coord.magSqDeg ⟨1, -b⟩ < (steep b).magSqDeg := by
    refine magSqDeg_lt (by unfold FitsI32; simp only; omega) hsd ?_
    unfold steep
    nlinarith
  refine ⟨⟨0, 90000000⟩, Coord.add ⟨0, 90000000⟩ ⟨1, -b⟩, Coord.add ⟨0, 90000000⟩ (steep c),
    Coord.add ⟨0, 90000000⟩ (steep b), by decide, ?_, ?_, ?_, ?_, ?_, ?_, ?_, ?_⟩
  · unfold Coord.Geo Coord.add; simp only; omega
  · unfold Coord.Geo steep Coord.add; simp only; omega
  · unfold Coord.Geo steep Coord.add; simp only; omega
  · rw [lessWith_dist _ hsd]; exact decide_eq_true hmag
  · rw [lessWith_angle, hhalf, he]
    · simp
    · unfold steep Coord.cross; simp only; omega
  · rw [lessWith_angle, hhalf, he]
    · simp
    · unfold steep Coord.cross; simp only; omega
  · rw [lessWith_angle, he]
    · simp
    · unfold steep Coord.cross; simp only; omega
  · rw [lessWith_angle, he]
    · simp
    · unfold steep Coord.cross; simp only; omega

/-- Non-vacuity of the assumptions about `atan2`: the real angle rounded down to a multiple of
`2⁻⁵⁰` meets them. -/
example : ∃ at2 : Coord → ℚ, (∀ v, fl (at2 v) = at2 v) ∧
    (∀ v, |(at2 v : ℝ) - ccwAngle v| ≤ 1 / 2 ^ 49) ∧
    ∀ v : Coord, at2 ⟨2 * v.lon, 2 * v.lat⟩ = at2 v :=
  ⟨floorAngle, floorAngle_double,
    fun v => (floorAngle_near v).trans (by norm_num), floorAngle_twice⟩

/-- The comparison is not irreflexive at the observer, so a vertex list must not contain the
observer twice (the precondition of `std::sort`). -/
theorem C11_observer_twice_false : less ⟨0, 0⟩ ⟨0, 0⟩ ⟨0, 0⟩ = true := by decide +kernel

/-- Non-vacuity: a list with the observer, two points on one ray, and all half turns. -/
example : sort ⟨0, 0⟩ [⟨5, -5⟩, ⟨2, 2⟩, ⟨-3, 0⟩, ⟨0, 0⟩, ⟨1, 1⟩, ⟨4, 0⟩] =
    [⟨0, 0⟩, ⟨4, 0⟩, ⟨1, 1⟩, ⟨2, 2⟩, ⟨-3, 0⟩, ⟨5, -5⟩] := by decide +kernel

example : ∀ v ∈ [(⟨5, -5⟩ : Coord), ⟨2, 2⟩, ⟨-3, 0⟩, ⟨0, 0⟩, ⟨1, 1⟩, ⟨4, 0⟩], v.Per := by decide

end Capi
