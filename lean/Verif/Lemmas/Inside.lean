import Verif.Lemmas.Jordan

/-!
# The two sides of a closed line that does not meet itself
-/

namespace Capi

namespace Jordan

open Complex Filter Topology

variable {P : ℕ → ℂ} {n : ℕ}

/-- The line has places going round in one way on its left and in another way on its right, at all
edges and corners alike. -/
theorem Loop.constant (h : Loop P n) : ∃ c : ℝ,
    (∀ i, ∀ z ∈ openSegment ℝ (P i) (P (i + 1)), ∃ ε > 0, ∀ x, ‖x - z‖ < ε →
      (0 < turn (P i) (P (i + 1)) x → x ∉ curve P n ∧ total P n x = c) ∧
      (turn (P i) (P (i + 1)) x < 0 → x ∉ curve P n ∧ total P n x = c - 2 * Real.pi)) ∧
    ∀ i, ∃ ε > 0, ∀ x, ‖x - P (i + 1)‖ < ε →
      (Into (P i) (P (i + 1)) (P (i + 2)) x → x ∉ curve P n ∧ total P n x = c) ∧
      (Outof (P i) (P (i + 1)) (P (i + 2)) x → x ∉ curve P n ∧ total P n x = c - 2 * Real.pi) := by
  have hn : 0 < n := by have := h.size; omega
  have sides' : ∀ i, ∃ c : ℝ, ∀ z ∈ openSegment ℝ (P i) (P (i + 1)), ∃ ε > 0, ∀ x, ‖x - z‖ < ε →
      (0 < turn (P i) (P (i + 1)) x → x ∉ curve P n ∧ total P n x = c) ∧
      (turn (P i) (P (i + 1)) x < 0 → x ∉ curve P n ∧ total P n x = c - 2 * Real.pi) := by
    intro i
    obtain ⟨c, hc⟩ := h.sides (Nat.mod_lt i hn)
    rw [h.mod, h.mod_succ] at hc
    exact ⟨c, hc⟩
  choose c hc using sides'
  have corner : ∀ i, c i = c (i + 1) ∧ ∃ ε > 0, ∀ x, ‖x - P (i + 1)‖ < ε →
      (Into (P i) (P (i + 1)) (P (i + 2)) x → x ∉ curve P n ∧ total P n x = c i) ∧
      (Outof (P i) (P (i + 1)) (P (i + 2)) x → x ∉ curve P n ∧ total P n x = c i - 2 * Real.pi) := by
    intro i
    obtain ⟨ε, hε, hnear⟩ := h.near_corner i
    have hav := h.ne i
    have hvb := h.ne (i + 1)
    have hsp : ∀ t : ℝ, 0 < t → P (i + 2) - P (i + 1) ≠ t • (P i - P (i + 1)) :=
      fun t ht => h.no_spike i ht
    obtain ⟨hI, hO⟩ := angle_connected hav hvb hsp hε
    obtain ⟨hs1, hs2⟩ := angle_side hav hvb hsp
    have offI : ∀ x ∈ Metric.ball (P (i + 1)) ε ∩ {x | Into (P i) (P (i + 1)) (P (i + 2)) x},
        x ∉ curve P n := by
      intro x hx hcv
      have := hx.1
      rw [Metric.mem_ball, dist_eq_norm] at this
      exact (angle_off (hnear x this hcv)).1 hx.2
    have offO : ∀ x ∈ Metric.ball (P (i + 1)) ε ∩ {x | Outof (P i) (P (i + 1)) (P (i + 2)) x},
        x ∉ curve P n := by
      intro x hx hcv
      have := hx.1
      rw [Metric.mem_ball, dist_eq_norm] at this
      exact (angle_off (hnear x this hcv)).2 hx.2
    obtain ⟨z1, hz1, hd1⟩ := (near_ends (a := P i) (b := P (i + 1)) hε).2
    obtain ⟨z2, hz2, hd2⟩ := (near_ends (a := P (i + 1)) (b := P (i + 2)) hε).1
    -- places next to the edges, near the corner
    have pick : ∀ (j : ℕ) (z : ℂ), z ∈ openSegment ℝ (P j) (P (j + 1)) → ‖z - P (i + 1)‖ < ε →
        (∃ η > 0, ∀ x, ‖x - z‖ < η →
          (0 < turn (P j) (P (j + 1)) x → Into (P i) (P (i + 1)) (P (i + 2)) x) ∧
          (turn (P j) (P (j + 1)) x < 0 → Outof (P i) (P (i + 1)) (P (i + 2)) x)) →
        (∃ x ∈ Metric.ball (P (i + 1)) ε ∩ {x | Into (P i) (P (i + 1)) (P (i + 2)) x},
          total P n x = c j) ∧
        ∃ x ∈ Metric.ball (P (i + 1)) ε ∩ {x | Outof (P i) (P (i + 1)) (P (i + 2)) x},
          total P n x = c j - 2 * Real.pi := by
      rintro j z hz hd ⟨η, hη, hside⟩
      obtain ⟨θ, hθ, hval⟩ := hc j z hz
      have hU : Metric.ball z (min η θ) ∩ Metric.ball (P (i + 1)) ε ∈ 𝓝 z :=
        inter_mem (Metric.ball_mem_nhds z (lt_min hη hθ))
          (Metric.isOpen_ball.mem_nhds (by rw [Metric.mem_ball, dist_eq_norm]; exact hd))
      obtain ⟨⟨x, ⟨hx1, hx2⟩, hx3⟩, ⟨y, ⟨hy1, hy2⟩, hy3⟩⟩ := near_side (h.ne j)
        (on_edge_turn (openSegment_subset_segment ℝ _ _ hz)) hU
      rw [Metric.mem_ball, dist_eq_norm, lt_min_iff] at hx1 hy1
      exact ⟨⟨x, ⟨hx2, (hside x hx1.1).1 hx3⟩, ((hval x hx1.2).1 hx3).2⟩,
        ⟨y, ⟨hy2, (hside y hy1.1).2 hy3⟩, ((hval y hy1.2).2 hy3).2⟩⟩
    obtain ⟨⟨x1, hx1, e1⟩, ⟨y1, hy1, f1⟩⟩ := pick i z1 hz1 hd1 (hs1 z1 hz1)
    obtain ⟨⟨x2, hx2, e2⟩, -⟩ := pick (i + 1) z2 hz2 hd2 (hs2 z2 hz2)
    refine ⟨?_, ε, hε, fun x hx => ⟨fun hxi => ?_, fun hxo => ?_⟩⟩
    · rw [← e1, ← e2]
      exact total_const h.closed hn hI offI hx1 hx2
    · have hm : x ∈ Metric.ball (P (i + 1)) ε := by rw [Metric.mem_ball, dist_eq_norm]; exact hx
      exact ⟨offI x ⟨hm, hxi⟩, by rw [← e1]; exact total_const h.closed hn hI offI ⟨hm, hxi⟩ hx1⟩
    · have hm : x ∈ Metric.ball (P (i + 1)) ε := by rw [Metric.mem_ball, dist_eq_norm]; exact hx
      exact ⟨offO x ⟨hm, hxo⟩, by rw [← f1]; exact total_const h.closed hn hO offO ⟨hm, hxo⟩ hy1⟩
  have all : ∀ i, c i = c 0 := by
    intro i
    induction i with
    | zero => rfl
    | succ i ih => rw [← (corner i).1, ih]
  refine ⟨c 0, fun i => ?_, fun i => ?_⟩
  · rw [← all i]; exact hc i
  · rw [← all i]; exact (corner i).2

/-- A place near a corner is in one of the angles or in the direction of an edge. -/
theorem corner_cases {a v b x : ℂ} (hav : a ≠ v) (hvb : v ≠ b)
    (hsp : ∀ c : ℝ, 0 < c → b - v ≠ c • (a - v)) (hx : x ≠ v) :
    Into a v b x ∨ Outof a v b x ∨ (∃ s : ℝ, 0 < s ∧ x - v = s • (a - v)) ∨
      ∃ s : ℝ, 0 < s ∧ x - v = s • (b - v) := by
  -- a place in line with the first edge
  have first : turn a v x = 0 → ∃ s : ℝ, s ≠ 0 ∧ x - v = s • (a - v) ∧
      turn v b x = s * turn a v b := by
    intro h0
    obtain ⟨t, ht⟩ := on_line hav h0
    have e : x - v = (1 - t) • (a - v) := by
      rw [ht]
      simp only [sub_smul, one_smul, smul_sub]
      abel
    refine ⟨1 - t, ?_, e, ?_⟩
    · intro h1
      rw [h1, zero_smul] at e
      exact hx (sub_eq_zero.1 e)
    · rw [ht, turn_comb2 _ _ _ _ (by ring), turn_first, turn_rot]
      ring
  have second : turn v b x = 0 → ∃ s : ℝ, s ≠ 0 ∧ x - v = s • (b - v) ∧
      turn a v x = s * turn a v b := by
    intro h0
    obtain ⟨t, ht⟩ := on_line hvb h0
    have e : x - v = t • (b - v) := by
      rw [ht]
      simp only [sub_smul, one_smul, smul_sub]
      abel
    refine ⟨t, ?_, e, ?_⟩
    · intro h1
      rw [h1, zero_smul] at e
      exact hx (sub_eq_zero.1 e)
    · rw [ht, turn_comb2 _ _ _ _ (by ring), turn_second]
      ring
  rcases lt_trichotomy (turn a v b) 0 with hn | h0 | hp
  · simp only [Into, Outof, hn.not_gt, if_false]
    by_cases h1 : 0 < turn a v x
    · exact Or.inl (Or.inl h1)
    by_cases h2 : 0 < turn v b x
    · exact Or.inl (Or.inr h2)
    by_cases h3 : turn a v x = 0
    · obtain ⟨s, hs, e, k⟩ := first h3
      refine Or.inr (Or.inr (Or.inl ⟨s, ?_, e⟩))
      rw [k] at h2
      by_contra hs'
      have : s < 0 := lt_of_le_of_ne (not_lt.1 hs') hs
      exact h2 (mul_pos_of_neg_of_neg this hn)
    by_cases h4 : turn v b x = 0
    · obtain ⟨s, hs, e, k⟩ := second h4
      refine Or.inr (Or.inr (Or.inr ⟨s, ?_, e⟩))
      rw [k] at h1
      by_contra hs'
      have : s < 0 := lt_of_le_of_ne (not_lt.1 hs') hs
      exact h1 (mul_pos_of_neg_of_neg this hn)
    · exact Or.inr (Or.inl ⟨lt_of_le_of_ne (not_lt.1 h1) h3, lt_of_le_of_ne (not_lt.1 h2) h4⟩)
  · simp only [Into, Outof, h0, lt_irrefl, if_false]
    obtain ⟨c, hc, ec, hs⟩ := straight hav hvb hsp h0
    rcases lt_trichotomy (turn a v x) 0 with h1 | h1 | h1
    · exact Or.inr (Or.inl ⟨h1, by rw [hs]; exact mul_neg_of_pos_of_neg hc h1⟩)
    · obtain ⟨s, hs, e, -⟩ := first h1
      rcases lt_or_gt_of_ne hs with hs | hs
      · refine Or.inr (Or.inr (Or.inr ⟨-s / c, by
          apply div_pos <;> linarith, ?_⟩))
        rw [e, ec, smul_smul, div_mul_cancel₀ _ hc.ne', neg_smul, ← smul_neg, neg_sub]
      · exact Or.inr (Or.inr (Or.inl ⟨s, hs, e⟩))
    · exact Or.inl (Or.inl h1)
  · simp only [Into, Outof, hp, if_true]
    by_cases h1 : turn a v x < 0
    · exact Or.inr (Or.inl (Or.inl h1))
    by_cases h2 : turn v b x < 0
    · exact Or.inr (Or.inl (Or.inr h2))
    by_cases h3 : turn a v x = 0
    · obtain ⟨s, hs, e, k⟩ := first h3
      refine Or.inr (Or.inr (Or.inl ⟨s, ?_, e⟩))
      rw [k] at h2
      by_contra hs'
      have : s < 0 := lt_of_le_of_ne (not_lt.1 hs') hs
      exact h2 (mul_neg_of_neg_of_pos this hp)
    by_cases h4 : turn v b x = 0
    · obtain ⟨s, hs, e, k⟩ := second h4
      refine Or.inr (Or.inr (Or.inr ⟨s, ?_, e⟩))
      rw [k] at h1
      by_contra hs'
      have : s < 0 := lt_of_le_of_ne (not_lt.1 hs') hs
      exact h1 (mul_neg_of_neg_of_pos this hp)
    · exact Or.inl ⟨lt_of_le_of_ne (not_lt.1 h1) (Ne.symm h3),
        lt_of_le_of_ne (not_lt.1 h2) (Ne.symm h4)⟩

/-- From any place off the line one gets next to the line without meeting it. -/
theorem Loop.approach (h : Loop P n) (εe : ℕ → ℂ → ℝ) (εv : ℕ → ℝ)
    (he : ∀ i z, z ∈ openSegment ℝ (P i) (P (i + 1)) → 0 < εe i z) (hv : ∀ i, 0 < εv i) {x : ℂ}
    (hx : x ∉ curve P n) : ∃ y, (∀ w ∈ segment ℝ x y, w ∉ curve P n) ∧
      ((∃ i z, z ∈ openSegment ℝ (P i) (P (i + 1)) ∧ ‖y - z‖ < εe i z ∧
          turn (P i) (P (i + 1)) y ≠ 0) ∨
        ∃ i, ‖y - P (i + 1)‖ < εv i ∧ (Into (P i) (P (i + 1)) (P (i + 2)) y ∨
          Outof (P i) (P (i + 1)) (P (i + 2)) y)) := by
  have hn : 0 < n := by have := h.size; omega
  obtain ⟨z, hz, hmin⟩ := (curve_compact (P := P) (n := n)).exists_infDist_eq_dist
    ⟨P 0, 0, hn, left_mem_segment ℝ _ _⟩ x
  have hzx : z ≠ x := fun e => hx (e ▸ hz)
  -- what lies between is off the line
  have hoff : ∀ t : ℝ, 0 < t → t ≤ 1 → (1 - t) • z + t • x ∉ curve P n := by
    intro t ht ht1 hc
    have h1 := Metric.infDist_le_dist_of_mem (x := x) hc
    rw [hmin, dist_eq_norm, dist_eq_norm] at h1
    have e : x - ((1 - t) • z + t • x) = (1 - t) • (x - z) := by
      simp only [sub_smul, one_smul, smul_sub]
      abel
    rw [e, norm_smul, Real.norm_of_nonneg (by linarith)] at h1
    have h2 : 0 < ‖x - z‖ := norm_pos_iff.2 (sub_ne_zero.2 hzx.symm)
    nlinarith
  have hseg : ∀ t : ℝ, 0 < t → t ≤ 1 → ∀ w ∈ segment ℝ x ((1 - t) • z + t • x), w ∉ curve P n := by
    rintro t ht ht1 w ⟨u, s, hu, hs, hus, rfl⟩
    have e : u • x + s • ((1 - t) • z + t • x) = (1 - (u + s * t)) • z + (u + s * t) • x := by
      have : 1 - (u + s * t) = s * (1 - t) := by linear_combination -hus
      rw [this]
      simp only [add_smul, smul_add, mul_smul]
      abel
    rw [e]
    refine hoff _ ?_ ?_
    · rcases hu.lt_or_eq with hu | rfl
      · have := mul_nonneg hs ht.le
        linarith
      · obtain rfl : s = 1 := by linarith
        linarith
    · nlinarith
  obtain ⟨i, hi, hzi⟩ := hz
  by_cases hopen : z ∈ openSegment ℝ (P i) (P (i + 1))
  · obtain ⟨t, ht, ht1, hd⟩ := near_point z x (he i z hopen)
    refine ⟨_, hseg t ht (by linarith), Or.inl ⟨i, z, hopen, hd, ?_⟩⟩
    intro h0
    -- otherwise a place of the edge still nearer
    have hzt := on_edge_turn hzi
    rw [turn_comb2 _ _ _ _ (by ring), hzt] at h0
    have hxt : turn (P i) (P (i + 1)) x = 0 := by
      have : t * turn (P i) (P (i + 1)) x = 0 := by linarith
      exact (mul_eq_zero.1 this).resolve_left ht.ne'
    obtain ⟨r, hr⟩ := on_line (h.ne i) hxt
    obtain ⟨u, s, hu, hs, hus, hz'⟩ := hopen
    obtain rfl : u = 1 - s := by linarith
    have hd : 0 < 1 + |r - s| := by positivity
    set k := min s (1 - s) / (1 + |r - s|) with hk
    have hk0 : 0 < k := div_pos (lt_min hs hu) hd
    have hk1 : k * |r - s| ≤ min s (1 - s) := by
      rw [hk, div_mul_eq_mul_div, div_le_iff₀ hd]
      have : 0 < min s (1 - s) := lt_min hs hu
      nlinarith [abs_nonneg (r - s)]
    have hk2 : k ≤ 1 := by
      rw [hk, div_le_one hd]
      have h1 : min s (1 - s) ≤ s := min_le_left _ _
      have := abs_nonneg (r - s)
      linarith
    refine hoff k hk0 hk2 (h.on_curve i ?_)
    have e : (1 - k) • z + k • x = (1 - (s + k * (r - s))) • P i + (s + k * (r - s)) • P (i + 1) := by
      rw [← hz', hr]
      simp only [smul_add, smul_smul]
      module
    rw [e]
    have hb := abs_le.1 (le_refl |k * (r - s)|)
    rw [abs_mul, abs_of_pos hk0] at hb
    have m1 : min s (1 - s) ≤ s := min_le_left _ _
    have m2 : min s (1 - s) ≤ 1 - s := min_le_right _ _
    exact ⟨1 - (s + k * (r - s)), s + k * (r - s), by linarith, by linarith, by ring, rfl⟩
  · -- a corner
    have hcor : ∃ j, z = P (j + 1) := by
      have hzi' : z ∈ segment ℝ (P i) (P (i + 1)) := hzi
      rw [← insert_endpoints_openSegment] at hzi'
      rcases hzi' with e | e | e
      · refine ⟨i + n - 1, ?_⟩
        rw [show i + n - 1 + 1 = i + n by omega, h.period]
        exact e
      · exact ⟨i, e⟩
      · exact absurd e hopen
    obtain ⟨j, rfl⟩ := hcor
    obtain ⟨t, ht, ht1, hd⟩ := near_point (P (j + 1)) x (hv j)
    refine ⟨_, hseg t ht (by linarith), Or.inr ⟨j, hd, ?_⟩⟩
    set y := (1 - t) • P (j + 1) + t • x with hy
    have hyx : y - P (j + 1) = t • (x - P (j + 1)) := by
      rw [hy]
      simp only [sub_smul, one_smul, smul_sub]
      abel
    have hyne : y ≠ P (j + 1) := by
      intro e
      rw [e, sub_self] at hyx
      have := (smul_eq_zero.1 hyx.symm).resolve_left ht.ne'
      exact hzx (sub_eq_zero.1 this).symm
    -- a place in the direction of an edge is on the edge if it is near
    have along : ∀ (k : ℕ) (b : ℂ), edge P k = segment ℝ (P (j + 1)) b →
        ¬ ∃ s : ℝ, 0 < s ∧ y - P (j + 1) = s • (b - P (j + 1)) := by
      rintro k b hk ⟨s, hs, e⟩
      have hm : 0 < min t (t / s) := lt_min ht (by positivity)
      set m := min t (t / s) with hmd
      have m1 : m ≤ t := min_le_left _ _
      have m2 : m / t * s ≤ 1 := by
        have : m ≤ t / s := min_le_right _ _
        rw [le_div_iff₀ hs] at this
        rw [div_mul_eq_mul_div, div_le_one ht]
        exact this
      refine hoff m hm (by linarith) (h.on_curve k ?_)
      rw [hk]
      have e2 : (1 - m) • P (j + 1) + m • x = (1 - m / t * s) • P (j + 1) + (m / t * s) • b := by
        have e3 : x - P (j + 1) = (1 / t) • (s • (b - P (j + 1))) := by
          rw [← e, hyx, smul_smul, one_div_mul_cancel ht.ne', one_smul]
        have e4 : x = P (j + 1) + (1 / t) • (s • (b - P (j + 1))) := by rw [← e3]; abel
        rw [e4]
        have : m / t * s = m * (1 / t * s) := by ring
        rw [this]
        module
      rw [e2]
      exact ⟨_, _, by linarith, by positivity, by ring, rfl⟩
    have hsp : ∀ c : ℝ, 0 < c → P (j + 2) - P (j + 1) ≠ c • (P j - P (j + 1)) :=
      fun c hc => h.no_spike j hc
    rcases corner_cases (h.ne j) (h.ne (j + 1)) hsp hyne with k | k | k | k
    · exact Or.inl k
    · exact Or.inr k
    · exact absurd k (along j (P j) (segment_symm ℝ _ _))
    · exact absurd k (along (j + 1) (P (j + 2)) rfl)

end Jordan

end Capi
