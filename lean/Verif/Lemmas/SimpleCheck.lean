import Verif.Lemmas.RingSum

/-!
# How to tell that a ring is simple, and what is inside
-/

namespace Capi

open Jordan Complex

/-- The side of a place along an edge is between the sides of its ends. -/
theorem turn_along (p q c d : ℂ) (t : ℝ) :
    turn p q (c + t • (d - c)) = (1 - t) * turn p q c + t * turn p q d := by
  unfold turn
  simp only [add_re, add_im, real_smul, re_ofReal_mul, im_ofReal_mul, sub_re, sub_im]
  ring

theorem side_sign {u v t : ℝ} (h : 0 < u * v) (t0 : 0 ≤ t) (t1 : t ≤ 1) : (1 - t) * u + t * v ≠ 0 := by
  rcases pos_and_pos_or_neg_and_neg_of_mul_pos h with ⟨hu, hv⟩ | ⟨hu, hv⟩
  · rcases t0.lt_or_eq with k | rfl
    · have := mul_pos k hv
      have := mul_nonneg (by linarith : 0 ≤ 1 - t) hu.le
      linarith
    · simpa using hu.ne'
  · rcases t0.lt_or_eq with k | rfl
    · have := mul_neg_of_pos_of_neg k hv
      have := mul_nonpos_of_nonneg_of_nonpos (by linarith : 0 ≤ 1 - t) hu.le
      linarith
    · simpa using hu.ne

theorem goesOn_apart {a b c d : Coord} (h : GoesOn a b c d) {s t : ℝ} (s1 : s < 1)
    (t0 : 0 ≤ t) : a.pt + s • (b.pt - a.pt) ≠ c.pt + t • (d.pt - c.pt) := by
  obtain ⟨rfl, h⟩ := h
  intro e
  have ere := congrArg re e
  have eim := congrArg im e
  simp only [Coord.pt, add_re, add_im, real_smul, re_ofReal_mul, im_ofReal_mul, sub_re, sub_im]
    at ere eim
  have hdot : (s - 1) * (((b.lon : ℝ) - a.lon) ^ 2 + ((b.lat : ℝ) - a.lat) ^ 2) =
      t * (((b.lon : ℝ) - a.lon) * (d.lon - b.lon) + ((b.lat : ℝ) - a.lat) * (d.lat - b.lat)) := by
    linear_combination ((b.lon : ℝ) - a.lon) * ere + ((b.lat : ℝ) - a.lat) * eim
  have hcr : t * ((area2 a b d : ℤ) : ℝ) = 0 := by
    unfold area2
    push_cast
    linear_combination -((b.lon : ℝ) - a.lon) * eim + ((b.lat : ℝ) - a.lat) * ere
  have hsq : a ≠ b → 0 < ((b.lon : ℝ) - a.lon) ^ 2 + ((b.lat : ℝ) - a.lat) ^ 2 := by
    intro hab
    by_contra hc
    have h1 : ((b.lon : ℝ) - a.lon) = 0 := by
      have := sq_nonneg ((b.lon : ℝ) - a.lon)
      have := sq_nonneg ((b.lat : ℝ) - a.lat)
      exact pow_eq_zero_iff (n := 2) (by norm_num) |>.1 (by linarith)
    have h2 : ((b.lat : ℝ) - a.lat) = 0 := by
      have := sq_nonneg ((b.lon : ℝ) - a.lon)
      have := sq_nonneg ((b.lat : ℝ) - a.lat)
      exact pow_eq_zero_iff (n := 2) (by norm_num) |>.1 (by linarith)
    apply hab
    apply Coord.ext'
    · have : (b.lon : ℝ) = a.lon := by linarith
      exact_mod_cast this.symm
    · have : (b.lat : ℝ) = a.lat := by linarith
      exact_mod_cast this.symm
  rcases h with h | h
  · have ht : t = 0 := by
      rcases mul_eq_zero.1 hcr with k | k
      · exact k
      · exact absurd (by exact_mod_cast k) h
    have hab : a ≠ b := by
      rintro rfl
      simp [area2] at h
    rw [ht, zero_mul] at hdot
    have := mul_neg_of_neg_of_pos (by linarith : s - 1 < 0) (hsq hab)
    linarith
  · have hab : a ≠ b := by
      rintro rfl
      simp at h
    have h' : (0 : ℝ) < ((b.lon : ℝ) - a.lon) * (d.lon - b.lon) +
        ((b.lat : ℝ) - a.lat) * (d.lat - b.lat) := by exact_mod_cast h
    have := mul_neg_of_neg_of_pos (by linarith : s - 1 < 0) (hsq hab)
    have := mul_nonneg t0 h'.le
    linarith

theorem within_range {x y t : ℝ} (t0 : 0 ≤ t) (t1 : t ≤ 1) :
    min x y ≤ x + t * (y - x) ∧ x + t * (y - x) ≤ max x y := by
  rcases le_total x y with h | h
  · rw [min_eq_left h, max_eq_right h]
    constructor <;> nlinarith
  · rw [min_eq_right h, max_eq_left h]
    constructor <;> nlinarith

theorem edgesApart_apart {a b c d : Coord} (h : EdgesApart a b c d) {s t : ℝ} (s0 : 0 ≤ s)
    (s1 : s < 1) (t0 : 0 ≤ t) (t1 : t < 1) :
    a.pt + s • (b.pt - a.pt) ≠ c.pt + t • (d.pt - c.pt) := by
  intro e
  have ere := congrArg re e
  have eim := congrArg im e
  simp only [Coord.pt, add_re, add_im, real_smul, re_ofReal_mul, im_ofReal_mul, sub_re, sub_im]
    at ere eim
  have w1 := within_range (x := (a.lon : ℝ)) (y := b.lon) s0 s1.le
  have w2 := within_range (x := (c.lon : ℝ)) (y := d.lon) t0 t1.le
  have w3 := within_range (x := (a.lat : ℝ)) (y := b.lat) s0 s1.le
  have w4 := within_range (x := (c.lat : ℝ)) (y := d.lat) t0 t1.le
  rcases h with h | h | h | h | h | h | h | h
  · have h' : (0 : ℝ) < turn a.pt b.pt c.pt * turn a.pt b.pt d.pt := by
      rw [turn_pt, turn_pt]
      exact_mod_cast h
    apply side_sign h' t0 t1.le
    rw [← turn_along, ← e, turn_along, turn_first, turn_second]
    ring
  · have h' : (0 : ℝ) < turn c.pt d.pt a.pt * turn c.pt d.pt b.pt := by
      rw [turn_pt, turn_pt]
      exact_mod_cast h
    apply side_sign h' s0 s1.le
    rw [← turn_along, e, turn_along, turn_first, turn_second]
    ring
  · have : (max (a.lon : ℝ) b.lon) < min (c.lon : ℝ) d.lon := by exact_mod_cast h
    linarith [w1.2, w2.1]
  · have : (max (c.lon : ℝ) d.lon) < min (a.lon : ℝ) b.lon := by exact_mod_cast h
    linarith [w1.1, w2.2]
  · have : (max (a.lat : ℝ) b.lat) < min (c.lat : ℝ) d.lat := by exact_mod_cast h
    linarith [w3.2, w4.1]
  · have : (max (c.lat : ℝ) d.lat) < min (a.lat : ℝ) b.lat := by exact_mod_cast h
    linarith [w3.1, w4.2]
  · exact goesOn_apart h s1 t0 e
  · exact goesOn_apart h t1 s0 e.symm

/-- Two numbers such that no place on the one side is between them and `0` and `1`. -/
theorem both_out {u v : ℝ} (h1 : ¬ (0 ≤ u ∧ u ≤ 1)) (h2 : ¬ (0 ≤ v ∧ v ≤ 1))
    (h3 : ¬ (u ≤ 0 ∧ 0 ≤ v)) (h4 : ¬ (v ≤ 0 ∧ 0 ≤ u)) : (u < 0 ∧ v < 0) ∨ (1 < u ∧ 1 < v) := by
  rcases lt_or_ge u 0 with hu | hu
  · left
    refine ⟨hu, ?_⟩
    by_contra hv
    exact h3 ⟨hu.le, not_lt.1 hv⟩
  · right
    have hu1 : 1 < u := by
      by_contra hc
      exact h1 ⟨hu, not_lt.1 hc⟩
    refine ⟨hu1, ?_⟩
    rcases lt_or_ge v 0 with hv | hv
    · exact absurd ⟨hv.le, hu⟩ h4
    · by_contra hc
      exact h2 ⟨hv, not_lt.1 hc⟩

/-- On a line not at right angles to it, what is beyond the ends is beyond them in this direction. -/
theorem beyond {x y c d : ℤ} {u v : ℝ} (hxy : x ≠ y) (hc : (c : ℝ) = (1 - u) * x + u * y)
    (hd : (d : ℝ) = (1 - v) * x + v * y) (h : (u < 0 ∧ v < 0) ∨ (1 < u ∧ 1 < v)) :
    max x y < min c d ∨ max c d < min x y := by
  have hxy' : (x : ℝ) ≠ y := by exact_mod_cast hxy
  have goal : (max (x : ℝ) y < min (c : ℝ) d ∨ max (c : ℝ) d < min (x : ℝ) y) →
      (max x y < min c d ∨ max c d < min x y) := by
    intro k
    exact_mod_cast k
  apply goal
  simp only [max_lt_iff, lt_min_iff]
  rcases lt_or_gt_of_ne hxy' with k | k <;> rcases h with ⟨hu, hv⟩ | ⟨hu, hv⟩
  · right
    refine ⟨⟨?_, ?_⟩, ?_, ?_⟩ <;> nlinarith
  · left
    refine ⟨⟨?_, ?_⟩, ?_, ?_⟩ <;> nlinarith
  · left
    refine ⟨⟨?_, ?_⟩, ?_, ?_⟩ <;> nlinarith
  · right
    refine ⟨⟨?_, ?_⟩, ?_, ?_⟩ <;> nlinarith

theorem apart_edges {a b c d : Coord} (hab : a ≠ b)
    (h : ∀ z, z ∈ segment ℝ a.pt b.pt → z ∉ segment ℝ c.pt d.pt) : EdgesApart a b c d := by
  by_contra hn
  unfold EdgesApart at hn
  simp only [not_or] at hn
  obtain ⟨n1, n2, n3, n4, n5, n6, -, -⟩ := hn
  have m1 : turn a.pt b.pt c.pt * turn a.pt b.pt d.pt ≤ 0 := by
    rw [turn_pt, turn_pt]
    exact_mod_cast not_lt.1 n1
  have m2 : turn c.pt d.pt a.pt * turn c.pt d.pt b.pt ≤ 0 := by
    rw [turn_pt, turn_pt]
    exact_mod_cast not_lt.1 n2
  set α := turn a.pt b.pt c.pt with hα
  set β := turn a.pt b.pt d.pt with hβ
  set γ := turn c.pt d.pt a.pt with hγ
  set δ := turn c.pt d.pt b.pt with hδ
  have hrel : γ - δ = -(α - β) := by
    rw [hα, hβ, hγ, hδ]
    unfold turn
    ring
  have ratio : ∀ u v : ℝ, u * v ≤ 0 → u ≠ v → 0 ≤ u / (u - v) ∧ u / (u - v) ≤ 1 := by
    intro u v huv hne
    rcases lt_or_gt_of_ne hne with k | k
    · have hu : u ≤ 0 := by
        by_contra hc
        have := mul_pos (not_le.1 hc) (lt_trans (not_le.1 hc) k)
        linarith
      have hv : 0 ≤ v := by
        by_contra hc
        have := mul_pos_of_neg_of_neg (lt_trans k (not_le.1 hc)) (not_le.1 hc)
        linarith
      refine ⟨div_nonneg_of_nonpos hu (by linarith), ?_⟩
      rw [div_le_one_of_neg (by linarith)]
      linarith
    · have hv : v ≤ 0 := by
        by_contra hc
        have := mul_pos (lt_trans (not_le.1 hc) k) (not_le.1 hc)
        linarith
      have hu : 0 ≤ u := by
        by_contra hc
        have := mul_pos_of_neg_of_neg (not_le.1 hc) (lt_trans k (not_le.1 hc))
        linarith
      refine ⟨div_nonneg hu (by linarith), ?_⟩
      rw [div_le_one (by linarith)]
      linarith
  by_cases hαβ : α = β
  · -- all on a line
    have h0 : α = 0 := by
      rw [← hαβ] at m1
      exact mul_self_eq_zero.1 (le_antisymm m1 (mul_self_nonneg α))
    have hab' : a.pt ≠ b.pt := fun e => hab (pt_inj e)
    obtain ⟨u, hu⟩ := on_line hab' h0
    obtain ⟨v, hv⟩ := on_line hab' (hαβ ▸ h0 : β = 0)
    have segab : ∀ t : ℝ, 0 ≤ t → t ≤ 1 → (1 - t) • a.pt + t • b.pt ∈ segment ℝ a.pt b.pt :=
      fun t t0 t1 => ⟨1 - t, t, by linarith, t0, by ring, rfl⟩
    have out := both_out (u := u) (v := v)
      (fun k => h c.pt (hu ▸ segab u k.1 k.2) (left_mem_segment ℝ _ _))
      (fun k => h d.pt (hv ▸ segab v k.1 k.2) (right_mem_segment ℝ _ _))
      (fun k => by
        refine h a.pt (left_mem_segment ℝ _ _) ?_
        by_cases huv : u = v
        · have : u = 0 := by linarith [k.1, k.2]
          have : c.pt = a.pt := by rw [hu, this]; module
          rw [← this]
          exact left_mem_segment ℝ _ _
        · have hlt : 0 < v - u := lt_of_le_of_ne (by linarith [k.1, k.2]) fun e => huv (by linarith)
          refine ⟨v / (v - u), -u / (v - u), div_nonneg k.2 hlt.le,
            div_nonneg (by linarith [k.1]) hlt.le, ?_, ?_⟩
          · rw [← add_div, ← sub_eq_add_neg, div_self hlt.ne']
          · rw [hu, hv]
            apply Complex.ext
            · simp only [add_re, real_smul, re_ofReal_mul]
              field_simp
              ring
            · simp only [add_im, real_smul, im_ofReal_mul]
              field_simp
              ring)
      (fun k => by
        refine h a.pt (left_mem_segment ℝ _ _) ?_
        by_cases huv : u = v
        · have : u = 0 := by linarith [k.1, k.2]
          have : c.pt = a.pt := by rw [hu, this]; module
          rw [← this]
          exact left_mem_segment ℝ _ _
        · have hlt : 0 < u - v := lt_of_le_of_ne (by linarith [k.1, k.2]) fun e => huv (by linarith)
          refine ⟨-v / (u - v), u / (u - v), div_nonneg (by linarith [k.1]) hlt.le,
            div_nonneg k.2 hlt.le, ?_, ?_⟩
          · rw [← add_div, neg_add_eq_sub, div_self hlt.ne']
          · rw [hu, hv]
            apply Complex.ext
            · simp only [add_re, real_smul, re_ofReal_mul]
              field_simp
              ring
            · simp only [add_im, real_smul, im_ofReal_mul]
              field_simp
              ring)
    have hure := congrArg re hu
    have huim := congrArg im hu
    have hvre := congrArg re hv
    have hvim := congrArg im hv
    simp only [Coord.pt, add_re, add_im, real_smul, re_ofReal_mul, im_ofReal_mul] at hure huim hvre hvim
    by_cases hlon : a.lon = b.lon
    · have hlat : a.lat ≠ b.lat := fun e => hab (Coord.ext' hlon e)
      rcases beyond hlat huim hvim out with k | k
      · exact n5 k
      · exact n6 k
    · rcases beyond hlon hure hvre out with k | k
      · exact n3 k
      · exact n4 k
  · have hγδ : γ ≠ δ := fun e => hαβ (by linarith)
    obtain ⟨s0, s1⟩ := ratio γ δ m2 hγδ
    obtain ⟨t0, t1⟩ := ratio α β m1 hαβ
    refine h (a.pt + (γ / (γ - δ)) • (b.pt - a.pt)) ?_ ?_
    · rw [segment_eq_image']
      exact ⟨_, ⟨s0, s1⟩, rfl⟩
    · rw [segment_eq_image']
      refine ⟨α / (α - β), ⟨t0, t1⟩, ?_⟩
      have d1 : α - β ≠ 0 := sub_ne_zero.2 hαβ
      simp only
      rw [hrel, div_neg]
      apply Complex.ext
      · simp only [add_re, real_smul, re_ofReal_mul, sub_re]
        field_simp
        rw [hα, hβ, hγ]
        unfold turn
        ring
      · simp only [add_im, real_smul, im_ofReal_mul, sub_im]
        field_simp
        rw [hα, hβ, hγ]
        unfold turn
        ring

/-- Neighbouring edges of a line without spikes go on. -/
theorem goesOn_of {a b d : Coord} (hab : a ≠ b) (hbd : b ≠ d)
    (hsp : ∀ c : ℝ, 0 < c → d.pt - b.pt ≠ c • (a.pt - b.pt)) : GoesOn a b b d := by
  refine ⟨rfl, ?_⟩
  by_cases h0 : area2 a b d = 0
  · right
    have hab' : a.pt ≠ b.pt := fun e => hab (pt_inj e)
    have hbd' : b.pt ≠ d.pt := fun e => hbd (pt_inj e)
    obtain ⟨c, hc, e, -⟩ := straight hab' hbd' hsp (by rw [turn_pt, h0]; simp)
    have ere := congrArg re e
    have eim := congrArg im e
    simp only [Coord.pt, sub_re, sub_im, real_smul, re_ofReal_mul, im_ofReal_mul] at ere eim
    have : (0 : ℝ) < ((b.lon : ℝ) - a.lon) * (d.lon - b.lon) +
        ((b.lat : ℝ) - a.lat) * (d.lat - b.lat) := by
      rw [ere, eim]
      have hsq : 0 < ((b.lon : ℝ) - a.lon) ^ 2 + ((b.lat : ℝ) - a.lat) ^ 2 := by
        by_contra hn
        apply hab'
        have h1 := sq_nonneg ((b.lon : ℝ) - a.lon)
        have h2 := sq_nonneg ((b.lat : ℝ) - a.lat)
        have h3 : ((b.lon : ℝ) - a.lon) = 0 := (pow_eq_zero_iff (n := 2) (by norm_num)).1 (by linarith)
        have h4 : ((b.lat : ℝ) - a.lat) = 0 := (pow_eq_zero_iff (n := 2) (by norm_num)).1 (by linarith)
        apply Complex.ext <;> simp only [Coord.pt] <;> linarith
      nlinarith [mul_pos hc hsq]
    exact_mod_cast this
  · exact Or.inl h0

theorem simple_iff (p : List Coord) : SimpleRing p ↔ 3 ≤ p.length ∧ ∀ i < p.length, ∀ j < p.length,
    i ≠ j → EdgesApart (ringAt p i) (ringAt p (i + 1)) (ringAt p j) (ringAt p (j + 1)) := by
  constructor
  · intro h
    have hl := simple_loop h
    have hr := simple_noRepeat h
    refine ⟨h.size, fun i hi j hj hij => ?_⟩
    have key : ∀ i < p.length, ∀ j < p.length, (i + 1) % p.length = j →
        GoesOn (ringAt p i) (ringAt p (i + 1)) (ringAt p j) (ringAt p (j + 1)) := by
      intro i hi j hj e
      have e1 : ringAt p j = ringAt p (i + 1) := by
        unfold ringAt
        rw [← e, Nat.mod_mod]
      have e2 : ringAt p (j + 1) = ringAt p (i + 2) := by
        unfold ringAt
        rw [← e, Nat.mod_add_mod]
      rw [e1, e2]
      refine goesOn_of (hr i hi) ?_ (fun c hc => hl.no_spike i hc)
      have := hr j hj
      rwa [e1, e2] at this
    by_cases k1 : (i + 1) % p.length = j
    · exact Or.inr (Or.inr (Or.inr (Or.inr (Or.inr (Or.inr (Or.inl (key i hi j hj k1)))))))
    by_cases k2 : (j + 1) % p.length = i
    · exact Or.inr (Or.inr (Or.inr (Or.inr (Or.inr (Or.inr (Or.inr (key j hj i hi k2)))))))
    apply apart_edges (hr i hi)
    intro z hz hz'
    rw [segment_eq_image'] at hz
    obtain ⟨t, ⟨t0, t1⟩, rfl⟩ := hz
    have hii : i % p.length ≠ j % p.length := by rwa [Nat.mod_eq_of_lt hi, Nat.mod_eq_of_lt hj]
    rcases t0.lt_or_eq with t0 | rfl
    · rcases t1.lt_or_eq with t1 | rfl
      · refine hl.within (i := i) (j := j) hii ?_ hz'
        rw [openSegment_eq_image']
        exact ⟨t, ⟨t0, t1⟩, rfl⟩
      · refine hl.vertex (i := i) (j := j) hii.symm ?_ ?_
        · rw [Nat.mod_eq_of_lt hj]
          exact fun e => k1 e.symm
        · have e : (ringAt p i).pt + (1 : ℝ) • ((ringAt p (i + 1)).pt - (ringAt p i).pt) =
              (ringAt p (i + 1)).pt := by module
          simp only at hz'
          rw [e] at hz'
          exact hz'
    · have e : (ringAt p i).pt + (0 : ℝ) • ((ringAt p (i + 1)).pt - (ringAt p i).pt) =
          (ringAt p i).pt := by module
      simp only at hz'
      rw [e] at hz'
      have hn := h.size
      have hper : line p (i + p.length - 1 + 1) = line p i := by
        rw [show i + p.length - 1 + 1 = i + p.length by omega, line_period]
      have hmod : (i + p.length - 1 + 1) % p.length = i := by
        rw [show i + p.length - 1 + 1 = i + p.length by omega, Nat.add_mod_right,
          Nat.mod_eq_of_lt hi]
      refine hl.vertex (i := i + p.length - 1) (j := j) ?_ ?_ (hper ▸ hz')
      · intro e'
        apply k2
        rw [← hmod, ← Nat.mod_add_mod j, e', Nat.mod_add_mod]
      · rw [hmod, Nat.mod_eq_of_lt hj]
        exact hij.symm
  · rintro ⟨h1, h2⟩
    exact ⟨h1, fun i hi j hj hij s t s0 s1 t0 t1 =>
      edgesApart_apart (h2 i hi j hj hij) s0 s1 t0 t1⟩

/-- A coordinate of an edge is in line with its ends and between them. -/
theorem segment_box {a b c : Coord} (h : c.pt ∈ segment ℝ a.pt b.pt) : area2 a b c = 0 ∧
    min a.lon b.lon ≤ c.lon ∧ c.lon ≤ max a.lon b.lon ∧ min a.lat b.lat ≤ c.lat ∧
    c.lat ≤ max a.lat b.lat := by
  have h0 := on_edge_turn h
  rw [turn_pt] at h0
  rw [segment_eq_image'] at h
  obtain ⟨t, ⟨t0, t1⟩, e⟩ := h
  have ere := congrArg re e
  have eim := congrArg im e
  simp only [Coord.pt, add_re, add_im, real_smul, re_ofReal_mul, im_ofReal_mul, sub_re, sub_im]
    at ere eim
  have w1 := within_range (x := (a.lon : ℝ)) (y := b.lon) t0 t1
  have w2 := within_range (x := (a.lat : ℝ)) (y := b.lat) t0 t1
  rw [ere] at w1
  rw [eim] at w2
  exact ⟨by exact_mod_cast h0, by exact_mod_cast w1.1, by exact_mod_cast w1.2,
    by exact_mod_cast w2.1, by exact_mod_cast w2.2⟩

/-- Sufficient for a coordinate to be off the coast. -/
def offB (p : List Coord) (c : Coord) : Bool := (List.range p.length).all fun i =>
  decide (area2 (ringAt p i) (ringAt p (i + 1)) c ≠ 0) ||
  decide (c.lon < min (ringAt p i).lon (ringAt p (i + 1)).lon) ||
  decide (max (ringAt p i).lon (ringAt p (i + 1)).lon < c.lon) ||
  decide (c.lat < min (ringAt p i).lat (ringAt p (i + 1)).lat) ||
  decide (max (ringAt p i).lat (ringAt p (i + 1)).lat < c.lat)

theorem offB_sound {p : List Coord} {c : Coord} (h : offB p c = true) : c.pt ∉ Coast p := by
  rintro ⟨i, hi, hz⟩
  obtain ⟨h1, h2, h3, h4, h5⟩ := segment_box hz
  simp only [offB, List.all_eq_true, List.mem_range, Bool.or_eq_true, decide_eq_true_eq] at h
  rcases h i hi with (((k | k) | k) | k) | k
  · exact k h1
  all_goals omega

/-- A straight line that meets no edge, and ends outside, is outside. -/
theorem outside_line {p : List Coord} (hr : NoRepeat p) {a b : Coord} (hab : ∀ i < p.length,
    EdgesApart a b (ringAt p i) (ringAt p (i + 1))) (hb : b.pt ∉ Coast p) (hb' : b.pt ∉ Interior p) :
    AtSea (Interior p) a.pt b.pt := by
  intro z hz hin
  have hoff : ∀ w ∈ segment ℝ z b.pt, w ∉ Coast p := by
    intro w hw
    have hw' := (convex_segment a.pt b.pt).segment_subset hz (right_mem_segment ℝ _ _) hw
    rw [segment_eq_image'] at hw'
    obtain ⟨s, ⟨s0, s1⟩, rfl⟩ := hw'
    rcases s1.lt_or_eq with s1 | rfl
    · rw [coast_often hr]
      intro hpos
      unfold often ringSum at hpos
      rw [Finset.sum_eq_zero] at hpos
      · exact lt_irrefl _ hpos
      · intro i hi
        unfold met
        rw [if_neg]
        rintro ⟨_, t, t0, t1, e⟩
        exact edgesApart_apart (hab i (Finset.mem_range.1 hi)) s0 s1 t0 t1 e
    · have e : a.pt + (1 : ℝ) • (b.pt - a.pt) = b.pt := by module
      simp only
      rw [e]
      exact hb
  apply hb'
  refine ⟨hb, ?_⟩
  have hn : 0 < p.length := by
    rcases Nat.eq_zero_or_pos p.length with h0 | h0
    · exfalso
      apply hin.2
      unfold turning
      rw [h0]
      rfl
    · exact h0
  have hclosed : line p p.length = line p 0 := by
    have := line_period p 0
    rwa [zero_add] at this
  have := total_const hclosed hn (convex_segment z b.pt).isPreconnected hoff
    (left_mem_segment ℝ _ _) (right_mem_segment ℝ _ _)
  rw [turning_total, ← this]
  exact hin.2

/-- Whether a ring is simple can be computed. -/
instance (p : List Coord) : Decidable (SimpleRing p) := decidable_of_iff' _ (simple_iff p)

end Capi
