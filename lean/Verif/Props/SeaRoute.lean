import Verif.Lemmas.SeaRoute
import Verif.Lemmas.Sweep
import Verif.Props.EndToEnd

/-!
# C74: no route over the sea is shorter

Any course of straight lines that keeps off the land, with turns wherever one likes, is compared
with chains of sight lines between vertices, and so with the path that is returned.
-/

namespace Capi

open ShortestPath Visgraph

/-- The point at a share of the way. -/
theorem seg_point (a b : Coord) {t x y : ℚ} (hx : x = a.lon + t * (b.lon - a.lon))
    (hy : y = a.lat + t * (b.lat - a.lat)) :
    (⟨(x : ℝ), (y : ℝ)⟩ : ℂ) = (1 - (t : ℝ)) • a.pt + (t : ℝ) • b.pt := by
  apply Complex.ext
  · simp only [Coord.pt, Complex.add_re, Complex.smul_re, smul_eq_mul, hx]
    push_cast
    ring
  · simp only [Coord.pt, Complex.add_im, Complex.smul_im, smul_eq_mul, hy]
    push_cast
    ring

theorem pt_open {a b v : Coord} {t : ℚ} (h0 : 0 < t) (h1 : t < 1)
    (hx : (v.lon : ℚ) = a.lon + t * (b.lon - a.lon))
    (hy : (v.lat : ℚ) = a.lat + t * (b.lat - a.lat)) : v.pt ∈ openSegment ℝ a.pt b.pt := by
  have h0' : (0 : ℝ) < t := by exact_mod_cast h0
  have h1' : (t : ℝ) < 1 := by exact_mod_cast h1
  refine ⟨1 - t, t, by linarith, h0', by ring, ?_⟩
  rw [← seg_point a b hx hy]
  simp [Coord.pt]

theorem edge_ring {ps : List (List Coord)} {e : Seg} (h : EdgeOf ps e) : ∃ p ∈ ps, EdgeOf [p] e := by
  obtain ⟨p, hp, h⟩ := h
  exact ⟨p, hp, p, List.mem_singleton_self p, h⟩

theorem corner_ring {ps : List (List Coord)} {a v b : Coord} (h : CornerOf ps a v b) :
    ∃ p ∈ ps, CornerOf [p] a v b := by
  obtain ⟨p, hp, h⟩ := h
  exact ⟨p, hp, p, List.mem_singleton_self p, h⟩

/-- A point on the line of an edge. -/
theorem line_share {e : Seg} (hne : e.p ≠ e.q) {c : Coord} (hc : area2 e.p e.q c = 0) : ∃ r : ℚ,
    (c.lon : ℚ) = e.p.lon + r * (e.q.lon - e.p.lon) ∧
    (c.lat : ℚ) = e.p.lat + r * (e.q.lat - e.p.lat) := by
  have hc' : ((e.q.lon : ℚ) - e.p.lon) * (c.lat - e.p.lat) =
      (e.q.lat - e.p.lat) * (c.lon - e.p.lon) := by
    unfold area2 at hc
    have : ((e.q.lon - e.p.lon) * (c.lat - e.p.lat) : ℤ) =
      (e.q.lat - e.p.lat) * (c.lon - e.p.lon) := by linarith
    exact_mod_cast this
  by_cases h : e.q.lon = e.p.lon
  · have h2 : (e.q.lat : ℚ) - e.p.lat ≠ 0 := by
      intro h0
      exact hne (Coord.ext' h.symm (by
        have : (e.q.lat : ℚ) = e.p.lat := by linarith
        exact_mod_cast this.symm))
    have h' : (e.q.lon : ℚ) - e.p.lon = 0 := by rw [h]; ring
    refine ⟨(c.lat - e.p.lat) / (e.q.lat - e.p.lat), ?_, by field_simp; ring⟩
    rw [h', zero_mul] at hc'
    rw [h', mul_zero]
    have := (mul_eq_zero.1 hc'.symm).resolve_left h2
    linarith
  · have h2 : (e.q.lon : ℚ) - e.p.lon ≠ 0 := by
      intro h0
      apply h
      have : (e.q.lon : ℚ) = e.p.lon := by linarith
      exact_mod_cast this
    refine ⟨(c.lon - e.p.lon) / (e.q.lon - e.p.lon), by field_simp; ring, ?_⟩
    field_simp
    linear_combination hc'

/-- A line over the sea without vertices in between is clear of the edges. -/
theorem clear_of_sea {ps : List (List Coord)} {land : List Coord → Set ℂ}
    (hA : ∀ p ∈ ps, Encloses p (land p)) {a b : Coord}
    (hsea : ∀ p ∈ ps, AtSea (land p) a.pt b.pt)
    (hbare : ∀ v ∈ ps.flatten, v.pt ∉ openSegment ℝ a.pt b.pt) {e : Seg} (he : EdgeOf ps e)
    (hin : ∀ v ∈ [a], OnSeg e v.lon v.lat → v = e.p ∨ v = e.q) (hp : a ≠ e.p) (hq : a ≠ e.q) :
    Clear a b e := by
  intro x y ⟨t, t0, t1, hx, hy⟩ ⟨u, u0, u1, hx', hy'⟩
  simp only at hx' hy'
  have hnot : ¬ OnSeg e a.lon a.lat := fun h => by
    rcases hin a (List.mem_singleton_self a) h with h | h
    · exact hp h
    · exact hq h
  obtain ⟨mp, mq⟩ := Vistree.edge_mem he
  rcases u0.lt_or_eq with u0' | rfl
  swap
  · exact absurd ⟨t, t0, t1, by linarith, by linarith⟩ hnot
  rcases u1.lt_or_eq with u1' | rfl
  swap
  · exact ⟨by linarith, by linarith⟩
  exfalso
  -- the ends of the edge are not in between
  have ends : ∀ v ∈ ps.flatten, (v.lon : ℚ) = x → (v.lat : ℚ) = y → False := by
    intro v hv h1 h2
    exact hbare v hv (pt_open u0' u1' (by linarith) (by linarith))
  rcases t0.lt_or_eq with t0' | rfl
  swap
  · exact ends e.p mp (by linarith) (by linarith)
  rcases t1.lt_or_eq with t1' | rfl
  swap
  · exact ends e.q mq (by linarith) (by linarith)
  obtain ⟨p, hpp, he'⟩ := edge_ring he
  have t0r : (0 : ℝ) < t := by exact_mod_cast t0'
  have t1r : (t : ℝ) < 1 := by exact_mod_cast t1'
  have u0r : (0 : ℝ) < u := by exact_mod_cast u0'
  have u1r : (u : ℝ) < 1 := by exact_mod_cast u1'
  have hz1 : (⟨(x : ℝ), (y : ℝ)⟩ : ℂ) ∈ openSegment ℝ e.p.pt e.q.pt :=
    ⟨1 - t, t, by linarith, t0r, by ring, (seg_point e.p e.q hx hy).symm⟩
  have hz2 : (⟨(x : ℝ), (y : ℝ)⟩ : ℂ) ∈ segment ℝ a.pt b.pt :=
    ⟨1 - u, u, by linarith, u0r.le, by ring, (seg_point a b hx' hy').symm⟩
  obtain ⟨l1, l2⟩ := not_left (hA p hpp) (hsea p hpp) he' hz2 hz1
  have tz : turn e.p.pt e.q.pt ⟨(x : ℝ), (y : ℝ)⟩ = 0 := by
    rw [seg_point e.p e.q hx hy, turn_comb2 _ _ _ _ (by ring), turn_first, turn_second]
    ring
  rw [seg_point a b hx' hy', turn_comb2 _ _ _ _ (by ring)] at tz
  rw [turn_pt] at l1 l2
  rw [turn_pt, turn_pt] at tz
  have ka : area2 e.p e.q a = 0 := by
    have : ((area2 e.p e.q a : ℤ) : ℝ) = 0 := by nlinarith
    exact_mod_cast this
  have kb : area2 e.p e.q b = 0 := by
    have : ((area2 e.p e.q b : ℤ) : ℝ) = 0 := by nlinarith
    exact_mod_cast this
  have hne : e.p ≠ e.q := by
    intro h
    refine ends e.p mp ?_ ?_
    · rw [h] at hx ⊢; linarith
    · rw [h] at hy ⊢; linarith
  -- both ends of the line are on the line of the edge
  obtain ⟨r1, a1, a2⟩ := line_share hne ka
  obtain ⟨r2, b1, b2⟩ := line_share hne kb
  -- where the common point is
  have ht : t = r1 + u * (r2 - r1) := by
    by_contra hc
    have hc' : t - (r1 + u * (r2 - r1)) ≠ 0 := sub_ne_zero.2 hc
    have k1 : (t - (r1 + u * (r2 - r1))) * ((e.q.lon : ℚ) - e.p.lon) = 0 := by
      rw [a1, b1] at hx'
      linear_combination hx' - hx
    have k2 : (t - (r1 + u * (r2 - r1))) * ((e.q.lat : ℚ) - e.p.lat) = 0 := by
      rw [a2, b2] at hy'
      linear_combination hy' - hy
    have k1 := (mul_eq_zero.1 k1).resolve_left hc'
    have k2 := (mul_eq_zero.1 k2).resolve_left hc'
    refine hne (Coord.ext' ?_ ?_)
    · have : (e.p.lon : ℚ) = e.q.lon := by linarith
      exact_mod_cast this
    · have : (e.p.lat : ℚ) = e.q.lat := by linarith
      exact_mod_cast this
  rcases lt_or_ge r1 0 with h | h
  · have hr2 : 0 < r2 := by
      by_contra hc
      push Not at hc
      nlinarith
    have hd : 0 < r2 - r1 := by linarith
    refine hbare e.p mp (pt_open (t := -r1 / (r2 - r1)) (div_pos (by linarith) hd)
      (by rw [div_lt_one hd]; linarith) ?_ ?_)
    · rw [a1, b1]
      field_simp
      ring
    · rw [a2, b2]
      field_simp
      ring
  rcases le_or_gt r1 1 with h' | h'
  · exact hnot ⟨r1, h, h', a1, a2⟩
  · have hr2 : r2 < 1 := by
      by_contra hc
      push Not at hc
      nlinarith
    have hd : 0 < r1 - r2 := by linarith
    refine hbare e.q mq (pt_open (t := (r1 - 1) / (r1 - r2)) (div_pos (by linarith) hd)
      (by rw [div_lt_one hd]; linarith) ?_ ?_)
    · rw [a1, b1]
      field_simp
      ring
    · rw [a2, b2]
      field_simp
      ring

/-- The direction of `w` as a combination of the two edges of a corner. -/
theorem shares {a v b : Coord} (hD : area2 a v b ≠ 0) (w : Coord) : ∃ x y : ℚ,
    x * area2 a v b = area2 v b w ∧ y * area2 a v b = area2 a v w ∧
    (w.lon : ℚ) - v.lon = x * (a.lon - v.lon) + y * (b.lon - v.lon) ∧
    (w.lat : ℚ) - v.lat = x * (a.lat - v.lat) + y * (b.lat - v.lat) ∧
    ∀ x' y' : ℚ, (w.lon : ℚ) - v.lon = x' * (a.lon - v.lon) + y' * (b.lon - v.lon) →
      (w.lat : ℚ) - v.lat = x' * (a.lat - v.lat) + y' * (b.lat - v.lat) → x' = x ∧ y' = y := by
  have hDq : (area2 a v b : ℚ) ≠ 0 := by exact_mod_cast hD
  have ex : ((area2 v b w : ℚ)) =
      (b.lon - v.lon) * (w.lat - v.lat) - (b.lat - v.lat) * (w.lon - v.lon) := by
    unfold area2; push_cast; ring
  have ey : ((area2 a v w : ℚ)) =
      (v.lon - a.lon) * (w.lat - a.lat) - (v.lat - a.lat) * (w.lon - a.lon) := by
    unfold area2; push_cast; ring
  have eD : ((area2 a v b : ℚ)) =
      (v.lon - a.lon) * (b.lat - a.lat) - (v.lat - a.lat) * (b.lon - a.lon) := by
    unfold area2; push_cast; ring
  have e1 : (w.lon : ℚ) - v.lon = area2 v b w / area2 a v b * (a.lon - v.lon) +
      area2 a v w / area2 a v b * (b.lon - v.lon) := by
    field_simp
    rw [ex, ey, eD]
    ring
  have e2 : (w.lat : ℚ) - v.lat = area2 v b w / area2 a v b * (a.lat - v.lat) +
      area2 a v w / area2 a v b * (b.lat - v.lat) := by
    field_simp
    rw [ex, ey, eD]
    ring
  refine ⟨area2 v b w / area2 a v b, area2 a v w / area2 a v b, by field_simp, by field_simp, e1, e2,
    ?_⟩
  intro x' y' f1 f2
  constructor
  · have : (x' - area2 v b w / area2 a v b) * area2 a v b = 0 := by
      generalize (area2 v b w : ℚ) / area2 a v b = x at *
      rw [eD]
      linear_combination (b.lon - v.lon : ℚ) * (e2 - f2) - (b.lat - v.lat : ℚ) * (e1 - f1)
    have := (mul_eq_zero.1 this).resolve_right hDq
    linarith
  · have : (y' - area2 a v w / area2 a v b) * area2 a v b = 0 := by
      generalize (area2 a v w : ℚ) / area2 a v b = y at *
      rw [eD]
      linear_combination (a.lat - v.lat : ℚ) * (e1 - f1) - (a.lon - v.lon : ℚ) * (e2 - f2)
    have := (mul_eq_zero.1 this).resolve_right hDq
    linarith

theorem area_ne {a v b : Coord} (h : CornerResolved a v b) : area2 a v b ≠ 0 := by
  intro h0
  unfold CornerResolved at h
  rw [h0, abs_zero, mul_zero] at h
  have := abs_nonneg ((v.lon - a.lon) * (b.lat - v.lat))
  have := abs_nonneg ((v.lat - a.lat) * (b.lon - v.lon))
  omega

/-- A line over the sea does not start into the interior angle of a corner. -/
theorem not_into_of_sea {ps : List (List Coord)} {land : List Coord → Set ℂ}
    (hA : ∀ p ∈ ps, Encloses p (land p)) {v w : Coord} (hsea : ∀ p ∈ ps, AtSea (land p) v.pt w.pt)
    {a b : Coord} (hc : CornerOf ps a v b) : ¬ Into a.pt v.pt b.pt w.pt := by
  intro hi
  obtain ⟨p, hp, hc'⟩ := corner_ring hc
  obtain ⟨ε, hε, h⟩ := (hA p hp).corner a v b hc'
  obtain ⟨δ, h0, h1, h2⟩ := near_point v.pt w.pt hε
  refine hsea p hp _ ⟨1 - δ, δ, by linarith, h0.le, by ring, rfl⟩ (h _ h2 ?_)
  have k1 : turn a.pt v.pt ((1 - δ) • v.pt + δ • w.pt) = δ * turn a.pt v.pt w.pt := by
    rw [turn_comb2 _ _ _ _ (by ring), turn_second]; ring
  have k2 : turn v.pt b.pt ((1 - δ) • v.pt + δ • w.pt) = δ * turn v.pt b.pt w.pt := by
    rw [turn_comb2 _ _ _ _ (by ring), turn_first]; ring
  unfold Into at hi ⊢
  rw [k1, k2, mul_pos_iff_of_pos_left h0, mul_pos_iff_of_pos_left h0]
  exact hi

/-- A line over the sea without vertices in between does not start into a corner. -/
theorem corner_of_sea {ps : List (List Coord)} {land : List Coord → Set ℂ}
    (hA : ∀ p ∈ ps, Encloses p (land p)) {v w : Coord} (hne : v ≠ w)
    (hsea : ∀ p ∈ ps, AtSea (land p) v.pt w.pt)
    (hbare : ∀ c ∈ ps.flatten, c.pt ∉ openSegment ℝ v.pt w.pt)
    (hres : ∀ a v b, CornerOf ps a v b → CornerResolved a v b) : CornerAllows ps v w := by
  intro a b hc
  refine ⟨hres a v b hc, ?_⟩
  have hD : area2 a v b ≠ 0 := area_ne (hres a v b hc)
  obtain ⟨ma, mb⟩ : a ∈ ps.flatten ∧ b ∈ ps.flatten := by
    obtain ⟨p, hp, i, hi, rfl, -, rfl⟩ := hc
    exact ⟨List.mem_flatten.2 ⟨p, hp, Vistree.ringAt_mem (by omega)⟩,
      List.mem_flatten.2 ⟨p, hp, Vistree.ringAt_mem (by omega)⟩⟩
  have hout : ¬ Into a.pt v.pt b.pt w.pt := not_into_of_sea hA hsea hc
  -- the shares of the two edges
  obtain ⟨x, y, hxD, hyD, e1, e2, huniq⟩ := shares hD w
  have hne' : ¬ ((w.lon : ℚ) - v.lon = 0 ∧ (w.lat : ℚ) - v.lat = 0) := by
    rintro ⟨h1, h2⟩
    refine hne (Coord.ext' ?_ ?_)
    · have : (v.lon : ℚ) = w.lon := by linarith
      exact_mod_cast this
    · have : (v.lat : ℚ) = w.lat := by linarith
      exact_mod_cast this
  have ray : ∀ c ∈ ps.flatten, ∀ k : ℚ, 0 ≤ k → OnRay v c w k → 0 < k ∧ k ≤ 1 := by
    intro c hcm k hk hr
    have hk0 : 0 < k := by
      rcases hk.lt_or_eq with h | rfl
      · exact h
      · exact absurd ⟨by rw [hr.1, zero_mul], by rw [hr.2, zero_mul]⟩ hne'
    refine ⟨hk0, ?_⟩
    by_contra hk1
    push Not at hk1
    refine hbare c hcm (pt_open (t := 1 / k) (by positivity) (by rw [div_lt_one hk0]; exact hk1) ?_ ?_)
    · rw [hr.1]; field_simp; ring
    · rw [hr.2]; field_simp; ring
  -- a line along one of the edges
  have along : 0 ≤ x → 0 ≤ y → ¬ (0 < x ∧ 0 < y) →
      ∃ k : ℚ, 0 < k ∧ k ≤ 1 ∧ (OnRay v a w k ∨ OnRay v b w k) := by
    intro h1 h2 h3
    rcases h1.lt_or_eq with h1 | h1
    · have hy0 : y = 0 := le_antisymm (not_lt.1 fun h => h3 ⟨h1, h⟩) h2
      have hr : OnRay v a w x := by
        constructor
        · rw [e1, hy0]; ring
        · rw [e2, hy0]; ring
      exact ⟨x, (ray a ma x h1.le hr).1, (ray a ma x h1.le hr).2, Or.inl hr⟩
    · have hr : OnRay v b w y := by
        constructor
        · rw [e1, ← h1]; ring
        · rw [e2, ← h1]; ring
      exact ⟨y, (ray b mb y h2 hr).1, (ray b mb y h2 hr).2, Or.inr hr⟩
  unfold Into at hout
  rw [turn_pt, turn_pt, turn_pt] at hout
  have c1 : (0 : ℝ) < ((area2 a v w : ℤ) : ℝ) ↔ 0 < area2 a v w := by exact_mod_cast Iff.rfl
  have c2 : (0 : ℝ) < ((area2 v b w : ℤ) : ℝ) ↔ 0 < area2 v b w := by exact_mod_cast Iff.rfl
  have c3 : (0 : ℝ) < ((area2 a v b : ℤ) : ℝ) ↔ 0 < area2 a v b := by exact_mod_cast Iff.rfl
  simp only [c1, c2, c3] at hout
  have d1 : 0 < area2 a v w ↔ 0 < y * area2 a v b := by rw [hyD]; exact_mod_cast Iff.rfl
  have d2 : 0 < area2 v b w ↔ 0 < x * area2 a v b := by rw [hxD]; exact_mod_cast Iff.rfl
  rcases lt_or_gt_of_ne hD with hneg | hpos
  · rw [if_neg (by omega), d1, d2] at hout
    push Not at hout
    have hneg' : (area2 a v b : ℚ) < 0 := by exact_mod_cast hneg
    have hy0 : 0 ≤ y := by
      by_contra h; push Not at h
      have := mul_pos_of_neg_of_neg h hneg'
      linarith [hout.1]
    have hx0 : 0 ≤ x := by
      by_contra h; push Not at h
      have := mul_pos_of_neg_of_neg h hneg'
      linarith [hout.2]
    by_cases hxy : 0 < x ∧ 0 < y
    · exact Or.inl (Or.inr ⟨hneg, x, y, hxy.1, hxy.2, e1, e2⟩)
    · exact Or.inr (along hx0 hy0 hxy)
  · rw [if_pos hpos, d1, d2] at hout
    have hpos' : (0 : ℚ) < area2 a v b := by exact_mod_cast hpos
    rw [mul_pos_iff_of_pos_right hpos', mul_pos_iff_of_pos_right hpos'] at hout
    by_cases hxy : 0 ≤ x ∧ 0 ≤ y
    · exact Or.inr (along hxy.1 hxy.2 fun h => hout ⟨h.2, h.1⟩)
    · refine Or.inl (Or.inl ⟨hpos, ?_⟩)
      rintro ⟨x', y', hx', hy', f1, f2⟩
      apply hxy
      obtain ⟨g1, g2⟩ := huniq x' y' f1 f2
      rw [← g1, ← g2]
      exact ⟨hx', hy'⟩

/-- A line over the sea without vertices in between is a line of sight. -/
theorem sees_of_sea {ps : List (List Coord)} {land : List Coord → Set ℂ}
    (hA : ∀ p ∈ ps, Encloses p (land p))
    (hres : ∀ a v b, CornerOf ps a v b → CornerResolved a v b) {a b : Coord} (hne : a ≠ b)
    (hsea : ∀ p ∈ ps, AtSea (land p) a.pt b.pt)
    (hbare : ∀ v ∈ ps.flatten, v.pt ∉ openSegment ℝ a.pt b.pt)
    (hin : ∀ e, EdgeOf ps e → OnSeg e a.lon a.lat → a = e.p ∨ a = e.q) : Sees ps a b :=
  ⟨fun _ he hp hq => clear_of_sea hA hsea hbare he (by simpa using hin _ he) hp hq,
    corner_of_sea hA hne hsea hbare hres⟩

theorem length_pt (l : List Coord) : walkLength (fun u v => planeDist u v 0) l =
    walkLength (fun u v => ‖u - v‖) (l.map Coord.pt) / 1000000 := by
  induction l with
  | nil => simp [walkLength]
  | cons a r ih =>
    cases r with
    | nil => simp [walkLength]
    | cons b r =>
      simp only [List.map_cons] at ih ⊢
      unfold walkLength
      rw [ih, add_div]
      congr 1
      unfold planeDist
      rw [Complex.norm_eq_sqrt_sq_add_sq]
      simp only [Coord.pt, Complex.sub_re, Complex.sub_im]
      push_cast
      norm_num

theorem length_line (l : List ℂ) : walkLength lineLength l =
    walkLength (fun u v => ‖u - v‖) l / 1000000 := by
  induction l with
  | nil => simp [walkLength]
  | cons a r ih =>
    cases r with
    | nil => simp [walkLength]
    | cons b r =>
      unfold walkLength
      rw [ih, add_div]
      rfl

theorem unmap_pt {S : Set Coord} (l : List ℂ) (h : ∀ x ∈ l, x ∈ Coord.pt '' S) :
    ∃ r : List Coord, l = r.map Coord.pt ∧ ∀ v ∈ r, v ∈ S := by
  induction l with
  | nil => exact ⟨[], rfl, by simp⟩
  | cons x t ih =>
    obtain ⟨v, hv, rfl⟩ := h x List.mem_cons_self
    obtain ⟨r, rfl, hr⟩ := ih fun y hy => h y (List.mem_cons_of_mem _ hy)
    exact ⟨v :: r, rfl, by simpa using ⟨hv, hr⟩⟩

/-- A chain all of whose inner members satisfy `P` has only links with an end that does. -/
theorem chain_inner {P : Coord → Prop} {R : Coord → Coord → Prop} (d : Coord) (r : List Coord)
    (v : Coord) (hv : P v) (hr : ∀ x ∈ r, P x) (h : (v :: (r ++ [d])).IsChain R) :
    (v :: (r ++ [d])).IsChain fun x y => R x y ∧ (P x ∨ P y) := by
  induction r generalizing v with
  | nil =>
    simp only [List.nil_append, List.isChain_cons_cons, List.isChain_singleton, and_true] at h ⊢
    exact ⟨h, Or.inl hv⟩
  | cons x t ih =>
    rw [List.cons_append, List.isChain_cons_cons] at h ⊢
    exact ⟨⟨h.1, Or.inl hv⟩, ih x (hr x List.mem_cons_self)
      (fun y hy => hr y (List.mem_cons_of_mem _ hy)) h.2⟩

/-- A list with different first and last members. -/
theorem first_last {α : Type} {a c : α} (hne : a ≠ c) {l : List α} (h1 : l.head? = some a)
    (h2 : l.getLast? = some c) : ∃ m, l = a :: (m ++ [c]) := by
  cases l with
  | nil => simp at h1
  | cons x t =>
    obtain rfl : x = a := by simpa using h1
    rcases List.eq_nil_or_concat' t with rfl | ⟨m, y, rfl⟩
    · simp at h2
      exact absurd h2 hne
    · refine ⟨m, ?_⟩
      rw [← List.cons_append, List.getLast?_append] at h2
      simp at h2
      rw [h2]

/-- A course over the sea between two different points, pulled tight: it leads by vertices only, the
lines keep to the sea and have no vertices in between, and it is no longer. -/
theorem taut {ps : List (List Coord)} {land : List Coord → Set ℂ}
    (hA : ∀ p ∈ ps, Encloses p (land p)) {s d : Coord} (hne : s ≠ d) {course : List ℂ}
    (hc : IsWalk (AtSea (⋃ p ∈ ps, land p)) s.pt d.pt course) :
    ∃ r : List Coord, (∀ v ∈ r, v ∈ ps.flatten) ∧
      ((s :: (r ++ [d])).IsChain fun a b => a ≠ b ∧ (∀ p ∈ ps, AtSea (land p) a.pt b.pt) ∧
        ∀ v ∈ ps.flatten, v.pt ∉ openSegment ℝ a.pt b.pt) ∧
      walkLength (fun u v => planeDist u v 0) (s :: (r ++ [d])) ≤ walkLength lineLength course := by
  classical
  have hne' : s.pt ≠ d.pt := fun h => hne (pt_inj h)
  obtain ⟨h1, h2, h3⟩ := hc
  obtain ⟨m, rfl⟩ := first_last hne' h1 h2
  have h3' : (s.pt :: (m ++ [d.pt])).IsChain fun u w => ∀ p ∈ ps, AtSea (land p) u w := by
    refine h3.imp fun u w h p hp z hz hl => h z hz ?_
    exact Set.mem_iUnion₂.2 ⟨p, hp, hl⟩
  set V : Finset ℂ := (ps.flatten.map Coord.pt).toFinset with hVdef
  have hV : ∀ v, v ∈ ps.flatten → v.pt ∈ V := fun v hv =>
    List.mem_toFinset.2 (List.mem_map.2 ⟨v, hv, rfl⟩)
  have t1 := pull_tight hA V (fun p hp v hv => hV v (List.mem_flatten.2 ⟨p, hp, hv⟩)) _ _ _ h3'
  obtain ⟨l, k1, k2, k3⟩ := (split_chain (fun a b u w h hu hw p hp => (h p hp).sub hu hw) V _ _
    t1).resolve_right hne'
  obtain ⟨r, rfl, hr⟩ := unmap_pt (S := {v | v ∈ ps.flatten}) l (by
    intro x hx
    have := k1 x hx
    rw [hVdef, Finset.mem_coe, List.mem_toFinset, List.mem_map] at this
    obtain ⟨v, hv, rfl⟩ := this
    exact ⟨v, hv, rfl⟩)
  have emap : s.pt :: (r.map Coord.pt ++ [d.pt]) = (s :: (r ++ [d])).map Coord.pt := by simp
  rw [emap] at k2 k3
  rw [List.isChain_map] at k2
  refine ⟨r, hr, k2.imp ?_, ?_⟩
  · rintro a b ⟨n1, n2, n3⟩
    exact ⟨fun h => n1 (by rw [h]), n2, fun v hv => n3 _ (hV v hv)⟩
  · rw [length_pt, length_line]
    exact div_le_div_of_nonneg_right k3 (by norm_num)

/-- **C74** Any course over the sea between two different points, of straight lines with turns at
any places, is no shorter than some chain of sight lines by vertices; unless the two points see each
other. -/
theorem C74_tight (ps : List (List Coord)) (land : List Coord → Set ℂ)
    (hA : ∀ p ∈ ps, Encloses p (land p))
    (hres : ∀ a v b, CornerOf ps a v b → CornerResolved a v b) (s d : Coord) (hne : s ≠ d)
    (hin : ∀ e, EdgeOf ps e → ∀ v, v = s ∨ v = d ∨ v ∈ ps.flatten → OnSeg e v.lon v.lat →
      v = e.p ∨ v = e.q)
    (course : List ℂ) (hc : IsWalk (AtSea (⋃ p ∈ ps, land p)) s.pt d.pt course) :
    (Sees ps s d ∧ Sees ps d s ∧ planeDist s d 0 ≤ walkLength lineLength course) ∨
      ∃ chain, IsWalk (SightLeg ps) s d chain ∧
        (∀ v ∈ chain, v = s ∨ v = d ∨ v ∈ ps.flatten) ∧
        walkLength (fun u v => planeDist u v 0) chain ≤ walkLength lineLength course := by
  obtain ⟨r, hr, k2, hlen⟩ := taut hA hne hc
  have hmem : ∀ v ∈ s :: (r ++ [d]), v = s ∨ v = d ∨ v ∈ ps.flatten := by
    intro v hv
    simp only [List.mem_cons, List.mem_append, List.not_mem_nil, or_false] at hv
    rcases hv with h | h | h
    · exact Or.inl h
    · exact Or.inr (Or.inr (hr v h))
    · exact Or.inr (Or.inl h)
  -- the links are lines of sight
  have sight : ∀ a b : Coord, (a = s ∨ a = d ∨ a ∈ ps.flatten) →
      (b = s ∨ b = d ∨ b ∈ ps.flatten) →
      (a ≠ b ∧ (∀ p ∈ ps, AtSea (land p) a.pt b.pt) ∧
        ∀ v ∈ ps.flatten, v.pt ∉ openSegment ℝ a.pt b.pt) →
      a ≠ b ∧ Sees ps a b ∧ Sees ps b a := by
    rintro a b ha hb ⟨hab, n2, hb'⟩
    refine ⟨hab, sees_of_sea hA hres hab n2 hb' fun e he => hin e he a ha,
      sees_of_sea hA hres hab.symm (fun p hp => (n2 p hp).symm) ?_ fun e he => hin e he b hb⟩
    rw [openSegment_symm]
    exact hb'
  have k4 : (s :: (r ++ [d])).IsChain fun a b => a ≠ b ∧ Sees ps a b ∧ Sees ps b a := by
    exact List.IsChain.imp_of_mem_imp (fun a b ha hb h => sight a b (hmem a ha) (hmem b hb) h) k2
  cases r with
  | nil =>
    left
    simp only [List.nil_append, List.isChain_cons_cons, List.isChain_singleton, and_true] at k4
    refine ⟨k4.2.1, k4.2.2, ?_⟩
    simpa [walkLength] using hlen
  | cons v r =>
    right
    refine ⟨s :: (v :: r ++ [d]), ⟨rfl, ?_, ?_⟩, hmem, hlen⟩
    · rw [← List.cons_append, List.getLast?_append]
      simp
    · rw [List.cons_append, List.isChain_cons_cons] at k4 ⊢
      have hv := hr v List.mem_cons_self
      refine ⟨⟨k4.1.1, k4.1.2.1, k4.1.2.2, Or.inr hv⟩, ?_⟩
      refine (chain_inner (P := (· ∈ ps.flatten)) d r v hv
        (fun x hx => hr x (List.mem_cons_of_mem _ hx)) k4.2).imp ?_
      rintro x y ⟨⟨q1, q2, q3⟩, q4⟩
      exact ⟨q1, q2, q3, q4⟩

/-- Where a line last enters an open region it started outside of. -/
theorem last_entry {A : Set ℂ} (hA : IsOpen A) {a b : ℂ} (ha : a ∉ A) {t0 : ℝ} (h0 : 0 ≤ t0)
    (hz : (1 - t0) • a + t0 • b ∈ A) :
    ∃ t1, 0 ≤ t1 ∧ t1 < t0 ∧ (1 - t1) • a + t1 • b ∈ frontier A ∧
      ∀ t, t1 < t → t ≤ t0 → (1 - t) • a + t • b ∈ A := by
  have hcont : Continuous fun t : ℝ => (1 - t) • a + t • b := by fun_prop
  have hcomp : IsCompact (Set.Icc 0 t0 ∩ (fun t : ℝ => (1 - t) • a + t • b) ⁻¹' Aᶜ) :=
    isCompact_Icc.inter_right (hA.isClosed_compl.preimage hcont)
  obtain ⟨t1, ⟨⟨k1, k2⟩, k3⟩, k4⟩ := hcomp.exists_isGreatest ⟨0, ⟨le_rfl, h0⟩, by simpa using ha⟩
  have k3 : (1 - t1) • a + t1 • b ∉ A := k3
  have hlt : t1 < t0 := lt_of_le_of_ne k2 fun h => k3 (h ▸ hz)
  have hin : ∀ t, t1 < t → t ≤ t0 → (1 - t) • a + t • b ∈ A := by
    intro t ht ht'
    by_contra hc
    have := k4 ⟨⟨by linarith, ht'⟩, hc⟩
    linarith
  refine ⟨t1, k1, hlt, ?_, hin⟩
  rw [hA.frontier_eq]
  refine ⟨?_, k3⟩
  rw [Metric.mem_closure_iff]
  intro ε hε
  obtain ⟨δ, d0, d1, d2⟩ := near_point ((1 - t1) • a + t1 • b) ((1 - t0) • a + t0 • b) hε
  refine ⟨_, ?_, by rw [dist_comm, dist_eq_norm]; exact d2⟩
  have e : (1 - δ) • ((1 - t1) • a + t1 • b) + δ • ((1 - t0) • a + t0 • b) =
      (1 - ((1 - δ) * t1 + δ * t0)) • a + ((1 - δ) * t1 + δ * t0) • b := by
    apply Complex.ext
    · simp only [Complex.add_re, Complex.smul_re, smul_eq_mul]; ring
    · simp only [Complex.add_im, Complex.smul_im, smul_eq_mul]; ring
  rw [e]
  exact hin _ (by nlinarith) (by nlinarith)

/-- Points of the edges are not on land. -/
theorem edge_not_land {p : List Coord} {A : Set ℂ} (hA : Encloses p A) {e : Seg}
    (he : EdgeOf [p] e) (hne : e.p ≠ e.q) {z : ℂ} (hz : z ∈ openSegment ℝ e.p.pt e.q.pt) :
    z ∉ A := by
  intro hzA
  obtain ⟨ε, hε, hr⟩ := hA.right e he z hz
  obtain ⟨η, hη, hb⟩ := Metric.isOpen_iff.1 hA.isOpen z hzA
  have tz : turn e.p.pt e.q.pt z = 0 := by
    obtain ⟨r, s, -, -, hrs, rfl⟩ := hz
    rw [turn_comb2 _ _ _ _ hrs, turn_first, turn_second]
    ring
  -- a point to the right of the edge
  set n : ℂ := ⟨(e.q.lat : ℝ) - e.p.lat, -((e.q.lon : ℝ) - e.p.lon)⟩ with hn
  have tn : turn e.p.pt e.q.pt (z + n) < 0 := by
    have : turn e.p.pt e.q.pt (z + n) = turn e.p.pt e.q.pt z -
        (((e.q.lon : ℝ) - e.p.lon) ^ 2 + ((e.q.lat : ℝ) - e.p.lat) ^ 2) := by
      simp only [turn, Coord.pt, Complex.add_re, Complex.add_im, hn]
      ring
    rw [this, tz]
    have : 0 < ((e.q.lon : ℝ) - e.p.lon) ^ 2 + ((e.q.lat : ℝ) - e.p.lat) ^ 2 := by
      by_contra hc
      push Not at hc
      apply hne
      have h1 : (e.q.lon : ℝ) - e.p.lon = 0 := by nlinarith [sq_nonneg ((e.q.lat : ℝ) - e.p.lat), sq_nonneg ((e.q.lon : ℝ) - e.p.lon)]
      have h2 : (e.q.lat : ℝ) - e.p.lat = 0 := by nlinarith [sq_nonneg ((e.q.lat : ℝ) - e.p.lat), sq_nonneg ((e.q.lon : ℝ) - e.p.lon)]
      refine Coord.ext' ?_ ?_
      · have : (e.p.lon : ℝ) = e.q.lon := by linarith
        exact_mod_cast this
      · have : (e.p.lat : ℝ) = e.q.lat := by linarith
        exact_mod_cast this
    linarith
  obtain ⟨δ, d0, d1, d2⟩ := near_point z (z + n) (lt_min hε hη)
  have ht : turn e.p.pt e.q.pt ((1 - δ) • z + δ • (z + n)) < 0 := by
    rw [turn_comb2 _ _ _ _ (by ring), tz]
    have := mul_neg_of_pos_of_neg d0 tn
    linarith
  refine hr _ (d2.trans_le (min_le_left _ _)) ht (hb ?_)
  rw [Metric.mem_ball, dist_eq_norm]
  exact d2.trans_le (min_le_right _ _)

/-- A clear line has no point of the plane but its end in common with the edge. -/
theorem clear_real {a b : Coord} {e : Seg} (h : Clear a b e) (hab : a ≠ b) (hne : e.p ≠ e.q) {z : ℂ}
    (h1 : z ∈ segment ℝ a.pt b.pt) (h2 : z ∈ segment ℝ e.p.pt e.q.pt) : z = b.pt := by
  obtain ⟨t', t, t0', t0, ht, rfl⟩ := h1
  obtain ⟨u', u, u0', u0, hu, hzu⟩ := h2
  obtain rfl : t' = 1 - t := by linarith
  obtain rfl : u' = 1 - u := by linarith
  have q1 := congrArg Complex.re hzu
  have q2 := congrArg Complex.im hzu
  simp only [Coord.pt, Complex.add_re, Complex.add_im, Complex.smul_re, Complex.smul_im,
    smul_eq_mul] at q1 q2
  have hd : 0 < ((e.q.lon : ℚ) - e.p.lon) ^ 2 + ((e.q.lat : ℚ) - e.p.lat) ^ 2 := by
    by_contra hc
    push Not at hc
    apply hne
    have h1 : (e.q.lon : ℚ) - e.p.lon = 0 := by nlinarith [sq_nonneg ((e.q.lat : ℚ) - e.p.lat), sq_nonneg ((e.q.lon : ℚ) - e.p.lon)]
    have h2 : (e.q.lat : ℚ) - e.p.lat = 0 := by nlinarith [sq_nonneg ((e.q.lat : ℚ) - e.p.lat), sq_nonneg ((e.q.lon : ℚ) - e.p.lon)]
    refine Coord.ext' ?_ ?_
    · have : (e.p.lon : ℚ) = e.q.lon := by linarith
      exact_mod_cast this
    · have : (e.p.lat : ℚ) = e.q.lat := by linarith
      exact_mod_cast this
  have hdr : 0 < ((e.q.lon : ℝ) - e.p.lon) ^ 2 + ((e.q.lat : ℝ) - e.p.lat) ^ 2 := by
    exact_mod_cast hd
  -- the common point is rational if its place on the line is
  have rational : ∀ τ : ℚ, t = τ → (1 - t) • a.pt + t • b.pt = b.pt := by
    rintro τ rfl
    set x : ℚ := a.lon + τ * (b.lon - a.lon) with hx
    set y : ℚ := a.lat + τ * (b.lat - a.lat) with hy
    set μ : ℚ := ((x - e.p.lon) * (e.q.lon - e.p.lon) + (y - e.p.lat) * (e.q.lat - e.p.lat)) /
      ((e.q.lon - e.p.lon) ^ 2 + (e.q.lat - e.p.lat) ^ 2) with hμ
    have xr : (x : ℝ) = (1 - τ) * a.lon + τ * b.lon := by rw [hx]; push_cast; ring
    have yr : (y : ℝ) = (1 - τ) * a.lat + τ * b.lat := by rw [hy]; push_cast; ring
    have μr : (μ : ℝ) = u := by
      rw [hμ]
      push_cast
      rw [div_eq_iff hdr.ne', xr, yr, ← q1, ← q2]
      ring
    have c := h x y ⟨μ, by exact_mod_cast μr ▸ u0, by
        have : (μ : ℝ) ≤ 1 := by rw [μr]; linarith
        exact_mod_cast this, ?_, ?_⟩ ⟨τ, by exact_mod_cast t0, by
        have : (τ : ℝ) ≤ 1 := by linarith
        exact_mod_cast this, hx, hy⟩
    · have c1 : (x : ℝ) = b.lon := by exact_mod_cast congrArg (fun q : ℚ => (q : ℝ)) c.1
      have c2 : (y : ℝ) = b.lat := by exact_mod_cast congrArg (fun q : ℚ => (q : ℝ)) c.2
      rw [← seg_point a b hx hy]
      exact Complex.ext c1 c2
    · have : (x : ℝ) = e.p.lon + μ * (e.q.lon - e.p.lon) := by rw [μr, xr, ← q1]; ring
      exact_mod_cast this
    · have : (y : ℝ) = e.p.lat + μ * (e.q.lat - e.p.lat) := by rw [μr, yr, ← q2]; ring
      exact_mod_cast this
  have hP : (1 - t) * (area2 e.p e.q a : ℤ) + t * (area2 e.p e.q b : ℤ) = 0 := by
    rw [← turn_pt, ← turn_pt, ← turn_comb2 _ _ _ _ (by ring), ← hzu, turn_comb2 _ _ _ _ (by ring),
      turn_first, turn_second]
    ring
  by_cases hPQ : area2 e.p e.q a = area2 e.p e.q b
  swap
  · apply rational (area2 e.p e.q a / (area2 e.p e.q a - area2 e.p e.q b))
    have hPQ' : ((area2 e.p e.q a : ℤ) : ℝ) - (area2 e.p e.q b : ℤ) ≠ 0 := by
      rw [sub_ne_zero]; exact_mod_cast hPQ
    push_cast
    rw [eq_div_iff hPQ']
    linear_combination -hP
  -- all in one line
  have ka : area2 e.p e.q a = 0 := by
    have : ((area2 e.p e.q a : ℤ) : ℝ) = 0 := by rw [← hPQ] at hP; linear_combination hP
    exact_mod_cast this
  have kb : area2 e.p e.q b = 0 := hPQ ▸ ka
  obtain ⟨r1, a1, a2⟩ := line_share hne ka
  obtain ⟨r2, b1, b2⟩ := line_share hne kb
  have A1 : (a.lon : ℝ) = e.p.lon + r1 * (e.q.lon - e.p.lon) := by exact_mod_cast congrArg (fun q : ℚ => (q : ℝ)) a1
  have A2 : (a.lat : ℝ) = e.p.lat + r1 * (e.q.lat - e.p.lat) := by exact_mod_cast congrArg (fun q : ℚ => (q : ℝ)) a2
  have B1 : (b.lon : ℝ) = e.p.lon + r2 * (e.q.lon - e.p.lon) := by exact_mod_cast congrArg (fun q : ℚ => (q : ℝ)) b1
  have B2 : (b.lat : ℝ) = e.p.lat + r2 * (e.q.lat - e.p.lat) := by exact_mod_cast congrArg (fun q : ℚ => (q : ℝ)) b2
  have hu' : u = r1 + t * (r2 - r1) := by
    have : (u - (r1 + t * (r2 - r1))) *
        (((e.q.lon : ℝ) - e.p.lon) ^ 2 + ((e.q.lat : ℝ) - e.p.lat) ^ 2) = 0 := by
      rw [A1, B1] at q1
      rw [A2, B2] at q2
      linear_combination ((e.q.lon : ℝ) - e.p.lon) * q1 + ((e.q.lat : ℝ) - e.p.lat) * q2
    have := (mul_eq_zero.1 this).resolve_right hdr.ne'
    linarith
  have hrne : r1 ≠ r2 := by
    rintro rfl
    refine hab (Coord.ext' ?_ ?_)
    · have : (a.lon : ℚ) = b.lon := by rw [a1, b1]
      exact_mod_cast this
    · have : (a.lat : ℚ) = b.lat := by rw [a2, b2]
      exact_mod_cast this
  -- an end of the edge at the place `ρ`
  have hend : ∀ (c : Coord) (ρ : ℚ), ρ = 0 ∨ ρ = 1 → (c.lon : ℚ) = e.p.lon + ρ * (e.q.lon - e.p.lon) →
      (c.lat : ℚ) = e.p.lat + ρ * (e.q.lat - e.p.lat) → 0 ≤ (ρ - r1) / (r2 - r1) →
      (ρ - r1) / (r2 - r1) ≤ 1 → ρ = r2 := by
    intro c ρ hρ c1 c2 g0 g1
    have hrd : r2 - r1 ≠ 0 := sub_ne_zero.2 hrne.symm
    have := h c.lon c.lat ⟨ρ, by rcases hρ with rfl | rfl <;> norm_num,
      by rcases hρ with rfl | rfl <;> norm_num, c1, c2⟩ ⟨(ρ - r1) / (r2 - r1), g0, g1, by
        simp only
        rw [a1, b1, c1]; field_simp; ring, by
        simp only
        rw [a2, b2, c2]; field_simp; ring⟩
    rw [c1, c2, b1, b2] at this
    have k : (ρ - r2) * (((e.q.lon : ℚ) - e.p.lon) ^ 2 + ((e.q.lat : ℚ) - e.p.lat) ^ 2) = 0 := by
      linear_combination ((e.q.lon : ℚ) - e.p.lon) * this.1 + ((e.q.lat : ℚ) - e.p.lat) * this.2
    have := (mul_eq_zero.1 k).resolve_right hd.ne'
    linarith
  have tone : t ≤ 1 := by linarith
  rcases lt_or_ge r1 0 with hr | hr
  · have hr' : (r1 : ℝ) < 0 := by exact_mod_cast hr
    have h2 : (0 : ℝ) ≤ r2 := by
      by_contra hc
      push Not at hc
      rcases t0.lt_or_eq with h5 | rfl
      · have := mul_neg_of_pos_of_neg h5 hc
        have := mul_nonpos_of_nonneg_of_nonpos t0' hr'.le
        linarith
      · linarith
    have h2' : 0 ≤ r2 := by exact_mod_cast h2
    have hpos : 0 < r2 - r1 := by linarith
    have e0 := hend e.p 0 (Or.inl rfl) (by ring) (by ring) (div_nonneg (by linarith) hpos.le)
      (by rw [div_le_one hpos]; linarith)
    have : t = ((1 : ℚ) : ℝ) := by
      rw [← e0] at hu'
      push_cast at hu' ⊢
      have : r1 * (1 - t) = u := by rw [hu']; ring
      have : (1 - t) = 0 := by
        have h5 : (r1 : ℝ) * (1 - t) ≤ 0 := mul_nonpos_of_nonpos_of_nonneg hr'.le (by linarith)
        have h6 : (r1 : ℝ) * (1 - t) = 0 := by linarith
        exact (mul_eq_zero.1 h6).resolve_left hr'.ne
      linarith
    exact rational 1 this
  rcases le_or_gt r1 1 with hr' | hr'
  · have := h a.lon a.lat ⟨r1, hr, hr', a1, a2⟩ ⟨0, le_rfl, zero_le_one, by ring, by ring⟩
    exact absurd (Coord.ext' (by exact_mod_cast this.1) (by exact_mod_cast this.2)) hab
  · have hr'' : (1 : ℝ) < r1 := by exact_mod_cast hr'
    have h2 : (r2 : ℝ) ≤ 1 := by
      by_contra hc
      push Not at hc
      rcases t0.lt_or_eq with h5 | rfl
      · have := mul_pos h5 (sub_pos.2 hc)
        have := mul_nonneg t0' (sub_pos.2 hr'').le
        linarith
      · linarith
    have h2' : r2 ≤ 1 := by exact_mod_cast h2
    have hneg : r2 - r1 < 0 := by linarith
    have e0 := hend e.q 1 (Or.inr rfl) (by ring) (by ring)
      (div_nonneg_of_nonpos (by linarith) hneg.le) (by rw [div_le_one_of_neg hneg]; linarith)
    have : t = ((1 : ℚ) : ℝ) := by
      rw [← e0] at hu'
      push_cast at hu' ⊢
      have h6 : ((r1 : ℝ) - 1) * (1 - t) = 0 := by
        have : 0 ≤ ((r1 : ℝ) - 1) * (1 - t) := mul_nonneg (by linarith) (by linarith)
        nlinarith
      have := (mul_eq_zero.1 h6).resolve_left (by linarith)
      linarith
    exact rational 1 this

/-- A line of sight is over the sea. -/
theorem sea_of_sees {ps : List (List Coord)} {land : List Coord → Set ℂ}
    (hA : ∀ p ∈ ps, Encloses p (land p))
    (hres : ∀ a v b, CornerOf ps a v b → CornerResolved a v b) {v w : Coord} (hvw : v ≠ w)
    (h : Sees ps v w) {p : List Coord} (hp : p ∈ ps) (hv : v.pt ∉ land p) :
    AtSea (land p) v.pt w.pt := by
  obtain ⟨hclear, hcorner⟩ := h
  have up : ∀ a v b, CornerOf [p] a v b → CornerOf ps a v b := by
    rintro a v b ⟨q, hq, hrest⟩
    obtain rfl := List.mem_singleton.1 hq
    exact ⟨q, hp, hrest⟩
  have upE : ∀ e, EdgeOf [p] e → EdgeOf ps e := by
    rintro e ⟨q, hq, hrest⟩
    obtain rfl := List.mem_singleton.1 hq
    exact ⟨q, hp, hrest⟩
  have hdist : ∀ a v b, CornerOf [p] a v b → a ≠ v ∧ v ≠ b := by
    intro a v b hc
    have := area_ne (hres a v b (up _ _ _ hc))
    constructor
    · rintro rfl
      apply this
      unfold area2
      ring
    · rintro rfl
      apply this
      unfold area2
      ring
  have hEne : ∀ e, EdgeOf [p] e → e.p ≠ e.q := by
    intro e he
    obtain ⟨⟨a, ha⟩, -⟩ := edge_corner he
    exact (hdist _ _ _ ha).2
  rintro z ⟨t0', t0, h0', h0, hs, rfl⟩ hz
  obtain rfl : t0' = 1 - t0 := by linarith
  obtain ⟨t1, k0, k1, k2, k3⟩ := last_entry (hA p hp).isOpen hv h0 hz
  obtain ⟨e, he, hze⟩ := (hA p hp).border _ k2
  have hzs : (1 - t1) • v.pt + t1 • w.pt ∈ segment ℝ v.pt w.pt :=
    ⟨1 - t1, t1, by linarith, k0, by ring, rfl⟩
  -- what happens at a corner
  have main : ∀ a b, CornerOf [p] a v b → (e = ⟨a, v⟩ ∨ e = ⟨v, b⟩) → False := by
    intro a b hc hee
    obtain ⟨ea, eb⟩ := Vistree.corner_edges hc
    have hD := area_ne (hres a v b (up _ _ _ hc))
    obtain ⟨x, y, hxD, hyD, e1, e2, huniq⟩ := shares hD w
    obtain ⟨-, hout | ⟨k, hk0, hk1, hray⟩⟩ := hcorner a b (up _ _ _ hc)
    swap
    · -- along an edge
      obtain ⟨c, hc1, hc2⟩ : ∃ c, OnRay v c w k ∧
          ∀ z ∈ openSegment ℝ v.pt c.pt, z ∉ land p := by
        rcases hray with hr | hr
        · refine ⟨a, hr, fun z hz => edge_not_land (hA p hp) ea (hEne _ ea) ?_⟩
          rw [openSegment_symm] at hz
          exact hz
        · exact ⟨b, hr, fun z hz => edge_not_land (hA p hp) eb (hEne _ eb) hz⟩
      have hk0' : (0 : ℝ) < k := by exact_mod_cast hk0
      have hk1' : (k : ℝ) ≤ 1 := by exact_mod_cast hk1
      have r1 : (w.lon : ℝ) = v.lon + k * (c.lon - v.lon) := by
        have : (w.lon : ℚ) = v.lon + k * (c.lon - v.lon) := by linarith [hc1.1]
        exact_mod_cast congrArg (fun q : ℚ => (q : ℝ)) this
      have r2 : (w.lat : ℝ) = v.lat + k * (c.lat - v.lat) := by
        have : (w.lat : ℚ) = v.lat + k * (c.lat - v.lat) := by linarith [hc1.2]
        exact_mod_cast congrArg (fun q : ℚ => (q : ℝ)) this
      have hm : 0 < (t1 + t0) / 2 := by linarith
      have hm1 : (t1 + t0) / 2 < 1 := by linarith
      refine hc2 _ ?_ (k3 ((t1 + t0) / 2) (by linarith) (by linarith))
      refine ⟨1 - (t1 + t0) / 2 * k, (t1 + t0) / 2 * k, by nlinarith, by positivity, by ring, ?_⟩
      apply Complex.ext
      · simp only [Coord.pt, Complex.add_re, Complex.smul_re, smul_eq_mul, r1]
        ring
      · simp only [Coord.pt, Complex.add_im, Complex.smul_im, smul_eq_mul, r2]
        ring
    have sgn : (0 < area2 a v b ∧ ¬ (0 ≤ x ∧ 0 ≤ y)) ∨ (area2 a v b < 0 ∧ 0 < x ∧ 0 < y) := by
      rcases hout with ⟨d1, d2⟩ | ⟨d1, x', y', d2, d3, d4, d5⟩
      · exact Or.inl ⟨d1, fun hh => d2 ⟨x, y, hh.1, hh.2, e1, e2⟩⟩
      · obtain ⟨rfl, rfl⟩ := huniq x' y' d4 d5
        exact Or.inr ⟨d1, d2, d3⟩
    by_cases ht1 : t1 = 0
    · -- starting between the edges
      subst ht1
      obtain ⟨ε, hε, ho⟩ := (hA p hp).outside a v b hc
      obtain ⟨δ, d0, d1, d2⟩ := near_point v.pt ((1 - t0) • v.pt + t0 • w.pt) hε
      have e : (1 - δ) • v.pt + δ • ((1 - t0) • v.pt + t0 • w.pt) =
          (1 - δ * t0) • v.pt + (δ * t0) • w.pt := by
        apply Complex.ext
        · simp only [Complex.add_re, Complex.smul_re, smul_eq_mul]; ring
        · simp only [Complex.add_im, Complex.smul_im, smul_eq_mul]; ring
      have hpos : 0 < δ * t0 := mul_pos d0 k1
      rw [e] at d2
      refine ho _ d2 ?_ (k3 _ hpos (by nlinarith))
      have q1 : turn a.pt v.pt ((1 - δ * t0) • v.pt + (δ * t0) • w.pt) =
          δ * t0 * (area2 a v w : ℤ) := by
        rw [turn_comb2 _ _ _ _ (by ring), turn_second, turn_pt]; ring
      have q2 : turn v.pt b.pt ((1 - δ * t0) • v.pt + (δ * t0) • w.pt) =
          δ * t0 * (area2 v b w : ℤ) := by
        rw [turn_comb2 _ _ _ _ (by ring), turn_first, turn_pt]; ring
      have mn : ∀ r : ℝ, δ * t0 * r < 0 ↔ r < 0 := fun r =>
        ⟨fun h => by
          by_contra hc
          have := mul_nonneg hpos.le (not_lt.1 hc)
          linarith, fun h => mul_neg_of_pos_of_neg hpos h⟩
      unfold Outof
      rw [q1, q2, turn_pt, mn, mn]
      have c1 : ((area2 a v w : ℤ) : ℝ) < 0 ↔ y * area2 a v b < 0 := by
        rw [hyD]; exact_mod_cast Iff.rfl
      have c2 : ((area2 v b w : ℤ) : ℝ) < 0 ↔ x * area2 a v b < 0 := by
        rw [hxD]; exact_mod_cast Iff.rfl
      rw [c1, c2]
      rcases sgn with ⟨d1, d2⟩ | ⟨d1, d2, d3⟩
      · have d1r : (0 : ℝ) < (area2 a v b : ℤ) := by exact_mod_cast d1
        have d1q : (0 : ℚ) < (area2 a v b : ℤ) := by exact_mod_cast d1
        rw [if_pos d1r]
        rcases not_and_or.1 d2 with hx | hy
        · exact Or.inr (mul_neg_of_neg_of_pos (not_le.1 hx) d1q)
        · exact Or.inl (mul_neg_of_neg_of_pos (not_le.1 hy) d1q)
      · have d1r : ¬ (0 : ℝ) < (area2 a v b : ℤ) := by
          have : ((area2 a v b : ℤ) : ℝ) < 0 := by exact_mod_cast d1
          linarith
        have d1q : ((area2 a v b : ℤ) : ℚ) < 0 := by exact_mod_cast d1
        rw [if_neg d1r]
        exact ⟨mul_neg_of_pos_of_neg d3 d1q, mul_neg_of_pos_of_neg d2 d1q⟩
    · -- leaving an edge means having gone along it
      have k0' : 0 < t1 := lt_of_le_of_ne k0 (Ne.symm ht1)
      have both : ∀ c : Coord, (1 - t1) • v.pt + t1 • w.pt ∈ segment ℝ v.pt c.pt →
          ∃ κ : ℝ, 0 ≤ κ ∧ (w.lon : ℝ) - v.lon = κ * (c.lon - v.lon) ∧
            (w.lat : ℝ) - v.lat = κ * (c.lat - v.lat) := by
        rintro c ⟨s', s, s0', s0, hss, hse⟩
        obtain rfl : s' = 1 - s := by linarith
        have q1 := congrArg Complex.re hse
        have q2 := congrArg Complex.im hse
        simp only [Coord.pt, Complex.add_re, Complex.add_im, Complex.smul_re, Complex.smul_im,
          smul_eq_mul] at q1 q2
        refine ⟨s / t1, by positivity, ?_, ?_⟩
        · field_simp
          linear_combination -q1
        · field_simp
          linear_combination -q2
      have hxr : (x : ℝ) * (area2 a v b : ℤ) = (area2 v b w : ℤ) := by exact_mod_cast congrArg (fun q : ℚ => (q : ℝ)) hxD
      have hyr : (y : ℝ) * (area2 a v b : ℤ) = (area2 a v w : ℤ) := by exact_mod_cast congrArg (fun q : ℚ => (q : ℝ)) hyD
      have hDr : ((area2 a v b : ℤ) : ℝ) ≠ 0 := by exact_mod_cast hD
      have exy : (x : ℝ) = 0 ∧ 0 ≤ (y : ℝ) ∨ 0 ≤ (x : ℝ) ∧ (y : ℝ) = 0 := by
        rcases hee with rfl | rfl
        · right
          rw [segment_symm] at hze
          obtain ⟨κ, κ0, g1, g2⟩ := both a hze
          have hx : (x : ℝ) = κ := by
            apply mul_right_cancel₀ hDr
            rw [hxr]
            unfold area2
            push_cast
            linear_combination (b.lon - v.lon : ℝ) * g2 - (b.lat - v.lat : ℝ) * g1
          have hy : (y : ℝ) = 0 := by
            apply mul_right_cancel₀ hDr
            rw [hyr]
            unfold area2
            push_cast
            linear_combination (v.lon - a.lon : ℝ) * g2 - (v.lat - a.lat : ℝ) * g1
          rw [hx]
          exact ⟨κ0, hy⟩
        · left
          obtain ⟨κ, κ0, g1, g2⟩ := both b hze
          have hx : (x : ℝ) = 0 := by
            apply mul_right_cancel₀ hDr
            rw [hxr]
            unfold area2
            push_cast
            linear_combination (b.lon - v.lon : ℝ) * g2 - (b.lat - v.lat : ℝ) * g1
          have hy : (y : ℝ) = κ := by
            apply mul_right_cancel₀ hDr
            rw [hyr]
            unfold area2
            push_cast
            linear_combination (v.lon - a.lon : ℝ) * g2 - (v.lat - a.lat : ℝ) * g1
          rw [hy]
          exact ⟨hx, κ0⟩
      have exy' : x = 0 ∧ 0 ≤ y ∨ 0 ≤ x ∧ y = 0 := by exact_mod_cast exy
      rcases sgn with ⟨-, d2⟩ | ⟨-, d2, d3⟩
      · apply d2
        rcases exy' with ⟨h1, h2⟩ | ⟨h1, h2⟩
        · exact ⟨h1.ge, h2⟩
        · exact ⟨h1, h2.ge⟩
      · rcases exy' with ⟨h1, h2⟩ | ⟨h1, h2⟩
        · linarith
        · linarith
  obtain ⟨⟨a, ca⟩, b, cb⟩ := edge_corner he
  by_cases hep : v = e.p
  · subst hep
    exact main a e.q ca (Or.inr rfl)
  by_cases heq : v = e.q
  · subst heq
    exact main e.p b cb (Or.inl rfl)
  have := clear_real (hclear e (upE e he) hep heq) hvw (hEne e he) hzs hze
  have hne' : v.pt - w.pt ≠ 0 := sub_ne_zero.2 fun h => hvw (pt_inj h)
  have e5 : (1 - t1) • v.pt + t1 • w.pt - w.pt = (1 - t1) • (v.pt - w.pt) := by
    simp only [sub_smul, one_smul, smul_sub]; abel
  rw [← sub_eq_zero, e5] at this
  rcases smul_eq_zero.1 this with h | h
  · linarith
  · exact hne' h

/-- **C74** Chains of sight lines keep off the land, if no obstacle covers a vertex of another or an
endpoint. -/
theorem C74_sea (ps : List (List Coord)) (land : List Coord → Set ℂ)
    (hA : ∀ p ∈ ps, Encloses p (land p))
    (hres : ∀ a v b, CornerOf ps a v b → CornerResolved a v b) (s d : Coord) (chain : List Coord)
    (hw : IsWalk (SightLeg ps) s d chain) (hoff : ∀ v ∈ chain, v.pt ∉ ⋃ p ∈ ps, land p) :
    IsWalk (AtSea (⋃ p ∈ ps, land p)) s.pt d.pt (chain.map Coord.pt) ∧
      walkLength lineLength (chain.map Coord.pt) = walkLength (fun u v => planeDist u v 0) chain := by
  refine ⟨⟨?_, ?_, ?_⟩, by rw [length_line, length_pt]⟩
  · rw [List.head?_map, hw.1]; rfl
  · rw [List.getLast?_map, hw.2.1]; rfl
  · rw [List.isChain_map]
    refine List.IsChain.imp_of_mem_imp (fun a b ha _ h z hz hl => ?_) hw.2.2
    obtain ⟨p, hp, hl⟩ := Set.mem_iUnion₂.1 hl
    exact sea_of_sees hA hres h.1 h.2.1 hp
      (fun hc => hoff a ha (Set.mem_iUnion₂.2 ⟨p, hp, hc⟩)) z hz hl

/-- **C74** The path returned between points at sea that do not see each other is the straight line,
if the index finds nothing in its way, or is, up to rounding and the greediness weighting, at most as long as every course over the sea
this side of the meridian; and it is returned whenever there is such a course. -/
theorem C74_path {A : Arith Dbl} {w : Dbl} (hA : A.DoubleLike w none) (h0 : 0 ≤ w.1)
    (T : ℕ → Polygon.SumTree) (ps : List (List Coord))
    (scanner : Coord → Res (List (Coord × Bool))) (order : List Coord → List Coord) (E : Env)
    (s d : Coord) (h : Voyage T ps scanner order E s d) (hsize : ps.flatten.length ≤ 499998)
    (land : List Coord → Set ℂ) (hL : ∀ p ∈ ps, Encloses p (land p))
    (hres : ∀ a v b, CornerOf ps a v b → CornerResolved a v b) (hne : s ≠ d)
    (hin : ∀ e, EdgeOf ps e → ∀ v, v = s ∨ v = d ∨ v ∈ ps.flatten → OnSeg e v.lon v.lat →
      v = e.p ∨ v = e.q)
    (hsee : ¬ (Sees ps s d ∧ Sees ps d s))
    (course : List ℂ) (hc : IsWalk (AtSea (⋃ p ∈ ps, land p)) s.pt d.pt course)
    (allow : Bool) (r : Res (List Coord)) (hq : Query A E s d allow r) :
    ∃ path, r = .ok path ∧ (E.crossings ⟨s, d⟩ = [] ∧ path = [s, d] ∨ walkLength (legLength E) path ≤ (1 + 1 / 10 ^ 8) *
      (max 1 ((w.1 : ℚ) : ℝ) * walkLength lineLength course)) := by
  obtain ⟨h1, h2, -⟩ | ⟨chain, h1, h2, h3⟩ := C74_tight ps land hL hres s d hne hin course hc
  · exact absurd ⟨h1, h2⟩ hsee
  · obtain ⟨path, rfl, hp⟩ := voyage_length' hA T ps scanner order E s d h hsize chain h1 h2 h0 allow r
      hq
    refine ⟨path, rfl, hp.imp id fun hp => hp.trans ?_⟩
    gcongr

end Capi
