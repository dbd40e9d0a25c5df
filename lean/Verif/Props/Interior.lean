import Mathlib.Analysis.LocallyConvex.Separation
import Verif.Lemmas.SimpleCheck
import Verif.Props.ConvexSea
import Verif.Props.Polygon

/-!
# C89: every polygon that does not cross itself goes round land

C74 takes the land as given.  Here it is found: a ring without self-contact has on its left, once it
is stored counter-clockwise, exactly the points round which it goes.
-/

namespace Capi

open Jordan Polygon Visgraph ShortestPath

/-- A polygon in the form of a U. -/
def exU : List Coord := [⟨0, 0⟩, ⟨30000, 0⟩, ⟨30000, 30000⟩, ⟨20000, 30000⟩, ⟨20000, 10000⟩,
  ⟨10000, 10000⟩, ⟨10000, 30000⟩, ⟨0, 30000⟩]

/-- The same drawn clockwise, with a vertex on a straight side. -/
def exURing : List Coord := [⟨0, 30000⟩, ⟨10000, 30000⟩, ⟨10000, 10000⟩, ⟨20000, 10000⟩,
  ⟨20000, 30000⟩, ⟨30000, 30000⟩, ⟨30000, 0⟩, ⟨15000, 0⟩, ⟨0, 0⟩]

/-- **C89** A ring without self-contact, counter-clockwise, encloses the points round which it goes,
and encloses no other region. -/
theorem C89_encloses (p : List Coord) (h : SimpleRing p) (hA : 0 < twiceArea p) (A : Set ℂ) :
    Encloses p A ↔ A = Interior p := by
  refine ⟨fun hE => ?_, fun e => e ▸ simple_encloses h hA⟩
  have hI := simple_encloses h hA
  have hl := simple_loop h
  have hedge : ∀ i, EdgeOf [p] ⟨ringAt p i, ringAt p (i + 1)⟩ := by
    intro i
    have hn : 0 < p.length := by have := h.size; omega
    refine ⟨p, List.mem_singleton_self _, i % p.length, Nat.mod_lt _ hn, ?_⟩
    unfold ringAt
    rw [Nat.mod_mod, Nat.mod_add_mod]
  have hcorner : ∀ i, CornerOf [p] (ringAt p i) (ringAt p (i + 1)) (ringAt p (i + 2)) := by
    intro i
    have hn : 0 < p.length := by have := h.size; omega
    refine ⟨p, List.mem_singleton_self _, (i + 1) % p.length, Nat.mod_lt _ hn, ?_, ?_, ?_⟩
    · unfold ringAt
      congr 1
      rw [Nat.add_sub_assoc (by omega), Nat.mod_add_mod,
        show i + 1 + (p.length - 1) = i + p.length by omega, Nat.add_mod_right]
    · unfold ringAt
      rw [Nat.mod_mod]
    · unfold ringAt
      rw [Nat.mod_add_mod]
  -- the two sides of the edges and the two angles of the corners tell one region from another
  have same : ∀ B, Encloses p B → ∀ x, x ∈ B → x ∉ Coast p := by
    intro B hB x hx hc
    obtain ⟨δ, hδ, hball⟩ := Metric.isOpen_iff.1 hB.isOpen x hx
    obtain ⟨i, hi, hz⟩ := hc
    have hne : (ringAt p i).pt ≠ (ringAt p (i + 1)).pt := hl.ne i
    -- a place within the edge and in the ball
    obtain ⟨z, hz1, hz2⟩ : ∃ z ∈ openSegment ℝ (ringAt p i).pt (ringAt p (i + 1)).pt,
        z ∈ Metric.ball x δ := by
      rw [← insert_endpoints_openSegment] at hz
      rcases hz with rfl | rfl | hz
      · obtain ⟨z, k1, k2⟩ := (near_ends (a := (ringAt p i).pt) (b := (ringAt p (i + 1)).pt) hδ).1
        exact ⟨z, k1, by rw [Metric.mem_ball, dist_eq_norm]; exact k2⟩
      · obtain ⟨z, k1, k2⟩ := (near_ends (a := (ringAt p i).pt) (b := (ringAt p (i + 1)).pt) hδ).2
        exact ⟨z, k1, by rw [Metric.mem_ball, dist_eq_norm]; exact k2⟩
      · exact ⟨x, hz, Metric.mem_ball_self hδ⟩
    obtain ⟨ε, hε, hr⟩ := hB.right _ (hedge i) z hz1
    have hU : Metric.ball x δ ∩ Metric.ball z ε ∈ nhds z :=
      Filter.inter_mem (Metric.isOpen_ball.mem_nhds hz2) (Metric.ball_mem_nhds z hε)
    obtain ⟨y, hy, ht⟩ := (near_side hne (on_edge_turn (openSegment_subset_segment ℝ _ _ hz1)) hU).2
    refine hr y ?_ ht (hball hy.1)
    rw [← dist_eq_norm]
    exact hy.2
  have along : ∀ B, Encloses p B → ∀ x y, (∀ w ∈ segment ℝ x y, w ∉ Coast p) → (x ∈ B ↔ y ∈ B) := by
    intro B hB x y hs
    have hcl : ∀ w ∈ segment ℝ x y, w ∉ frontier B := fun w hw hf =>
      hs w hw (mem_coast.2 (hB.border w hf))
    have hpre := (convex_segment x y).isPreconnected
    have hsub : (segment ℝ x y ∩ B).Nonempty → segment ℝ x y ⊆ B := by
      intro hne
      refine hpre.subset_left_of_subset_union hB.isOpen isClosed_closure.isOpen_compl
        (Set.disjoint_left.2 fun w h1 h2 => h2 (subset_closure h1)) (fun w hw => ?_) hne
      by_cases hwB : w ∈ B
      · exact Or.inl hwB
      · refine Or.inr fun hc => hcl w hw ?_
        rw [hB.isOpen.frontier_eq]
        exact ⟨hc, hwB⟩
    exact ⟨fun hx => hsub ⟨x, left_mem_segment ℝ x y, hx⟩ (right_mem_segment ℝ x y),
      fun hy => hsub ⟨y, right_mem_segment ℝ x y, hy⟩ (left_mem_segment ℝ x y)⟩
  have le : ∀ B C, Encloses p B → Encloses p C → B ⊆ C := by
    intro B C hB hC x hx
    choose! e1 h1 h1' using fun i => hB.right _ (hedge i)
    choose! e2 h2 h2' using fun i => hC.left _ (hedge i)
    choose e3 h3 h3' using fun i => hB.outside _ _ _ (hcorner i)
    choose e4 h4 h4' using fun i => hC.corner _ _ _ (hcorner i)
    obtain ⟨y, hy, hcase⟩ := hl.approach (fun i z => min (e1 i z) (e2 i z))
      (fun i => min (e3 i) (e4 i)) (fun i z hz => lt_min (h1 i z hz) (h2 i z hz))
      (fun i => lt_min (h3 i) (h4 i)) (same B hB x hx)
    have hyB := (along B hB x y hy).1 hx
    refine (along C hC x y hy).2 ?_
    rcases hcase with ⟨i, z, hz, hd, ht⟩ | ⟨i, hd, hio⟩
    · rcases lt_or_gt_of_ne ht with ht | ht
      · exact absurd hyB (h1' i z hz y (lt_of_lt_of_le hd (min_le_left _ _)) ht)
      · exact h2' i z hz y (lt_of_lt_of_le hd (min_le_right _ _)) ht
    · rcases hio with k | k
      · exact h4' i y (lt_of_lt_of_le hd (min_le_right _ _)) k
      · exact absurd hyB (h3' i y (lt_of_lt_of_le hd (min_le_left _ _)) k)
  exact Set.Subset.antisymm (le _ _ hE hI) (le _ _ hI hE)

/-- Non-vacuity: the U encloses what it goes round. -/
example : Encloses exU (Interior exU) :=
  (C89_encloses exU (by decide +kernel) (by decide) _).2 rfl

/-- Of a strictly convex polygon this is the region of C74. -/
example : Interior exSquare = Inland exSquare :=
  ((C89_encloses exSquare (by decide +kernel) (by decide) _).1
    (convex_encloses (by decide) (by decide) (by decide))).symm

/-- **C89** The points round which the ring goes exist, it goes round them once, and they are between
its vertices. -/
theorem C89_interior (p : List Coord) (h : SimpleRing p) (hA : 0 < twiceArea p) :
    (Interior p).Nonempty ∧ (∀ x ∈ Interior p, turning p x = 2 * Real.pi) ∧
      Interior p ⊆ convexHull ℝ {z | ∃ v ∈ p, z = v.pt} := by
  refine ⟨?_, fun x hx => (turning_values h hA hx.1).resolve_left hx.2, fun x hx => ?_⟩
  · have hl := simple_loop h
    have hn : 0 < p.length := by have := h.size; omega
    have hz : (1 / 2 : ℝ) • line p 0 + (1 / 2 : ℝ) • line p (0 + 1) ∈
        openSegment ℝ (line p 0) (line p (0 + 1)) :=
      ⟨1 / 2, 1 / 2, by norm_num, by norm_num, by norm_num, rfl⟩
    obtain ⟨ε, hε, hb⟩ := (simple_encloses h hA).left ⟨ringAt p 0, ringAt p (0 + 1)⟩
      ⟨p, List.mem_singleton_self _, 0, hn, rfl⟩ _ hz
    obtain ⟨y, hy, ht⟩ := (near_side (hl.ne 0) (on_edge_turn (openSegment_subset_segment ℝ _ _ hz))
      (Metric.ball_mem_nhds _ hε)).1
    exact ⟨y, hb y (by rw [← dist_eq_norm]; exact hy) ht⟩
  · by_contra hc
    have hfin : {z | ∃ v ∈ p, z = v.pt}.Finite := by
      have : {z | ∃ v ∈ p, z = v.pt} = Coord.pt '' {v | v ∈ p} := by
        ext z
        constructor
        · rintro ⟨v, hv, rfl⟩
          exact ⟨v, hv, rfl⟩
        · rintro ⟨v, hv, rfl⟩
          exact ⟨v, hv, rfl⟩
      rw [this]
      exact p.finite_toSet.image _
    obtain ⟨f, u, h1, h2⟩ := geometric_hahn_banach_point_closed (convex_convexHull ℝ _)
      (hfin.isCompact_convexHull (𝕜 := ℝ)).isClosed hc
    have hf : ∀ z : ℂ, f z = (z * ((f 1 : ℂ) - (f Complex.I : ℂ) * Complex.I)).re := by
      intro z
      have hz : z = z.re • (1 : ℂ) + z.im • Complex.I := by
        apply Complex.ext <;> simp
      conv_lhs => rw [hz, map_add, map_smul, map_smul]
      simp
    have hn : 0 < p.length := by have := h.size; omega
    refine hx.2 (total_half (simple_loop h).closed
      (u := (f 1 : ℂ) - (f Complex.I : ℂ) * Complex.I) fun i _ => ?_)
    rw [← hf, map_sub]
    have hm : line p i ∈ convexHull ℝ {z | ∃ v ∈ p, z = v.pt} := by
      refine subset_convexHull ℝ _ ⟨ringAt p i, ?_, rfl⟩
      unfold ringAt
      rw [List.getD_eq_getElem?_getD, List.getElem?_eq_getElem (Nat.mod_lt _ hn)]
      exact List.getElem_mem _
    have := h2 _ hm
    linarith

example : (Interior exU).Nonempty := (C89_interior exU (by decide +kernel) (by decide)).1

/-- **C89** A coordinate is inside exactly if the ring passes below it unequally often to the right
and to the left; for any ring whatever. -/
theorem C89_count (p : List Coord) (c : Coord) (hc : c.pt ∉ Coast p) :
    turning p c.pt = 2 * Real.pi * (passes p c : ℝ) ∧ (c.pt ∈ Interior p ↔ passes p c ≠ 0) := by
  have key : turning p c.pt = 2 * Real.pi * (passes p c : ℝ) := by
    rcases Nat.eq_zero_or_pos p.length with hn | hn
    · rw [List.length_eq_zero_iff] at hn
      subst hn
      simp [turning, passes]
    have hopen : IsOpen (Coast p)ᶜ := by
      rw [coast_curve]
      exact (curve_compact (P := line p) (n := p.length)).isClosed.isOpen_compl
    obtain ⟨ε, hε, hb⟩ := Metric.isOpen_iff.1 hopen c.pt hc
    obtain ⟨M, hM⟩ := ((Finset.range p.length).image fun i =>
      |((ringAt p (i + 1)).lat : ℝ) - (ringAt p i).lat|).exists_le
    have hM' : ∀ i < p.length, |((ringAt p (i + 1)).lat : ℝ) - (ringAt p i).lat| ≤ M := fun i hi =>
      hM _ (Finset.mem_image_of_mem _ (Finset.mem_range.2 hi))
    have hM0 : 0 ≤ M := (abs_nonneg _).trans (hM' 0 hn)
    set δ : ℝ := min (ε / 2) (1 / (2 * (M + 1))) with hδdef
    have hδ : 0 < δ := by positivity
    have hδ1 : δ < ε := lt_of_le_of_lt (min_le_left _ _) (by linarith)
    have hδ2 : δ * (M + 1) ≤ 1 / 2 := by
      have := mul_le_mul_of_nonneg_right (min_le_right (ε / 2) (1 / (2 * (M + 1))))
        (by linarith : 0 ≤ M + 1)
      rw [← hδdef] at this
      refine this.trans (le_of_eq ?_)
      field_simp
    have hδ3 : δ < 1 := by nlinarith
    set x : ℂ := c.pt + (δ : ℂ) with hx
    have xre : x.re = c.lon + δ := by simp [hx, Coord.pt]
    have xim : x.im = c.lat := by simp [hx, Coord.pt]
    have hball : segment ℝ c.pt x ⊆ Metric.ball c.pt ε := by
      refine (convex_ball c.pt ε).segment_subset (Metric.mem_ball_self hε) ?_
      rw [Metric.mem_ball, dist_eq_norm, hx, add_sub_cancel_left, Complex.norm_real,
        Real.norm_eq_abs, abs_of_pos hδ]
      exact hδ1
    have hoff : ∀ w ∈ segment ℝ c.pt x, w ∉ curve (line p) p.length := fun w hw => hb (hball hw)
    have hclosed : line p p.length = line p 0 := by
      have := line_period p 0
      rwa [zero_add] at this
    have hconst : turning p c.pt = total (line p) p.length x :=
      total_const hclosed hn (convex_segment c.pt x).isPreconnected hoff
        (left_mem_segment ℝ _ _) (right_mem_segment ℝ _ _)
    have hgen : ∀ i ≤ p.length, (line p i).re ≠ x.re := by
      intro i _ e
      rw [xre] at e
      have e : ((ringAt p i).lon : ℝ) = c.lon + δ := e
      have h1 : (c.lon : ℝ) < (ringAt p i).lon := by linarith
      have h2 : ((ringAt p i).lon : ℝ) < c.lon + 1 := by linarith
      have h1' : c.lon < (ringAt p i).lon := by exact_mod_cast h1
      have h2' : (ringAt p i).lon < c.lon + 1 := by exact_mod_cast h2
      omega
    rw [hconst, total_pass hclosed (hoff x (right_mem_segment ℝ _ _)) hgen]
    congr 2
    unfold passes
    refine Finset.sum_congr rfl fun i hi => ?_
    rw [Finset.mem_range] at hi
    set a := ringAt p i with ha
    set b := ringAt p (i + 1) with hb'
    have l1 : ∀ m k : ℤ, (m : ℝ) < k + δ ↔ m ≤ k := by
      intro m k
      constructor
      · intro h
        have : (m : ℝ) < ((k + 1 : ℤ) : ℝ) := by push_cast; linarith
        have := Int.cast_lt.1 this
        omega
      · intro h
        have : (m : ℝ) ≤ k := by exact_mod_cast h
        linarith
    have l2 : ∀ m k : ℤ, (k : ℝ) + δ < m ↔ k < m := by
      intro m k
      constructor
      · intro h
        have : (k : ℝ) < m := by linarith
        exact_mod_cast this
      · intro h
        have : ((k + 1 : ℤ) : ℝ) ≤ m := by exact_mod_cast h
        push_cast at this
        linarith
    have hturn : turn a.pt b.pt x = (area2 a b c : ℤ) - δ * ((b.lat : ℝ) - a.lat) := by
      unfold turn area2
      rw [xre, xim]
      simp only [Coord.pt]
      push_cast
      ring
    have hsmall : |δ * ((b.lat : ℝ) - a.lat)| < 1 := by
      rw [abs_mul, abs_of_pos hδ]
      have := mul_le_mul_of_nonneg_left (hM' i hi) hδ.le
      nlinarith
    rw [abs_lt] at hsmall
    -- between the longitudes of the ends the area is not zero
    have hnz : (a.lon ≤ c.lon ∧ c.lon < b.lon) ∨ (b.lon ≤ c.lon ∧ c.lon < a.lon) →
        area2 a b c ≠ 0 := by
      intro hbt h0
      have hab : a.pt ≠ b.pt := by
        intro e
        have := pt_inj e
        rw [this] at hbt
        omega
      obtain ⟨t, ht⟩ := on_line hab (w := c.pt) (by rw [turn_pt, h0]; simp)
      apply hc
      refine ⟨i, hi, ?_⟩
      have hre := congrArg Complex.re ht
      simp only [Coord.pt, Complex.add_re, Complex.real_smul, Complex.re_ofReal_mul] at hre
      have hreal : ((a.lon : ℝ) ≤ c.lon ∧ (c.lon : ℝ) < b.lon) ∨
          ((b.lon : ℝ) ≤ c.lon ∧ (c.lon : ℝ) < a.lon) := by exact_mod_cast hbt
      have ht01 : 0 ≤ t ∧ t ≤ 1 := by
        constructor
        · by_contra hneg
          rcases hreal with k | k <;> nlinarith [not_le.1 hneg]
        · by_contra hgt
          rcases hreal with k | k <;> nlinarith [not_le.1 hgt]
      exact ⟨1 - t, t, by linarith [ht01.2], ht01.1, by ring, ht.symm⟩
    have hpos : (a.lon ≤ c.lon ∧ c.lon < b.lon) ∨ (b.lon ≤ c.lon ∧ c.lon < a.lon) →
        ((0 < turn a.pt b.pt x ↔ 0 < area2 a b c) ∧ (turn a.pt b.pt x < 0 ↔ area2 a b c < 0)) := by
      intro hbt
      rw [hturn]
      rcases lt_or_gt_of_ne (hnz hbt) with k | k
      · have : ((area2 a b c : ℤ) : ℝ) ≤ -1 := by
          have : area2 a b c ≤ -1 := by omega
          exact_mod_cast this
        exact ⟨⟨fun h => by linarith [hsmall.1], fun h => by omega⟩, fun _ => k,
          fun _ => by linarith [hsmall.1]⟩
      · have : (1 : ℝ) ≤ ((area2 a b c : ℤ) : ℝ) := by
          have : 1 ≤ area2 a b c := by omega
          exact_mod_cast this
        exact ⟨⟨fun _ => k, fun _ => by linarith [hsmall.2]⟩, fun h => by linarith [hsmall.2],
          fun h => by omega⟩
    have q1 : (line p i).re < x.re ∧ x.re < (line p (i + 1)).re ∧
        0 < turn (line p i) (line p (i + 1)) x ↔ a.lon ≤ c.lon ∧ c.lon < b.lon ∧ 0 < area2 a b c := by
      rw [xre]
      have e1 : (line p i).re = (a.lon : ℝ) := rfl
      have e2 : (line p (i + 1)).re = (b.lon : ℝ) := rfl
      rw [e1, e2, l1, l2]
      constructor
      · rintro ⟨k1, k2, k3⟩
        exact ⟨k1, k2, (hpos (Or.inl ⟨k1, k2⟩)).1.1 k3⟩
      · rintro ⟨k1, k2, k3⟩
        exact ⟨k1, k2, (hpos (Or.inl ⟨k1, k2⟩)).1.2 k3⟩
    have q2 : (line p (i + 1)).re < x.re ∧ x.re < (line p i).re ∧
        turn (line p i) (line p (i + 1)) x < 0 ↔ b.lon ≤ c.lon ∧ c.lon < a.lon ∧ area2 a b c < 0 := by
      rw [xre]
      have e1 : (line p i).re = (a.lon : ℝ) := rfl
      have e2 : (line p (i + 1)).re = (b.lon : ℝ) := rfl
      rw [e1, e2, l1, l2]
      constructor
      · rintro ⟨k1, k2, k3⟩
        exact ⟨k1, k2, (hpos (Or.inr ⟨k1, k2⟩)).2.1 k3⟩
      · rintro ⟨k1, k2, k3⟩
        exact ⟨k1, k2, (hpos (Or.inr ⟨k1, k2⟩)).2.2 k3⟩
    unfold pass
    simp only [q1, q2]
  refine ⟨key, ?_⟩
  unfold Interior
  simp only [Set.mem_ofPred_eq, hc, not_false_eq_true, true_and]
  rw [key]
  have hpi := Real.pi_pos
  constructor
  · intro h h0
    exact h (by rw [h0]; simp)
  · intro h h0
    rcases mul_eq_zero.1 h0 with k | k
    · linarith
    · exact h (by exact_mod_cast k)

/-- A place in the arm of the U is inside, one in the bay is not, though both are between the
vertices. -/
example : (⟨5000, 20000⟩ : Coord).pt ∈ Interior exU ∧ (⟨15000, 20000⟩ : Coord).pt ∉ Interior exU := by
  have h1 := (C89_count exU ⟨5000, 20000⟩ (offB_sound (by decide +kernel))).2
  have h2 := (C89_count exU ⟨15000, 20000⟩ (offB_sound (by decide +kernel))).2
  exact ⟨h1.2 (by decide +kernel), fun h => h2.1 h (by decide +kernel)⟩

/-- **C89** Whether a ring touches or crosses itself is decided edge against edge in integers. -/
theorem C89_simple (p : List Coord) : SimpleRing p ↔ 3 ≤ p.length ∧ ∀ i < p.length,
    ∀ j < p.length, i ≠ j →
      EdgesApart (ringAt p i) (ringAt p (i + 1)) (ringAt p j) (ringAt p (j + 1)) :=
  simple_iff p

/-- The U does not touch itself; a bow tie does, and so does a ring which comes back to a vertex. -/
example : SimpleRing exU ∧ ¬ SimpleRing [⟨0, 0⟩, ⟨10, 10⟩, ⟨10, 0⟩, ⟨0, 10⟩] ∧
    ¬ SimpleRing [⟨0, 0⟩, ⟨10, 0⟩, ⟨5, 5⟩, ⟨10, 10⟩, ⟨0, 10⟩, ⟨5, 5⟩] := by decide +kernel

/-- **C89** The constructor keeps the coast and the land: a polygon made from a ring without
self-contact, drawn in either direction, encloses what the ring goes round; provided its area exceeds
the rounding error of the orientation test. -/
theorem C89_polygon (T : ℕ → SumTree) (hT : PlanOk T) (vs : List Coord) (hper : ∀ v ∈ vs, v.Per)
    (h : SimpleRing vs) (hd : (T (removeCollinear vs).length).depth ≤ 2 ^ 40)
    (hA : (removeCollinear vs).length * (156 + 44 * (T (removeCollinear vs).length).depth) <
      |twiceArea vs|) :
    SimpleRing (mk T vs) ∧ Coast (mk T vs) = Coast vs ∧ Interior (mk T vs) = Interior vs ∧
      Encloses (mk T vs) (Interior vs) := by
  have hr := simple_noRepeat h
  have hne : twiceArea vs ≠ 0 := by
    intro h0
    rw [h0, abs_zero] at hA
    have : (0 : ℤ) ≤ (removeCollinear vs).length *
      (156 + 44 * (T (removeCollinear vs).length).depth) := by positivity
    omega
  have hpos := C12_counter_clockwise_partial T hT vs hper hd (by rwa [removeCollinear_area hr])
  have hs := simple_removeCollinear h hne
  have hr' := removeCollinear_noRepeat hr
  have main : SimpleRing (mk T vs) ∧ Coast (mk T vs) = Coast vs ∧
      Interior (mk T vs) = Interior vs := by
    rcases C12_same_vertices T vs with e | e <;> rw [e]
    · exact ⟨hs, coast_removeCollinear hr, interior_removeCollinear hr⟩
    · exact ⟨simple_reverse hs, by rw [coast_reverse hr', coast_removeCollinear hr],
        by rw [interior_reverse hr', interior_removeCollinear hr]⟩
  refine ⟨main.1, main.2.1, main.2.2, ?_⟩
  rw [← main.2.2]
  exact simple_encloses main.1 hpos

/-- Non-vacuity: from the U drawn clockwise. -/
example : mk SumTree.sequential exURing = exU ∧ Encloses exU (Interior exURing) := by
  have e : mk SumTree.sequential exURing = exU := by decide +kernel
  have := (C89_polygon SumTree.sequential sequential_ok exURing (by decide) (by decide +kernel)
    (by rw [sequential_depth]; decide +kernel) (by rw [sequential_depth]; decide +kernel)).2.2.2
  exact ⟨e, e ▸ this⟩

/-- **C89** With C74: for a map of rings without self-contact, the path returned between points that
do not see each other is the straight line or about as short as any course which nowhere enters the
inside of a ring. -/
theorem C89_path {A : Arith Dbl} {w : Dbl} (hA : A.DoubleLike w none) (h0 : 0 ≤ w.1)
    (T : ℕ → SumTree) (hT : PlanOk T) (rings : List (List Coord))
    (hring : ∀ vs ∈ rings, SimpleRing vs ∧ (∀ v ∈ vs, v.Per) ∧
      (T (removeCollinear vs).length).depth ≤ 2 ^ 40 ∧
      (removeCollinear vs).length * (156 + 44 * (T (removeCollinear vs).length).depth) <
        |twiceArea vs|)
    (scanner : Coord → Res (List (Coord × Bool))) (order : List Coord → List Coord) (E : Env)
    (s d : Coord) (h : Voyage T (rings.map (mk T)) scanner order E s d)
    (hsize : (rings.map (mk T)).flatten.length ≤ 499998)
    (hres : ∀ a v b, CornerOf (rings.map (mk T)) a v b → CornerResolved a v b) (hne : s ≠ d)
    (hin : ∀ e, EdgeOf (rings.map (mk T)) e → ∀ v, v = s ∨ v = d ∨ v ∈ (rings.map (mk T)).flatten →
      OnSeg e v.lon v.lat → v = e.p ∨ v = e.q)
    (hsee : ¬ (Sees (rings.map (mk T)) s d ∧ Sees (rings.map (mk T)) d s))
    (course : List ℂ) (hc : IsWalk (AtSea (⋃ vs ∈ rings, Interior vs)) s.pt d.pt course)
    (allow : Bool) (r : Res (List Coord)) (hq : Query A E s d allow r) :
    ∃ path, r = .ok path ∧ (E.crossings ⟨s, d⟩ = [] ∧ path = [s, d] ∨
      walkLength (legLength E) path ≤ (1 + 1 / 10 ^ 8) *
        (max 1 ((w.1 : ℚ) : ℝ) * walkLength lineLength course)) := by
  have hpoly := fun vs hv => C89_polygon T hT vs (hring vs hv).2.1 (hring vs hv).1
    (hring vs hv).2.2.1 (hring vs hv).2.2.2
  refine C74_path hA h0 T _ scanner order E s d h hsize Interior ?_ hres hne hin hsee course ?_
    allow r hq
  · intro p hp
    obtain ⟨vs, hv, rfl⟩ := List.mem_map.1 hp
    rw [(hpoly vs hv).2.2.1]
    exact (hpoly vs hv).2.2.2
  · have e : (⋃ p ∈ rings.map (mk T), Interior p) = ⋃ vs ∈ rings, Interior vs := by
      ext z
      simp only [Set.mem_iUnion, exists_prop]
      constructor
      · rintro ⟨p, hp, hz⟩
        obtain ⟨vs, hv, rfl⟩ := List.mem_map.1 hp
        exact ⟨vs, hv, (hpoly vs hv).2.2.1 ▸ hz⟩
      · rintro ⟨vs, hv, hz⟩
        exact ⟨_, List.mem_map.2 ⟨vs, hv, rfl⟩, (hpoly vs hv).2.2.1.symm ▸ hz⟩
    rw [e]
    exact hc

/-- The map of the U. -/
def exBay : Env where
  graph := (generate [exU] (exScanner SumTree.sequential [exU]) id).toOption.getD Graph.empty
  onLand _ := false
  closest _ := .error .exn
  project _ c := .ok c
  crossings _ := [⟨⟨20000, 10000⟩, ⟨10000, 10000⟩⟩]
  reach obs := Vistree.scanC exLook (Vistree.ofPolygons [exU]) obs
    (Vistree.vertices (Vistree.ofPolygons [exU])) (Vistree.segments (Vistree.ofPolygons [exU])) false
  ord l := l

theorem exBay_voyage : Voyage SumTree.sequential [exU] (exScanner SumTree.sequential [exU]) id exBay
    ⟨15000, 20000⟩ ⟨15000, -10000⟩ := by
  refine .direct (by decide) ?_ (exScanner_ok _ _) (fun l => List.Perm.refl l) ?_
    (fun _ => ⟨_, _, _, List.Perm.refl _, List.Perm.refl _, exLook_ok, rfl⟩)
    (fun l => List.Perm.refl l) (by decide) (by decide) ⟨rfl, rfl⟩
  · intro p hp k hk
    rw [List.mem_singleton] at hp
    subst hp
    rcases hk with rfl | rfl | rfl <;> decide +kernel
  · obtain ⟨g, f, h1, -⟩ := C38_edges SumTree.sequential [exU] (by decide) _
      (exScanner_ok _ _) id fun l => List.Perm.refl l
    unfold exBay
    dsimp only
    rw [h1]
    rfl

/-- Non-vacuity of `C89_path`: out of the bay of the U and round it. -/
example (sq : ℚ → Dbl) (hsq : SqrtOk fun q => (sq q).1) (hsq0 : ∀ x, 0 ≤ (sq x).1) (w : Dbl)
    (hw : w.1 = 1) : ∃ (course : List ℂ) (path : List Coord),
    course = [⟨15000, 20000⟩, ⟨15000, 40000⟩, ⟨40000, 40000⟩, ⟨40000, -10000⟩, ⟨15000, -10000⟩] ∧
    IsWalk (AtSea (⋃ vs ∈ [exURing], Interior vs)) (⟨15000, 20000⟩ : Coord).pt
      (⟨15000, -10000⟩ : Coord).pt course ∧
    Query (doubleArith sq w none) exBay ⟨15000, 20000⟩ ⟨15000, -10000⟩ false (.ok path) ∧
    walkLength (legLength exBay) path ≤ (1 + 1 / 10 ^ 8) *
      (max 1 ((w.1 : ℚ) : ℝ) * walkLength lineLength course) := by
  have e : [exURing].map (mk SumTree.sequential) = [exU] := by decide +kernel
  have hV := exBay_voyage
  have h0 : 0 ≤ w.1 := by rw [hw]; norm_num
  have hl := double_like sq hsq hsq0 w h0 none
  have hleg : ∀ a b : Coord, (∀ i < exURing.length,
      EdgesApart a b (ringAt exURing i) (ringAt exURing (i + 1))) → offB exURing b = true →
      passes exURing b = 0 → AtSea (⋃ vs ∈ [exURing], Interior vs) a.pt b.pt := by
    intro a b h1 h2 h3 z hz hin
    obtain ⟨p, hp, hin⟩ := Set.mem_iUnion₂.1 hin
    obtain rfl := List.mem_singleton.1 hp
    have hb := offB_sound h2
    exact outside_line (by decide) h1 hb (fun k => ((C89_count _ _ hb).2.1 k) h3) z hz hin
  have hcourse : [⟨15000, 20000⟩, ⟨15000, 40000⟩, ⟨40000, 40000⟩, ⟨40000, -10000⟩,
      ⟨15000, -10000⟩] = ([⟨15000, 20000⟩, ⟨15000, 40000⟩, ⟨40000, 40000⟩, ⟨40000, -10000⟩,
      ⟨15000, -10000⟩] : List Coord).map Coord.pt := by
    simp [Coord.pt]
  have hwalk : IsWalk (AtSea (⋃ vs ∈ [exURing], Interior vs)) (⟨15000, 20000⟩ : Coord).pt
      (⟨15000, -10000⟩ : Coord).pt
      [⟨15000, 20000⟩, ⟨15000, 40000⟩, ⟨40000, 40000⟩, ⟨40000, -10000⟩, ⟨15000, -10000⟩] := by
    rw [hcourse]
    refine ⟨rfl, rfl, ?_⟩
    simp only [List.map_cons, List.map_nil, List.isChain_cons_cons, List.isChain_singleton, and_true]
    refine ⟨hleg _ _ ?_ ?_ ?_, hleg _ _ ?_ ?_ ?_, hleg _ _ ?_ ?_ ?_, hleg _ _ ?_ ?_ ?_⟩ <;>
      decide +kernel
  obtain ⟨⟨r, hq⟩, -⟩ := C43_outcome _ hl.sound exBay hV.made hV.ord ⟨15000, 20000⟩
    ⟨15000, -10000⟩ false
  obtain ⟨path, rfl, hp⟩ := C89_path hl h0 SumTree.sequential sequential_ok [exURing] (by
      intro vs hv
      obtain rfl := List.mem_singleton.1 hv
      exact ⟨by decide +kernel, by decide, by rw [sequential_depth]; decide +kernel,
        by rw [sequential_depth]; decide +kernel⟩) _ _ exBay _ _ (by rw [e]; exact hV)
    (by rw [e]; decide) (by
      rw [e]
      rintro a v b ⟨p, hp, i, hi, rfl, rfl, rfl⟩
      obtain rfl := List.mem_singleton.1 hp
      have hi : i < 8 := hi
      interval_cases i <;> decide +kernel) (by decide) (by
      rw [e]
      rintro e ⟨p, hp, i, hi, rfl⟩ v hv hon
      obtain rfl := List.mem_singleton.1 hp
      have hb := segment_box (a := ringAt exU i) (b := ringAt exU (i + 1)) (c := v) (by
        obtain ⟨t, t0, t1, hx, hy⟩ := hon
        refine ⟨1 - t, t, by simpa using (by exact_mod_cast t1 : (t : ℝ) ≤ 1),
          by exact_mod_cast t0, by ring, ?_⟩
        rw [← seg_point _ _ hx hy]
        simp [Coord.pt])
      have hv : v ∈ (⟨15000, 20000⟩ : Coord) :: ⟨15000, -10000⟩ :: exU := by
        simpa using hv
      have key : ∀ i < exU.length, ∀ v ∈ (⟨15000, 20000⟩ : Coord) :: ⟨15000, -10000⟩ :: exU,
          (area2 (ringAt exU i) (ringAt exU (i + 1)) v = 0 ∧
          min (ringAt exU i).lon (ringAt exU (i + 1)).lon ≤ v.lon ∧
          v.lon ≤ max (ringAt exU i).lon (ringAt exU (i + 1)).lon ∧
          min (ringAt exU i).lat (ringAt exU (i + 1)).lat ≤ v.lat ∧
          v.lat ≤ max (ringAt exU i).lat (ringAt exU (i + 1)).lat) →
          v = ringAt exU i ∨ v = ringAt exU (i + 1) := by decide +kernel
      exact key i hi v hv hb) (by
      rw [e]
      rintro ⟨⟨h1, -⟩, -⟩
      have := h1 _ ⟨exU, List.mem_singleton_self _, 4, by decide, rfl⟩ (by decide) (by decide)
        15000 10000
        ⟨1 / 2, by norm_num, by norm_num, by simp [ringAt, exU]; norm_num, by
          simp [ringAt, exU]⟩
        ⟨1 / 3, by norm_num, by norm_num, by norm_num, by norm_num⟩
      norm_num at this) _ hwalk false r hq
  refine ⟨_, path, rfl, hwalk, hq, hp.resolve_left ?_⟩
  rintro ⟨h, -⟩
  exact absurd h (by simp [exBay])

end Capi
