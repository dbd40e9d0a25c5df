import Verif.Lemmas.Sweep
import Verif.Props.Vistree

/-!
# C35: what the visibility scan hides

`C35_order_false`, `C35_tie_false`, `C35_shared_vertex_false` and `C35_rounding_false` refute the
claim that no vertex behind an edge is reported.  Here is what remains true.
-/

namespace Capi

open Vistree

theorem edge_of_vertices {ps : List (List Coord)} {m : VisMap} (hs : Simple ps) (hm : MapOf ps m)
    (s : Seg) : s ∈ segments m ↔ EdgeOf ps s := by
  refine ⟨fun h => hm.segs h, fun h => ?_⟩
  obtain ⟨a, b, hc, hi, hu⟩ := hs.incident_form hm (edge_mem h).1
  have hin : s ∈ incident m s.p := by rw [hi, ← (hu s h).2.1 rfl]; simp
  unfold incident at hin
  cases hg : Assoc.get m s.p with
  | none => rw [hg] at hin; simp at hin
  | some inc =>
    rw [hg] at hin
    exact List.mem_flatMap.2 ⟨(s.p, inc), (Assoc.get_eq_some m _ _ hm.nodup).1 hg, hin⟩

theorem Setup.world {ps : List (List Coord)} {m : VisMap} {segs : List Seg}
    {look : Seg → Seg → Bool} (h : Setup ps m segs look) (hs : Simple ps) {obs : Coord}
    (ho : obs.Per) (hlon : obs.lon < 540000001)
    (hoff : ∀ s, EdgeOf ps s → obs ≠ s.p → obs ≠ s.q → ¬ OnSeg s obs.lon obs.lat) :
    World ps m segs look obs :=
  ⟨h.mapOf, fun s => (h.segs.mem_iff).trans (edge_of_vertices hs h.mapOf s), h.look, h.range, hs, ho,
    hlon, hoff⟩

/-- Positive sine of a difference of angles. -/
theorem sin_pos_cases {x : ℝ} (h : 0 < Real.sin x) (h2 : x < 2 * Real.pi) :
    (0 < x ∧ x < Real.pi) ∨ x < -Real.pi := by
  by_contra hc
  push Not at hc
  obtain ⟨hc1, hc2⟩ := hc
  rcases le_or_gt x 0 with hx | hx
  · have := Real.sin_nonpos_of_nonpos_of_neg_pi_le hx hc2
    linarith
  · have h3 := hc1 hx
    have : Real.sin (x - 2 * Real.pi) ≤ 0 :=
      Real.sin_nonpos_of_nonpos_of_neg_pi_le (by linarith) (by linarith)
    rw [Real.sin_sub_two_pi] at this
    linarith

theorem area_offset (o a b : Coord) : area2 o a b = (offset o a).cross (offset o b) := by
  unfold area2 offset Coord.cross; ring

/-- An edge between whose ends the direction of `v` is, is open when the sweep arrives at `v`. -/
theorem facing_filed {obs v : Coord} {e : Seg} (hb : Beside obs e)
    (hv : area2 obs v (startOf obs e) < 0 ∧ 0 < area2 obs v (endOf obs e)) :
    ∃ K, Filed obs v e K := by
  have hse := area_ends hb
  obtain ⟨hs0, he0⟩ := ends_ne_obs hb
  have hv0 : v ≠ obs := by
    rintro rfl
    have := hv.1
    unfold area2 at this; simp at this
  have off0 : ∀ {c : Coord}, c ≠ obs → offset obs c ≠ ⟨0, 0⟩ := by
    intro c hc e
    apply hc
    have e1 := congrArg Coord.lon e
    have e2 := congrArg Coord.lat e
    simp only [offset] at e1 e2
    exact Coord.ext' (by omega) (by omega)
  set u := offset obs (startOf obs e) with hu
  set w := offset obs (endOf obs e) with hw
  set z := offset obs v with hz
  have hul := len_pos (off0 hs0)
  have hwl := len_pos (off0 he0)
  have hzl := len_pos (off0 hv0)
  rw [← hu] at hul
  rw [← hw] at hwl
  rw [← hz] at hzl
  have toSin : ∀ {a b : Coord}, 0 < a.len → 0 < b.len → 0 < a.cross b →
      0 < Real.sin (ccwAngle b - ccwAngle a) := by
    intro a b ha hb' hc
    have hr : (0 : ℝ) < ((a.cross b : ℤ) : ℝ) := by exact_mod_cast hc
    rw [cross_sin] at hr
    by_contra hcon
    push Not at hcon
    have := mul_pos ha hb'
    nlinarith
  have c1 : 0 < u.cross w := by rw [hu, hw, ← area_offset]; exact hse
  have c2 : 0 < u.cross z := by
    have := hv.1
    rw [area2_swap] at this
    rw [hu, hz, ← area_offset]; linarith
  have c3 : 0 < z.cross w := by rw [hz, hw, ← area_offset]; exact hv.2
  obtain ⟨a0, a1⟩ := angle_range u
  obtain ⟨b0, b1⟩ := angle_range w
  obtain ⟨z0, z1⟩ := angle_range z
  have hpi := Real.pi_pos
  have s1 := sin_pos_cases (toSin hul hwl c1) (by linarith)
  have s2 := sin_pos_cases (toSin hul hzl c2) (by linarith)
  have s3 := sin_pos_cases (toSin hzl hwl c3) (by linarith)
  rcases s2 with ⟨s2, s2'⟩ | s2
  · refine ⟨_, hb, Or.inr ⟨Or.inr ⟨hs0, hv0, Or.inl (by linarith)⟩, ?_, rfl⟩⟩
    rcases s3 with ⟨s3, _⟩ | s3
    · exact Or.inr (Or.inr ⟨hv0, he0, Or.inl (by linarith)⟩)
    · refine Or.inl (Or.inr ⟨he0, hs0, Or.inl ?_⟩)
      rcases s1 with ⟨s1, s1'⟩ | s1
      · exfalso; linarith
      · linarith
  · have hzw : ccwAngle z < ccwAngle w := by
      rcases s3 with ⟨s3, _⟩ | s3
      · linarith
      · exfalso; linarith
    have hbp : ccwAngle w < Real.pi := by
      rcases s1 with ⟨s1, s1'⟩ | s1
      · exfalso
        rcases s3 with ⟨s3, s3'⟩ | s3 <;> linarith
      · linarith
    have hacross : AcrossEast obs e := by
      constructor
      · have hp := (angle_polar u).2
        have hneg : Real.sin (ccwAngle u) < 0 := by
          rw [← Real.sin_sub_two_pi]
          exact Real.sin_neg_of_neg_of_neg_pi_lt (by linarith) (by linarith)
        have : (u.lat : ℝ) < 0 := by rw [hp]; exact mul_neg_of_pos_of_neg hul hneg
        have : u.lat < 0 := by exact_mod_cast this
        rw [hu] at this
        simp only [offset] at this
        linarith
      · have hp := (angle_polar w).2
        have hpos : 0 < Real.sin (ccwAngle w) := Real.sin_pos_of_pos_of_lt_pi (by linarith) hbp
        have : (0 : ℝ) < w.lat := by rw [hp]; exact mul_pos hwl hpos
        have : 0 < w.lat := by exact_mod_cast this
        rw [hw] at this
        simp only [offset] at this
        linarith
    have hmeet : ∃ X : ℚ, OnSeg e X obs.lat := by
      obtain ⟨l1, l2⟩ := hacross
      have q1 : ((startOf obs e).lat : ℚ) < obs.lat := by exact_mod_cast l1
      have q2 : (obs.lat : ℚ) < (endOf obs e).lat := by exact_mod_cast l2
      have hd : (0 : ℚ) < (endOf obs e).lat - (startOf obs e).lat := by linarith
      refine ⟨_, (OnSeg_ends (obs := obs)).1 ⟨(obs.lat - (startOf obs e).lat) /
        ((endOf obs e).lat - (startOf obs e).lat), div_nonneg (by linarith) hd.le, ?_, rfl, ?_⟩⟩
      · rw [div_le_one hd]; linarith
      · simp only; field_simp; ring
    obtain ⟨X, hX⟩ := hmeet
    refine ⟨(round X - obs.lon) ^ 2, hb, Or.inl ⟨hacross, Or.inr ⟨hv0, he0, Or.inl hzw⟩,
      round X, X, hX, ?_, rfl⟩⟩
    have := abs_sub_round X
    rw [abs_sub_comm] at this
    linarith

/-- The ends of an edge properly crossed are to both sides. -/
theorem crosses_facing {obs v : Coord} {e : Seg} (h : Crosses obs v e) :
    Beside obs e ∧ area2 obs v (startOf obs e) < 0 ∧ 0 < area2 obs v (endOf obs e) := by
  obtain ⟨h1, h2⟩ := h
  have hb : Beside obs e := by
    intro h0
    have : area2 e.p e.q obs = 0 := by
      rw [← h0]; unfold area2; ring
    rw [this] at h2; simp at h2
  have hse := area_ends hb
  refine ⟨hb, ?_⟩
  have hv : area2 obs v (startOf obs e) < 0 ∧ 0 < area2 obs v (endOf obs e) := by
    have k1 : area2 obs v (startOf obs e) * area2 obs v (endOf obs e) < 0 := by
      rcases ends_mem obs e with ⟨a, b⟩ | ⟨a, b⟩ <;> rw [a, b]
      · exact h1
      · linarith [mul_comm (area2 obs v e.q) (area2 obs v e.p)]
    have k2 : area2 (startOf obs e) (endOf obs e) obs * area2 (startOf obs e) (endOf obs e) v < 0 := by
      rcases ends_mem obs e with ⟨a, b⟩ | ⟨a, b⟩ <;> rw [a, b]
      · exact h2
      · have x1 : area2 e.q e.p obs = -area2 e.p e.q obs := by unfold area2; ring
        have x2 : area2 e.q e.p v = -area2 e.p e.q v := by unfold area2; ring
        rw [x1, x2]; linarith
    have k3 : area2 (startOf obs e) (endOf obs e) obs = area2 obs (startOf obs e) (endOf obs e) := by
      unfold area2; ring
    have k4 : area2 (startOf obs e) (endOf obs e) v = area2 obs (startOf obs e) (endOf obs e) +
        area2 obs v (startOf obs e) - area2 obs v (endOf obs e) := by unfold area2; ring
    rw [k3] at k2
    have k5 : area2 (startOf obs e) (endOf obs e) v < 0 := by
      by_contra hc
      push Not at hc
      have := mul_nonneg hse.le hc
      linarith
    rw [k4] at k5
    rcases lt_trichotomy (area2 obs v (startOf obs e)) 0 with hh | hh | hh
    · refine ⟨hh, ?_⟩
      by_contra hc
      push Not at hc
      have := mul_nonneg_of_nonpos_of_nonpos hh.le hc
      linarith
    · rw [hh] at k1; simp at k1
    · exfalso
      have : area2 obs v (endOf obs e) < 0 := by
        by_contra hc
        push Not at hc
        have := mul_nonneg hh.le hc
        linarith
      linarith
  exact hv

/-- An edge properly crossed by the sight line is open when the sweep arrives at `v`. -/
theorem crosses_filed {obs v : Coord} {e : Seg} (h : Crosses obs v e) : ∃ K, Filed obs v e K :=
  facing_filed (crosses_facing h).1 (crosses_facing h).2

theorem ratio_bounds {A B : ℚ} (h : A * B < 0) : A - B ≠ 0 ∧ 0 ≤ A / (A - B) ∧ A / (A - B) ≤ 1 := by
  rcases lt_trichotomy A 0 with hA | hA | hA
  · have hB : 0 < B := by by_contra hc; push Not at hc; nlinarith
    have hd : A - B < 0 := by linarith
    exact ⟨hd.ne, div_nonneg_of_nonpos hA.le hd.le, by rw [div_le_one_of_neg hd]; linarith⟩
  · rw [hA] at h; simp at h
  · have hB : B < 0 := by by_contra hc; push Not at hc; nlinarith
    have hd : 0 < A - B := by linarith
    exact ⟨hd.ne', div_nonneg hA.le hd.le, by rw [div_le_one hd]; linarith⟩

theorem crosses_meets {obs v : Coord} {e : Seg} (h : Crosses obs v e) : Meets e ⟨obs, v⟩ := by
  obtain ⟨h1, h2⟩ := h
  have h1q : ((area2 obs v e.p : ℤ) : ℚ) * ((area2 obs v e.q : ℤ) : ℚ) < 0 := by exact_mod_cast h1
  have h2q : ((area2 e.p e.q obs : ℤ) : ℚ) * ((area2 e.p e.q v : ℤ) : ℚ) < 0 := by exact_mod_cast h2
  obtain ⟨n1, a1, a2⟩ := ratio_bounds h1q
  obtain ⟨n2, b1, b2⟩ := ratio_bounds h2q
  refine ⟨_, _, ⟨_, a1, a2, rfl, rfl⟩, ⟨_, b1, b2, ?_, ?_⟩⟩
  · field_simp
    unfold area2
    push_cast
    ring
  · field_simp
    unfold area2
    push_cast
    ring

/-- An edge crossing the sight line a microdegree or more before `v` blocks it. -/
theorem crosses_blocks {obs v : Coord} {c : Seg} (hp : c.p.Per) (hq : c.q.Per) (ho : obs.Per)
    (hv : v.Per) (hcc : Crosses obs v c)
    (hfar : ∀ x y : ℚ, OnSeg c x y → OnSeg ⟨obs, v⟩ x y → 1 ≤ |x - v.lon| ∨ 1 ≤ |y - v.lat|) :
    ∃ x, c.intersect ⟨obs, v⟩ = some x ∧ x ≠ v := by
  have hD : c.detD ⟨obs, v⟩ ≠ 0 := by
    rw [← nonParallel_iff]
    intro hpar
    obtain ⟨h1, h2⟩ := hcc
    simp only at hpar
    have : area2 obs v c.p = area2 obs v c.q := by unfold area2; linarith
    rw [this] at h1
    nlinarith [mul_self_nonneg (area2 obs v c.q)]
  have hmeet : (c.intersect ⟨obs, v⟩).isSome := by
    rw [intersect_isSome_iff hD]
    exact crosses_meets hcc
  obtain ⟨x, hx⟩ := Option.isSome_iff_exists.1 hmeet
  refine ⟨x, hx, ?_⟩
  rintro rfl
  have hxc : c.intersectC ⟨obs, x⟩ = .ok (some x) := by
    rw [Seg.intersectC_ok hp hq ho hv, hx]
  obtain ⟨X, Y, hX, hX', d1, d2⟩ := C07_accuracy c ⟨obs, x⟩ hp hq ho hv
    ((nonParallel_iff _ _).2 hD) x hxc
  rw [abs_sub_comm] at d1 d2
  rcases hfar X Y hX hX' with hh | hh
  · norm_num at d1; linarith
  · norm_num at d2; linarith

theorem behind_raw (ps : List (List Coord)) (m : VisMap) (segs : List Seg)
    (look : Seg → Seg → Bool) (h : Setup ps m segs look) (obs v : Coord) (ho : obs.Per)
    (hlon : obs.lon < 540000001) (hnd : ps.flatten.Nodup) (hlen : ∀ p ∈ ps, 3 ≤ p.length)
    (hoff : ∀ s, EdgeOf ps s → obs ≠ s.p → obs ≠ s.q → ¬ OnSeg s obs.lon obs.lat)
    (hv : v ∈ ps.flatten) (e : Seg) (he : EdgeOf ps e) (hcross : Crosses obs v e)
    (hdist : Distinct ps obs e)
    (hall : ∀ s k K, EdgeOf ps s → Filed obs v s k → Filed obs v e K → s = e ∨ k < K →
      Crosses obs v s ∧
        ∀ x y : ℚ, OnSeg s x y → OnSeg ⟨obs, v⟩ x y → 1 ≤ |x - v.lon| ∨ 1 ≤ |y - v.lat|)
    (half : Bool) :
    v ∉ scanRaw look m obs (vertices m) segs half := by
  intro hw
  have W := h.world ⟨hnd, hlen⟩ ho hlon hoff
  have hvne : v ≠ obs := by
    rintro rfl
    have := hcross.1
    unfold area2 at this; simp at this
  unfold scanRaw at hw
  split_ifs at hw with hempty
  · simp at hw
  · have hfull : v ∈ loop look m obs false (AngleSorter.sort obs (vertices m))
        (initialOpen look obs segs) := by
      cases half with
      | false => exact hw
      | true =>
        rw [loop_half _ _ _ _ (sorted_below ho hlon h.per h.mapOf.nodup)] at hw
        exact (List.mem_filter.1 hw).1
    have O : Order ps obs (AngleSorter.sort obs (vertices m)) :=
      ⟨sort_sorted ho h.per h.mapOf.nodup,
        (sort_perm obs (vertices m)).nodup_iff.2 h.mapOf.nodup,
        fun c => (sort_perm obs (vertices m)).mem_iff.trans (h.mapOf.keys c)⟩
    obtain ⟨pre, post, hsplit⟩ := List.append_of_mem ((O.mem v).2 hv)
    rw [hsplit] at hfull O
    rw [loop_mem pre post v hvne _ O.nodup] at hfull
    obtain ⟨K, hK⟩ := crosses_filed hcross
    obtain ⟨c, k, K', hcl, hce, hck, heK, hor⟩ := W.closest_le he hdist O hK
    obtain ⟨hcc, hfar⟩ := hall c k K' hce hck heK hor
    unfold isVisible unblocked at hfull
    rw [hcl] at hfull
    simp only [Bool.and_eq_true] at hfull
    have hblock := hfull.2
    have hm := edge_mem hce
    obtain ⟨x, hx, hne⟩ := crosses_blocks (h.range _ hm.1) (h.range _ hm.2) ho (h.range _ hv) hcc hfar
    rw [hx] at hblock
    simp only [beq_iff_eq] at hblock
    exact hne hblock

/-- **C35** If an edge properly crosses the sight line to `v` and was met at a distance of its own,
and this edge and every other one met nearer and not yet left crosses the sight line a microdegree
or more before `v`, then `v` is not among the vertices reported. -/
theorem C35_behind_partial (ps : List (List Coord)) (m : VisMap) (segs : List Seg)
    (look : Seg → Seg → Bool) (h : Setup ps m segs look) (obs v : Coord) (ho : obs.Per)
    (hlon : obs.lon < 540000001) (hnd : ps.flatten.Nodup) (hlen : ∀ p ∈ ps, 3 ≤ p.length)
    (hoff : ∀ s, EdgeOf ps s → obs ≠ s.p → obs ≠ s.q → ¬ OnSeg s obs.lon obs.lat)
    (hv : v ∈ ps.flatten) (e : Seg) (he : EdgeOf ps e) (hcross : Crosses obs v e)
    (hdist : Distinct ps obs e)
    (hall : ∀ s k K, EdgeOf ps s → Filed obs v s k → Filed obs v e K → s = e ∨ k < K →
      Crosses obs v s ∧
        ∀ x y : ℚ, OnSeg s x y → OnSeg ⟨obs, v⟩ x y → 1 ≤ |x - v.lon| ∨ 1 ≤ |y - v.lat|)
    (half : Bool) :
    ∃ raw : List Coord, raw.Nodup ∧ (∀ w ∈ raw, w ∈ ps.flatten ∧ w ≠ obs ∧ w ≠ v) ∧
      List.Forall₂ ReportOf raw (visible look m segs obs half) := by
  have hraw : ∀ raw : List Coord, List.Forall₂ ReportOf raw (raw.map report) := by
    intro raw
    induction raw with
    | nil => exact .nil
    | cons v r ih => exact .cons (reportOf_report v) ih
  have hsl := loop_sublist look m obs half (AngleSorter.sort obs (vertices m))
    (initialOpen look obs segs)
  have hno := behind_raw ps m segs look h obs v ho hlon hnd hlen hoff hv e he hcross hdist hall half
  refine ⟨scanRaw look m obs (vertices m) segs half, ?_, fun w hw => ?_, hraw _⟩
  · unfold scanRaw
    split_ifs
    · exact List.nodup_nil
    · exact hsl.1.nodup ((sort_perm obs (vertices m)).nodup_iff.2 h.mapOf.nodup)
  · have hw' := hw
    unfold scanRaw at hw
    split_ifs at hw with hempty
    · simp at hw
    · exact ⟨(h.mapOf.keys w).1 ((sort_perm obs _).subset (hsl.1.subset hw)),
        fun e => hsl.2 (e ▸ hw), fun e => hno (e ▸ hw')⟩

/-- **C35** If an edge properly crosses the sight line to `v`, a microdegree or more before it,
was met nearest by the sweep among the edges not yet left, and no other edge was met at its
distance, then `v` is not among the vertices reported.
Missing for the full statement: edges overtaken by one met nearer, ties, polygons sharing vertices
and crossings within rounding of `v`, for which it is false. -/
theorem C35_blocked_partial (ps : List (List Coord)) (m : VisMap) (segs : List Seg)
    (look : Seg → Seg → Bool) (h : Setup ps m segs look) (obs v : Coord) (ho : obs.Per)
    (hlon : obs.lon < 540000001) (hnd : ps.flatten.Nodup) (hlen : ∀ p ∈ ps, 3 ≤ p.length)
    (hoff : ∀ s, EdgeOf ps s → obs ≠ s.p → obs ≠ s.q → ¬ OnSeg s obs.lon obs.lat)
    (hv : v ∈ ps.flatten) (e : Seg) (he : EdgeOf ps e) (hcross : Crosses obs v e)
    (hfar : ∀ x y : ℚ, OnSeg e x y → OnSeg ⟨obs, v⟩ x y → 1 ≤ |x - v.lon| ∨ 1 ≤ |y - v.lat|)
    (hmin : ∀ s k K, EdgeOf ps s → s ≠ e → Filed obs v s k → Filed obs v e K → K ≤ k)
    (hdist : Distinct ps obs e) (half : Bool) :
    ∃ raw : List Coord, raw.Nodup ∧ (∀ w ∈ raw, w ∈ ps.flatten ∧ w ≠ obs ∧ w ≠ v) ∧
      List.Forall₂ ReportOf raw (visible look m segs obs half) := by
  refine C35_behind_partial ps m segs look h obs v ho hlon hnd hlen hoff hv e he hcross hdist ?_ half
  intro s k K hs hk hK hor
  by_cases hse : s = e
  · rw [hse]; exact ⟨hcross, hfar⟩
  · exfalso
    have := hmin s k K hs hse hk hK
    rcases hor with hor | hor
    · exact hse hor
    · omega

/-- Within the ordinary range of longitudes a report determines its vertex. -/
theorem geo_report {v w : Coord} (hv : v.Geo) (hw : w.Geo) {b : Bool} (h : ReportOf w (v, b)) :
    w = v := by
  obtain ⟨⟨h1, k, h2⟩, -⟩ := h
  simp only at h1 h2
  unfold Coord.Geo at hv hw
  have hk : k = 0 := by omega
  rw [hk] at h2
  exact Coord.ext' (by omega) (by omega)

theorem forall₂_mem {α β : Type} {R : α → β → Prop} {l : List α} {l' : List β}
    (h : List.Forall₂ R l l') {y : β} (hy : y ∈ l') : ∃ x ∈ l, R x y := by
  induction h with
  | nil => simp at hy
  | cons hr _ ih =>
    rcases List.mem_cons.1 hy with rfl | hy
    · exact ⟨_, by simp, hr⟩
    · obtain ⟨x, hx, hR⟩ := ih hy
      exact ⟨x, by simp [hx], hR⟩

/-- **C35** The same for obstacles within the ordinary range of longitudes, where it says that `v`
is not in the answer. -/
theorem C35_blocked_geo_partial (ps : List (List Coord)) (m : VisMap) (segs : List Seg)
    (look : Seg → Seg → Bool) (h : Setup ps m segs look) (obs v : Coord) (ho : obs.Geo)
    (hgeo : ∀ w ∈ ps.flatten, w.Geo) (hnd : ps.flatten.Nodup) (hlen : ∀ p ∈ ps, 3 ≤ p.length)
    (hoff : ∀ s, EdgeOf ps s → obs ≠ s.p → obs ≠ s.q → ¬ OnSeg s obs.lon obs.lat)
    (hv : v ∈ ps.flatten) (e : Seg) (he : EdgeOf ps e) (hcross : Crosses obs v e)
    (hfar : ∀ x y : ℚ, OnSeg e x y → OnSeg ⟨obs, v⟩ x y → 1 ≤ |x - v.lon| ∨ 1 ≤ |y - v.lat|)
    (hmin : ∀ s k K, EdgeOf ps s → s ≠ e → Filed obs v s k → Filed obs v e K → K ≤ k)
    (hdist : Distinct ps obs e) (half b : Bool) : (v, b) ∉ visible look m segs obs half := by
  intro hm
  have hoP : obs.Per ∧ obs.lon < 540000001 := by
    unfold Coord.Geo at ho; unfold Coord.Per; omega
  obtain ⟨raw, -, h2, h3⟩ := C35_blocked_partial ps m segs look h obs v hoP.1 hoP.2 hnd hlen hoff hv e
    he hcross hfar hmin hdist half
  obtain ⟨w, hw, hR⟩ := forall₂_mem h3 hm
  obtain ⟨w1, -, w3⟩ := h2 w hw
  exact w3 (geo_report (hgeo v hv) (hgeo w w1) hR)

theorem loop_barrier {look : Seg → Seg → Bool} {m : VisMap} {obs v : Coord} {half : Bool}
    (h : barrier m obs v = false) (l : List Coord) (o : OpenEdges) :
    v ∉ loop look m obs half l o := by
  induction l generalizing o with
  | nil => simp [loop]
  | cons w r ih =>
    simp only [loop]
    split_ifs with h1 h2 h3
    · exact ih o
    · simp
    · rw [List.mem_cons, not_or]
      refine ⟨?_, ih _⟩
      rintro rfl
      unfold isVisible at h3
      rw [h] at h3
      simp at h3
    · exact ih _

/-- **C35** A vertex strictly inside the observer's own corner, or beyond the end of one of its
two edges, is not reported (corners with a tiny determinant excepted, see C16). -/
theorem C35_own_corner (ps : List (List Coord)) (m : VisMap) (segs : List Seg)
    (look : Seg → Seg → Bool) (h : Setup ps m segs look) (obs v a b : Coord)
    (hnd : ps.flatten.Nodup) (hlen : ∀ p ∈ ps, 3 ≤ p.length) (hc : CornerOf ps a obs b)
    (hr : CornerResolved a obs b)
    (hin : InsideCorner a obs b v ∨
      ∃ k : ℚ, 1 + 3 / 1000000 ≤ k ∧ (OnRay obs a v k ∨ OnRay obs b v k)) (half : Bool) :
    ∃ raw : List Coord, raw.Nodup ∧ (∀ w ∈ raw, w ∈ ps.flatten ∧ w ≠ obs ∧ w ≠ v) ∧
      List.Forall₂ ReportOf raw (visible look m segs obs half) := by
  have hraw : ∀ raw : List Coord, List.Forall₂ ReportOf raw (raw.map report) := by
    intro raw
    induction raw with
    | nil => exact .nil
    | cons v r ih => exact .cons (reportOf_report v) ih
  have hsl := loop_sublist look m obs half (AngleSorter.sort obs (vertices m))
    (initialOpen look obs segs)
  have hbar : barrier m obs v = false := by
    obtain ⟨a', b', hc', hg⟩ := h.mapOf.get (corner_mem hc).2.1
    obtain ⟨rfl, rfl⟩ := Simple.corner_unique ⟨hnd, hlen⟩ hc hc'
    unfold barrier
    rw [hg]
    rcases hin with hin | ⟨k, hk, hon⟩
    · exact (C16_corner_partial a obs b v hr).1 hin
    · exact (C16_along_edges a obs b v hr k (by linarith) hon).2 hk
  refine ⟨scanRaw look m obs (vertices m) segs half, ?_, ?_, hraw _⟩
  · unfold scanRaw
    split_ifs
    · exact List.nodup_nil
    · exact hsl.1.nodup ((sort_perm obs (vertices m)).nodup_iff.2 h.mapOf.nodup)
  · intro w hw
    unfold scanRaw at hw
    split_ifs at hw with hempty
    · simp at hw
    · refine ⟨(h.mapOf.keys w).1 ((sort_perm obs _).subset (hsl.1.subset hw)),
        fun e => hsl.2 (e ▸ hw), ?_⟩
      rintro rfl
      exact loop_barrier hbar _ _ hw

/-- A triangle north of the origin, whose far vertex is hidden by its front edge. -/
def exHiding : List Coord := [⟨-10, 12⟩, ⟨10, 10⟩, ⟨0, 30⟩]

theorem exHiding_edges {s : Seg} (h : EdgeOf [exHiding] s) :
    s = ⟨⟨-10, 12⟩, ⟨10, 10⟩⟩ ∨ s = ⟨⟨10, 10⟩, ⟨0, 30⟩⟩ ∨ s = ⟨⟨0, 30⟩, ⟨-10, 12⟩⟩ := by
  obtain ⟨p, hp, i, hi, rfl⟩ := h
  rw [List.mem_singleton] at hp
  subst hp
  have : i = 0 ∨ i = 1 ∨ i = 2 := by
    have : exHiding.length = 3 := rfl
    omega
  rcases this with rfl | rfl | rfl
  · exact Or.inl rfl
  · exact Or.inr (Or.inl rfl)
  · exact Or.inr (Or.inr rfl)

example : Crosses ⟨0, 0⟩ ⟨0, 30⟩ ⟨⟨-10, 12⟩, ⟨10, 10⟩⟩ ∧
    Distinct [exHiding] ⟨0, 0⟩ ⟨⟨-10, 12⟩, ⟨10, 10⟩⟩ ∧
    ∀ s k K, EdgeOf [exHiding] s → s ≠ ⟨⟨-10, 12⟩, ⟨10, 10⟩⟩ → Filed ⟨0, 0⟩ ⟨0, 30⟩ s k →
      Filed ⟨0, 0⟩ ⟨0, 30⟩ ⟨⟨-10, 12⟩, ⟨10, 10⟩⟩ K → K ≤ k := by
  refine ⟨by decide, .of_distances ?_ ?_ ?_, ?_⟩
  · intro s d hs hne ha
    exfalso
    rcases exHiding_edges hs with rfl | rfl | rfl <;> exact absurd ha.1 (by decide)
  · intro s hs hne ha
    exfalso
    rcases exHiding_edges hs with rfl | rfl | rfl <;> exact absurd ha.1 (by decide)
  · intro s hs hne _ hd
    rcases exHiding_edges hs with rfl | rfl | rfl
    · exact absurd rfl hne
    · decide
    · exact absurd hd (by decide)
  · intro s k K hs hne hf
    exfalso
    have hbefore : SweepBefore ⟨0, 0⟩ ⟨10, 10⟩ ⟨0, 30⟩ :=
      (less_iff (by decide) (by decide) (by decide) (by decide)).1 (by decide +kernel)
    obtain ⟨-, ⟨ha, -⟩ | ⟨h1, h2, -⟩⟩ := hf
    · rcases exHiding_edges hs with rfl | rfl | rfl <;> exact absurd ha.1 (by decide)
    · rcases exHiding_edges hs with rfl | rfl | rfl
      · exact hne rfl
      · rcases h2 with h2 | h2
        · exact sweep_asymm hbefore h2
        · exact sweep_irrefl _ _ h2
      · exact sweep_irrefl _ _ h1

example : visible exLook (ofPolygons [exHiding]) (segments (ofPolygons [exHiding])) ⟨0, 0⟩ false =
    [(⟨10, 10⟩, false), (⟨-10, 12⟩, false)] := by decide +kernel

example : CornerOf [exSquare] ⟨0, 0⟩ ⟨10, 0⟩ ⟨10, 10⟩ ∧ CornerResolved ⟨0, 0⟩ ⟨10, 0⟩ ⟨10, 10⟩ ∧
    InsideCorner ⟨0, 0⟩ ⟨10, 0⟩ ⟨10, 10⟩ ⟨0, 10⟩ :=
  ⟨⟨exSquare, by simp, 1, by decide, by decide, by decide, by decide⟩, by decide,
    Or.inl ⟨by decide, 1, 1, by norm_num, by norm_num, by norm_num, by norm_num⟩⟩

end Capi
