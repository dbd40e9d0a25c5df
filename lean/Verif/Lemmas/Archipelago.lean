import Verif.Props.Convex
import Verif.Spec.Archipelago
import Verif.Spec.Legible

/-!
# Lemmas on maps of convex islands
-/

namespace Capi

open Vistree

theorem area_zero₁ (a b : Coord) : area2 a b a = 0 := by unfold area2; ring
theorem area_zero₂ (a b : Coord) : area2 a b b = 0 := by unfold area2; ring

theorem edge_lift {ps : List (List Coord)} {A : List Coord} (hA : A ∈ ps) {s : Seg}
    (h : EdgeOf [A] s) : EdgeOf ps s := by
  obtain ⟨p, hp, i, hi, rfl⟩ := h
  rw [List.mem_singleton] at hp
  subst hp
  exact ⟨p, hA, i, hi, rfl⟩

theorem edge_split {ps : List (List Coord)} {s : Seg} (h : EdgeOf ps s) : ∃ A ∈ ps, EdgeOf [A] s := by
  obtain ⟨p, hp, i, hi, rfl⟩ := h
  exact ⟨p, hp, p, by simp, i, hi, rfl⟩

theorem edge_to {p : List Coord} {v : Coord} (hv : v ∈ p) : ∃ n, EdgeOf [p] ⟨n, v⟩ := by
  obtain ⟨i, hi, rfl⟩ := mem_ringAt hv
  have hc : CornerOf [p] (ringAt p (i + p.length - 1)) (ringAt p i) (ringAt p (i + 1)) :=
    ⟨p, by simp, i, hi, rfl, rfl, rfl⟩
  exact ⟨_, (corner_edges hc).1⟩

/-- Points of the edges of a convex polygon are on the inner side of every edge. -/
theorem RayPoint.inner {p : List Coord} (hc : Convex p) {obs v : Coord} {s g : Seg} {t r : ℚ}
    (h : RayPoint obs v s t r) (hs : EdgeOf [p] s) (hg : EdgeOf [p] g) :
    0 ≤ (1 - r) * ((area2 g.p g.q obs : ℤ) : ℚ) + r * ((area2 g.p g.q v : ℤ) : ℚ) := by
  have m := edge_in hs
  rw [← h.area g.p g.q]
  exact (mean_nonneg (hc.nonneg hg m.1) (hc.nonneg hg m.2) h.tpos h.tlt).1

/-- A point at `r` times the way to `v`, for any `r` above 0, is in the direction of `v`. -/
theorem inLine_of_ray {obs v w : Coord} {r : ℚ} (hv : v ≠ obs) (hr : 0 < r)
    (h1 : (w.lon : ℚ) = obs.lon + r * (v.lon - obs.lon))
    (h2 : (w.lat : ℚ) = obs.lat + r * (v.lat - obs.lat)) : InLine obs v w := by
  constructor
  · have : ((area2 obs v w : ℤ) : ℚ) = 0 := by
      unfold area2; push_cast; rw [h1, h2]; ring
    exact_mod_cast this
  · have : (0 : ℚ) < ((v.lon - obs.lon) * (w.lon - obs.lon) + (v.lat - obs.lat) * (w.lat - obs.lat) :
        ℤ) := by
      push_cast
      rw [h1, h2]
      have e : ((v.lon : ℚ) - obs.lon) * (obs.lon + r * (v.lon - obs.lon) - obs.lon) +
          (v.lat - obs.lat) * (obs.lat + r * (v.lat - obs.lat) - obs.lat) =
          r * (((v.lon : ℚ) - obs.lon) ^ 2 + (v.lat - obs.lat) ^ 2) := by ring
      rw [e]
      refine mul_pos hr ?_
      by_contra hc
      push Not at hc
      have a1 : (v.lon : ℚ) - obs.lon = 0 := by
        nlinarith [sq_nonneg ((v.lon : ℚ) - obs.lon), sq_nonneg ((v.lat : ℚ) - obs.lat)]
      have a2 : (v.lat : ℚ) - obs.lat = 0 := by
        nlinarith [sq_nonneg ((v.lon : ℚ) - obs.lon), sq_nonneg ((v.lat : ℚ) - obs.lat)]
      apply hv
      have b1 : (v.lon : ℚ) = obs.lon := by linarith
      have b2 : (v.lat : ℚ) = obs.lat := by linarith
      exact Coord.ext' (by exact_mod_cast b1) (by exact_mod_cast b2)
    exact_mod_cast this

/-- Where the line of sight meets the line of an edge with its ends on different sides. -/
theorem line_hit {obs v : Coord} {f : Seg} (hO : area2 f.p f.q obs < 0) (hV : 0 < area2 f.p f.q v) :
    ∃ τ ρ : ℚ, 0 < ρ ∧ ρ < 1 ∧
      ρ * (((area2 f.p f.q v : ℤ) : ℚ) - (area2 f.p f.q obs : ℤ)) = -((area2 f.p f.q obs : ℤ) : ℚ) ∧
      (f.p.lon : ℚ) + τ * (f.q.lon - f.p.lon) = obs.lon + ρ * (v.lon - obs.lon) ∧
      (f.p.lat : ℚ) + τ * (f.q.lat - f.p.lat) = obs.lat + ρ * (v.lat - obs.lat) := by
  have qO : ((area2 f.p f.q obs : ℤ) : ℚ) < 0 := by exact_mod_cast hO
  have qV : (0 : ℚ) < (area2 f.p f.q v : ℤ) := by exact_mod_cast hV
  have hD : (0 : ℚ) < ((area2 f.p f.q v : ℤ) : ℚ) - (area2 f.p f.q obs : ℤ) := by linarith
  refine ⟨((area2 obs v f.p : ℤ) : ℚ) / (((area2 f.p f.q v : ℤ) : ℚ) - (area2 f.p f.q obs : ℤ)),
    -((area2 f.p f.q obs : ℤ) : ℚ) / (((area2 f.p f.q v : ℤ) : ℚ) - (area2 f.p f.q obs : ℤ)),
    div_pos (by linarith) hD, (div_lt_one hD).2 (by linarith), div_mul_cancel₀ _ hD.ne', ?_, ?_⟩
  · field_simp
    unfold area2
    push_cast
    ring
  · field_simp
    unfold area2
    push_cast
    ring

/-- A point of the line of an edge on the inner side of all edges is a point of the edge. -/
theorem Convex.between {p : List Coord} (hc : Convex p) (hs : Simple [p]) {f : Seg}
    (hf : EdgeOf [p] f) {τ : ℚ}
    (inner : ∀ g, EdgeOf [p] g → 0 ≤ (1 - τ) * ((area2 g.p g.q f.p : ℤ) : ℚ) +
      τ * ((area2 g.p g.q f.q : ℤ) : ℚ)) : 0 ≤ τ ∧ τ ≤ 1 := by
  have mf := edge_in hf
  have hne := hs.ends_ne hf
  constructor
  · obtain ⟨n, hn⟩ := edge_to mf.1
    have hnf : (⟨n, f.p⟩ : Seg) ≠ f := fun e => hne (congrArg Seg.q e)
    have h0 := area_zero₂ n f.p
    have h1 : 0 < area2 n f.p f.q := by
      refine lt_of_le_of_ne (hc.nonneg hn mf.2) (fun h => hnf ?_)
      exact (hc.same hs hf hn h0 h.symm).symm
    have h2 := inner _ hn
    simp only at h2
    rw [h0, Int.cast_zero, mul_zero, zero_add] at h2
    have h1' : (0 : ℚ) < (area2 n f.p f.q : ℤ) := by exact_mod_cast h1
    exact nonneg_of_mul_nonneg_left h2 h1'
  · obtain ⟨n, hn⟩ := edge_from mf.2
    have hnf : (⟨f.q, n⟩ : Seg) ≠ f := fun e => hne (congrArg Seg.p e).symm
    have h0 := area_zero₁ f.q n
    have h1 : 0 < area2 f.q n f.p := by
      refine lt_of_le_of_ne (hc.nonneg hn mf.1) (fun h => hnf ?_)
      exact (hc.same hs hf hn h.symm h0).symm
    have h2 := inner _ hn
    simp only at h2
    rw [h0, Int.cast_zero, mul_zero, add_zero] at h2
    have h1' : (0 : ℚ) < (area2 f.q n f.p : ℤ) := by exact_mod_cast h1
    have := nonneg_of_mul_nonneg_left h2 h1'
    linarith

/-- The last of the edges with the observer on the outer side. -/
theorem line_entry {n : ℕ} {O V : ℕ → ℚ} {r : ℚ} (hr0 : 0 < r) (hr1 : r < 1)
    (hin : ∀ i < n, 0 ≤ (1 - r) * O i + r * V i) (hex : ∃ i < n, O i < 0) :
    ∃ i < n, O i < 0 ∧ 0 < V i ∧ ∀ ρ, ρ * (V i - O i) = -O i → 0 < ρ →
      ∀ j < n, 0 ≤ (1 - ρ) * O j + ρ * V j := by
  classical
  have hV : ∀ i < n, O i < 0 → 0 < V i := by
    intro i hi h
    have := hin i hi
    by_contra hcon
    push Not at hcon
    have h1 := mul_pos (sub_pos.2 hr1) (neg_pos.2 h)
    have h2 := mul_nonneg hr0.le (neg_nonneg.2 hcon)
    linarith
  obtain ⟨i, hi, hmax⟩ := Finset.exists_max_image
    ((Finset.range n).filter fun i => O i < 0) (fun i => -O i / (V i - O i)) (by
      obtain ⟨i, hi, h⟩ := hex
      exact ⟨i, Finset.mem_filter.2 ⟨Finset.mem_range.2 hi, h⟩⟩)
  rw [Finset.mem_filter, Finset.mem_range] at hi
  obtain ⟨hi, hO⟩ := hi
  have hVi := hV i hi hO
  refine ⟨i, hi, hO, hVi, fun ρ hρ hρ0 j hj => ?_⟩
  have hD : 0 < V i - O i := by linarith
  have hρ' : -O i / (V i - O i) = ρ := by rw [div_eq_iff hD.ne', hρ]
  have hρr : ρ ≤ r := by
    rw [← hρ', div_le_iff₀ hD]
    have := hin i hi
    linarith
  rcases lt_or_ge (O j) 0 with h | h
  · have hVj := hV j hj h
    have := hmax j (Finset.mem_filter.2 ⟨Finset.mem_range.2 hj, h⟩)
    rw [hρ', div_le_iff₀ (by linarith)] at this
    linarith
  · have h1 := hin j hj
    have h2 : r * ((1 - ρ) * O j + ρ * V j) = (r - ρ) * O j + ρ * ((1 - r) * O j + r * V j) := by
      ring
    have h3 : 0 ≤ r * ((1 - ρ) * O j + ρ * V j) := by
      rw [h2]
      exact add_nonneg (mul_nonneg (by linarith) h) (mul_nonneg hρ0.le h1)
    exact nonneg_of_mul_nonneg_right h3 hr0

/-- A line of sight that passes through an edge of a convex polygon has entered it through one with
the observer on the outer side. -/
theorem Convex.entry {p : List Coord} (hc : Convex p) (hs : Simple [p]) {obs v : Coord}
    (ho : Outside p obs) (hgen : ∀ w ∈ p, w ≠ v → ¬ InLine obs v w) {e : Seg} (he : EdgeOf [p] e)
    (hcross : Crosses obs v e) :
    ∃ f, EdgeOf [p] f ∧ Crosses obs v f ∧ area2 f.p f.q obs < 0 := by
  obtain ⟨t, r, hr0, hr1, hx⟩ := crosses_point hcross
  have hv0 : v ≠ obs := by
    rintro rfl
    have := hcross.1
    unfold area2 at this; simp at this
  obtain ⟨i, hi, hO, hV, hlast⟩ := line_entry
    (O := fun i => ((area2 (ringAt p i) (ringAt p (i + 1)) obs : ℤ) : ℚ))
    (V := fun i => ((area2 (ringAt p i) (ringAt p (i + 1)) v : ℤ) : ℚ)) (n := p.length) hr0 hr1
    (fun i hi => hx.inner hc he (g := ⟨ringAt p i, ringAt p (i + 1)⟩) ⟨p, by simp, i, hi, rfl⟩)
    (by
      obtain ⟨i, hi, h⟩ := ho
      exact ⟨i, hi, by exact_mod_cast h⟩)
  have hf : EdgeOf [p] ⟨ringAt p i, ringAt p (i + 1)⟩ := ⟨p, by simp, i, hi, rfl⟩
  generalize hfd : (⟨ringAt p i, ringAt p (i + 1)⟩ : Seg) = f at hf
  have e1 : ringAt p i = f.p := by rw [← hfd]
  have e2 : ringAt p (i + 1) = f.q := by rw [← hfd]
  simp only [e1, e2] at hO hV hlast
  have hO' : area2 f.p f.q obs < 0 := by exact_mod_cast hO
  obtain ⟨τ, ρ, hρ0, hρ1, hρ, l1, l2⟩ := line_hit hO' (by exact_mod_cast hV)
  have hin := hlast ρ hρ hρ0
  have mf := edge_in hf
  have area : ∀ a b : Coord, (1 - τ) * ((area2 a b f.p : ℤ) : ℚ) + τ * ((area2 a b f.q : ℤ) : ℚ) =
      (1 - ρ) * ((area2 a b obs : ℤ) : ℚ) + ρ * ((area2 a b v : ℤ) : ℚ) := by
    intro a b
    unfold area2
    push_cast
    linear_combination ((b.lon : ℚ) - a.lon) * l2 - ((b.lat : ℚ) - a.lat) * l1
  obtain ⟨τ0, τ1⟩ := hc.between hs hf (τ := τ) (by
    rintro g ⟨p', hp', j, hj, rfl⟩
    rw [List.mem_singleton] at hp'
    subst hp'
    rw [area]
    exact hin j hj)
  have vtx : ∀ w ∈ p, (w.lon : ℚ) = obs.lon + ρ * (v.lon - obs.lon) →
      (w.lat : ℚ) = obs.lat + ρ * (v.lat - obs.lat) → False := by
    intro w hw h1 h2
    refine hgen w hw ?_ (inLine_of_ray hv0 hρ0 h1 h2)
    rintro rfl
    apply hv0
    have k1 : ((w.lon : ℚ) - obs.lon) = 0 := by
      have : (1 - ρ) * ((w.lon : ℚ) - obs.lon) = 0 := by linarith
      exact (mul_eq_zero.1 this).resolve_left (by linarith)
    have k2 : ((w.lat : ℚ) - obs.lat) = 0 := by
      have : (1 - ρ) * ((w.lat : ℚ) - obs.lat) = 0 := by linarith
      exact (mul_eq_zero.1 this).resolve_left (by linarith)
    have b1 : (w.lon : ℚ) = obs.lon := by linarith
    have b2 : (w.lat : ℚ) = obs.lat := by linarith
    exact Coord.ext' (by exact_mod_cast b1) (by exact_mod_cast b2)
  have τ0' : 0 < τ := by
    refine lt_of_le_of_ne τ0 (fun h => ?_)
    rw [← h] at l1 l2
    exact vtx _ mf.1 (by linarith) (by linarith)
  have τ1' : τ < 1 := by
    refine lt_of_le_of_ne τ1 (fun h => ?_)
    rw [h] at l1 l2
    exact vtx _ mf.2 (by linarith) (by linarith)
  refine ⟨f, hf, point_crosses ⟨τ0', τ1', l1, l2⟩ hρ0 hρ1 ?_ ?_, hO'⟩
  · intro h
    have A := area obs v
    rw [h, area_zero₁, area_zero₂, Int.cast_zero, mul_zero, mul_zero, mul_zero, zero_add,
      add_zero] at A
    have hq := (mul_eq_zero.1 A).resolve_left τ0'.ne'
    have hq' : area2 obs v f.q = 0 := by exact_mod_cast hq
    have : area2 f.p f.q v - area2 f.p f.q obs = area2 obs v f.p - area2 obs v f.q := by
      unfold area2; ring
    have hV' : 0 < area2 f.p f.q v := by exact_mod_cast hV
    omega
  · have : area2 obs f.p f.q = area2 f.p f.q obs := by unfold area2; ring
    unfold Beside
    omega

/-- From a vertex of a convex polygon, another edge is seen only in the interior angle. -/
theorem Convex.own {p : List Coord} (hc : Convex p) (hs : Simple [p]) {obs v a b : Coord}
    (hcor : CornerOf [p] a obs b) {s : Seg} (hse : EdgeOf [p] s) (h1 : obs ≠ s.p) (h2 : obs ≠ s.q)
    {t r : ℚ} (hr : 0 < r) (h : RayPoint obs v s t r) : InsideCorner a obs b v := by
  have ms := edge_in hse
  obtain ⟨ha, hb⟩ := corner_edges hcor
  have A := h.area a obs
  have B := h.area obs b
  rw [area_zero₂, Int.cast_zero, mul_zero, zero_add] at A
  rw [area_zero₁, Int.cast_zero, mul_zero, zero_add] at B
  obtain ⟨A0, A1⟩ := mean_nonneg (hc.nonneg ha ms.1) (hc.nonneg ha ms.2) h.tpos h.tlt
  obtain ⟨B0, B1⟩ := mean_nonneg (hc.nonneg hb ms.1) (hc.nonneg hb ms.2) h.tpos h.tlt
  simp only at A0 A1 B0 B1
  have A2 : (0 : ℚ) < (area2 a obs v : ℤ) := by
    refine pos_of_mul_pos_right (a := r) ?_ hr.le
    rw [← A]
    refine lt_of_le_of_ne A0 (fun e => ?_)
    obtain ⟨y1, y2⟩ := A1 e.symm
    have := hc.same hs hse ha y1 y2
    rw [this] at h2
    exact h2 rfl
  have B2 : (0 : ℚ) < (area2 obs b v : ℤ) := by
    refine pos_of_mul_pos_right (a := r) ?_ hr.le
    rw [← B]
    refine lt_of_le_of_ne B0 (fun e => ?_)
    obtain ⟨y1, y2⟩ := B1 e.symm
    have := hc.same hs hse hb y1 y2
    rw [this] at h1
    exact h1 rfl
  have mb := edge_in hb
  have hpos : 0 < area2 a obs b := by
    refine lt_of_le_of_ne (hc.nonneg ha mb.2) (fun e => ?_)
    have := hc.same hs hb ha (area_zero₂ _ _) e.symm
    have e1 : obs = a := congrArg Seg.p this
    exact hs.ends_ne ha e1.symm
  left
  refine ⟨hpos, ?_⟩
  have hq : (0 : ℚ) < (area2 a obs b : ℤ) := by exact_mod_cast hpos
  refine ⟨(area2 obs b v : ℤ) / (area2 a obs b : ℤ), (area2 a obs v : ℤ) / (area2 a obs b : ℤ),
    div_pos B2 hq, div_pos A2 hq, ?_, ?_⟩
  · field_simp
    unfold area2
    push_cast
    ring
  · field_simp
    unfold area2
    push_cast
    ring

/-! ### Maps -/

section

variable {ps : List (List Coord)} {obs : Coord}

theorem Islands.simple (h : Islands ps) : Simple ps := ⟨h.nodup, h.size⟩

theorem Islands.simple₁ (h : Islands ps) {A : List Coord} (hA : A ∈ ps) : Simple [A] :=
  ⟨by simpa using (List.nodup_flatten.1 h.nodup).1 A hA, by simpa using h.size A hA⟩

theorem mem_flat {A : List Coord} (hA : A ∈ ps) {w : Coord} (hw : w ∈ A) : w ∈ ps.flatten :=
  List.mem_flatten.2 ⟨A, hA, hw⟩

theorem Islands.same (h : Islands ps) {A B : List Coord} (hA : A ∈ ps) (hB : B ∈ ps) {w : Coord}
    (h1 : w ∈ A) (h2 : w ∈ B) : A = B := h.simple.same hA hB h1 h2

theorem corner_in {A : List Coord} {a v b : Coord} (hA : A ∈ ps) (h : CornerOf [A] a v b) :
    CornerOf ps a v b := by
  obtain ⟨p, hp, i, hi, h⟩ := h
  rw [List.mem_singleton] at hp
  subst hp
  exact ⟨p, hA, i, hi, h⟩

theorem corner_of_mem {A : List Coord} {v : Coord} (hv : v ∈ A) : ∃ a b, CornerOf [A] a v b := by
  obtain ⟨i, hi, rfl⟩ := mem_ringAt hv
  exact ⟨_, _, A, by simp, i, hi, rfl, rfl, rfl⟩

/-- A point outside a convex polygon is on none of its edges. -/
theorem Convex.not_on {p : List Coord} (hc : Convex p) {c : Coord} (h : Outside p c) {s : Seg}
    (hs : EdgeOf [p] s) : ¬ OnSeg s c.lon c.lat := by
  rintro ⟨t, t0, t1, hx, hy⟩
  obtain ⟨i, hi, h⟩ := h
  have ms := edge_in hs
  have q1 : (0 : ℚ) ≤ (area2 (ringAt p i) (ringAt p (i + 1)) s.p : ℤ) := by
    exact_mod_cast hc.nonneg (e := ⟨ringAt p i, ringAt p (i + 1)⟩) ⟨p, by simp, i, hi, rfl⟩ ms.1
  have q2 : (0 : ℚ) ≤ (area2 (ringAt p i) (ringAt p (i + 1)) s.q : ℤ) := by
    exact_mod_cast hc.nonneg (e := ⟨ringAt p i, ringAt p (i + 1)⟩) ⟨p, by simp, i, hi, rfl⟩ ms.2
  have q3 : ((area2 (ringAt p i) (ringAt p (i + 1)) c : ℤ) : ℚ) < 0 := by exact_mod_cast h
  have : ((area2 (ringAt p i) (ringAt p (i + 1)) c : ℤ) : ℚ) =
      (1 - t) * (area2 (ringAt p i) (ringAt p (i + 1)) s.p : ℤ) +
        t * (area2 (ringAt p i) (ringAt p (i + 1)) s.q : ℤ) := by
    unfold area2
    push_cast
    rw [hx, hy]
    ring
  have := mul_nonneg (sub_nonneg.2 t1) q1
  have := mul_nonneg t0 q2
  linarith

/-- An observer of an orderly map is not inside an edge. -/
theorem Orderly.not_on (hO : Orderly ps obs) (hI : Islands ps) (s : Seg) (hs : EdgeOf ps s)
    (n1 : obs ≠ s.p) (n2 : obs ≠ s.q) : ¬ OnSeg s obs.lon obs.lat := by
  obtain ⟨A, hA, hsA⟩ := edge_split hs
  by_cases ho : obs ∈ A
  · rintro ⟨t, t0, t1, hx, hy⟩
    have := (hI.convex A hA).pos hsA ho n1 n2
    have z : ((area2 s.p s.q obs : ℤ) : ℚ) = 0 := by
      unfold area2; push_cast; rw [hx, hy]; ring
    have : area2 s.p s.q obs = 0 := by exact_mod_cast z
    omega
  · exact (hI.convex A hA).not_on (hO.off A hA ho) hsA

/-- The edges facing the observer are met at distances of their own. -/
theorem Orderly.distinct (hO : Orderly ps obs) {e : Seg} (he : EdgeOf ps e)
    (hf : area2 e.p e.q obs < 0) : Distinct ps obs e := by
  have hb : Beside obs e := by
    have : area2 obs e.p e.q = area2 e.p e.q obs := by unfold area2; ring
    unfold Beside
    omega
  have hst : ∀ {s : Seg}, EdgeOf ps s → startOf obs s ∈ ps.flatten := fun hs =>
    (ends_vertices hs).1
  refine ⟨fun s d hs hne ha hae hd => hO.east e s d he hs (Ne.symm hne) hae ha hd, ?_,
    fun s _ _ _ _ => near_start hf⟩
  intro s hs hne hF
  have hoff := filed_off hF
  have ms := edge_mem hs
  have hse := filed_sides' hF (ends_ne_obs hb).1 (hO.line _ (hst he) _ ms.1 hoff.1)
    (hO.line _ (hst he) _ ms.2 hoff.2)
  obtain ⟨-, ⟨h1, -, h3⟩ | ⟨h1, -, h3⟩⟩ := hF
  · exact hO.mixed s hs h1 _ (hst he) h3
  · rcases hO.vertices _ (hst he) _ (hst hs) h3 with h | h
    · rw [h] at h1
      exact sweep_asymm h1 h1
    · omega

/-- Distances along the ray. -/
theorem RayPoint.norm {v : Coord} {s : Seg} {t r : ℚ} (_ : RayPoint obs v s t r) :
    ((obs.lon : ℚ) + r * (v.lon - obs.lon) - obs.lon) ^ 2 +
      ((obs.lat : ℚ) + r * (v.lat - obs.lat) - obs.lat) ^ 2 =
      r ^ 2 * (((v.lon : ℚ) - obs.lon) ^ 2 + ((v.lat : ℚ) - obs.lat) ^ 2) := by ring

theorem SideBySide.not_both {A B : List Coord} (h : SideBySide obs A B) {v : Coord} {e s : Seg}
    (he : EdgeOf [A] e) (hs : EdgeOf [B] s) {t r t' r' : ℚ} (hr : 0 < r) (hr' : 0 < r')
    (h1 : RayPoint obs v e t r) (h2 : RayPoint obs v s t' r') : False := by
  obtain ⟨c, hA, hB⟩ := h
  have me := edge_in he
  have ms := edge_in hs
  have k1 := h1.area obs c
  have k2 := h2.area obs c
  rw [area_zero₁, Int.cast_zero, mul_zero, zero_add] at k1 k2
  have a1 : (0 : ℚ) < (area2 obs c e.p : ℤ) := by exact_mod_cast hA _ me.1
  have a2 : (0 : ℚ) < (area2 obs c e.q : ℤ) := by exact_mod_cast hA _ me.2
  have b1 : ((area2 obs c s.p : ℤ) : ℚ) < 0 := by exact_mod_cast hB _ ms.1
  have b2 : ((area2 obs c s.q : ℤ) : ℚ) < 0 := by exact_mod_cast hB _ ms.2
  have p1 : 0 < r * ((area2 obs c v : ℤ) : ℚ) := by
    rw [← k1]
    exact add_pos (mul_pos (sub_pos.2 h1.tlt) a1) (mul_pos h1.tpos a2)
  have p2 : r' * ((area2 obs c v : ℤ) : ℚ) < 0 := by
    rw [← k2]
    exact add_neg (mul_neg_of_pos_of_neg (sub_pos.2 h2.tlt) b1) (mul_neg_of_pos_of_neg h2.tpos b2)
  have q1 := pos_of_mul_pos_right p1 hr.le
  have q2 : ((area2 obs c v : ℤ) : ℚ) < 0 := by
    by_contra hcon
    push Not at hcon
    have := mul_nonneg hr'.le hcon
    linarith
  linarith

/-- Orderly positions to convex islands are legible. -/
theorem Islands.legible (hI : Islands ps) (hO : Orderly ps obs) : Legible false ps obs := by
  refine ⟨hO.not_on hI, fun v hv _ w hw hne hl _ => absurd hl (hO.line v hv w hw hne.symm),
    fun v hv _ e he hcross => ?_⟩
  have hv0 : v ≠ obs := by
    rintro rfl
    have := hcross.1
    unfold area2 at this; simp at this
  -- the observer's own island
  by_cases hown : ∃ A ∈ ps, obs ∈ A ∧ ∃ s t r, EdgeOf [A] s ∧ obs ≠ s.p ∧ obs ≠ s.q ∧ 0 < r ∧
      RayPoint obs v s t r
  · obtain ⟨A, hA, hoA, s, t, r, hs, n1, n2, hr, hp⟩ := hown
    obtain ⟨a, b, hc⟩ := corner_of_mem hoA
    have hin := (hI.convex A hA).own (hI.simple₁ hA) hc hs n1 n2 hr hp
    exact Or.inl ⟨a, b, corner_in hA hc, hin⟩
  -- another island
  obtain ⟨B, hB, heB⟩ := edge_split he
  have hoB : obs ∉ B := by
    intro hoB
    obtain ⟨t, r, hr, -, hp⟩ := crosses_point hcross
    have hb : Beside obs e := (crosses_filed hcross).choose_spec.1
    exact hown ⟨B, hB, hoB, e, t, r, heB, hb.ne.1, hb.ne.2, hr, hp⟩
  obtain ⟨f, hf, hfc, hfo⟩ := (hI.convex B hB).entry (hI.simple₁ hB) (hO.off B hB hoB)
    (fun w hw hwv => hO.line v hv w (mem_flat hB hw) (Ne.symm hwv)) heB hcross
  have hfp := edge_lift hB hf
  refine Or.inr ⟨f, hfp, hfc, hO.distinct hfp hfo, ?_⟩
  intro s k K hs hk hK hor
  by_cases hsf : s = f
  · rw [hsf]; exact ⟨hfc, hO.far v hv f hfp hfc⟩
  have hkK : k < K := hor.resolve_left hsf
  have hoff := filed_off hk
  have ms := edge_mem hs
  have l1 := hO.line v hv _ ms.1 hoff.1
  have l2 := hO.line v hv _ ms.2 hoff.2
  obtain ⟨t', r', hr', hz⟩ := filed_point' hk hv0 l1 l2
  obtain ⟨t, r, hr, hr1, hx⟩ := crosses_point hfc
  rcases lt_or_ge r' 1 with hlt | hge
  · have hsd := filed_sides' hk hv0 l1 l2
    have hc : Crosses obs v s := by
      refine point_crosses hz hr' hlt ?_ hk.1
      rcases ends_mem obs s with ⟨a, b⟩ | ⟨a, b⟩ <;> rw [a, b] at hsd <;> omega
    exact ⟨hc, hO.far v hv s hs hc⟩
  exfalso
  obtain ⟨C, hC, hsC⟩ := edge_split hs
  by_cases hCB : B = C
  · subst hCB
    by_cases hvB : v ∈ B
    · have hfoff : v ≠ f.p ∧ v ≠ f.q := filed_off hK
      exact hsf ((hI.convex B hB).only (hI.simple₁ hB) hf hsC hvB hfoff.1 hfoff.2 hoff.1 hoff.2 hr1 hx
        hz)
    · obtain ⟨i, hi, hneg⟩ := hI.apart B hB v hv hvB
      have hg : EdgeOf [B] ⟨ringAt B i, ringAt B (i + 1)⟩ := ⟨B, by simp, i, hi, rfl⟩
      have k1 := hx.inner (hI.convex B hB) hf hg
      have k2 := hz.inner (hI.convex B hB) hsC hg
      simp only at k1 k2
      have qn : ((area2 (ringAt B i) (ringAt B (i + 1)) v : ℤ) : ℚ) < 0 := by exact_mod_cast hneg
      generalize ((area2 (ringAt B i) (ringAt B (i + 1)) v : ℤ) : ℚ) = V at k1 k2 qn
      generalize ((area2 (ringAt B i) (ringAt B (i + 1)) obs : ℤ) : ℚ) = O at k1 k2
      have hOp : 0 < O := by
        by_contra hcon
        push Not at hcon
        have a1 := mul_nonneg (sub_pos.2 hr1).le (neg_nonneg.2 hcon)
        have a2 := mul_pos hr (neg_pos.2 qn)
        linarith
      have a1 := mul_nonneg (sub_nonneg.2 hge) hOp.le
      have a2 := mul_pos hr' (neg_pos.2 qn)
      linarith
  · have hoC : obs ∉ C := by
      intro hoC
      exact hown ⟨C, hC, hoC, s, t', r', hsC, hk.1.ne.1, hk.1.ne.2, hr', hz⟩
    rcases hO.order B hB C hC hCB hoB hoC with hh | hh | ⟨R, hR, hin, hout⟩ | ⟨R, hR, hin, hout⟩
    · exact hh.not_both hf hsC hr hr' hx hz
    · exact hh.not_both hsC hf hr' hr hz hx
    · have a1 := filed_le hR (hin f hf) hK
      have a2 := filed_ge hR (hout s hsC) hk
      have a3 : (k : ℚ) < K := by exact_mod_cast hkK
      nlinarith
    · have a1 := hin s hsC _ _ hz.onSeg
      have a2 := hout f hf _ _ hx.onSeg
      rw [hz.norm] at a1
      rw [hx.norm] at a2
      have hn : (0 : ℚ) ≤ ((v.lon : ℚ) - obs.lon) ^ 2 + ((v.lat : ℚ) - obs.lat) ^ 2 := by positivity
      generalize ((v.lon : ℚ) - obs.lon) ^ 2 + ((v.lat : ℚ) - obs.lat) ^ 2 = N at a1 a2 hn
      have b1 : 1 ≤ r' ^ 2 := by nlinarith
      have b2 : r ^ 2 ≤ 1 := by nlinarith
      nlinarith [mul_le_mul_of_nonneg_right b1 hn, mul_le_mul_of_nonneg_right b2 hn]

end

end Capi
