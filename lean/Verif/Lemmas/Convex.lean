import Verif.Props.Hidden
import Verif.Spec.Convex

/-!
# Lemmas on convex obstacles and obstacles in front of others
-/

namespace Capi

open Vistree

/-- An open edge with no end in the direction of `v` has its ends on different sides of the line of
sight. -/
theorem filed_sides' {obs v : Coord} {s : Seg} {k : ℤ} (hF : Filed obs v s k) (hv0 : v ≠ obs)
    (hp : ¬ InLine obs v s.p) (hq : ¬ InLine obs v s.q) :
    area2 obs v (startOf obs s) < 0 ∧ 0 < area2 obs v (endOf obs s) := by
  obtain ⟨hb, hF⟩ := hF
  have hse := area_ends hb
  obtain ⟨hs0, he0⟩ := ends_ne_obs hb
  have hps : ¬ InLine obs v (startOf obs s) ∧ ¬ InLine obs v (endOf obs s) := by
    rcases ends_mem obs s with ⟨a, b⟩ | ⟨a, b⟩ <;> rw [a, b]
    · exact ⟨hp, hq⟩
    · exact ⟨hq, hp⟩
  have off0 : ∀ {c : Coord}, c ≠ obs → offset obs c ≠ ⟨0, 0⟩ := by
    intro c hc e
    apply hc
    have e1 := congrArg Coord.lon e
    have e2 := congrArg Coord.lat e
    simp only [offset] at e1 e2
    exact Coord.ext' (by omega) (by omega)
  have strict : ∀ {a b : Coord}, a ≠ obs → b ≠ obs → ¬ InLine obs a b → SweepBefore obs a b →
      ccwAngle (offset obs a) < ccwAngle (offset obs b) := by
    intro a b ha hb hab hlt
    rcases hlt with ⟨h, -⟩ | ⟨-, -, h | ⟨h, -⟩⟩
    · exact absurd h ha
    · exact h
    · exfalso
      apply hab
      constructor
      · have := cross_sin (offset obs a) (offset obs b)
        rw [← area_offset, h, sub_self, Real.sin_zero, mul_zero] at this
        exact_mod_cast this
      · have := dot_cos (offset obs a) (offset obs b)
        rw [h, sub_self, Real.cos_zero, mul_one] at this
        have hpos := mul_pos (len_pos (off0 ha)) (len_pos (off0 hb))
        rw [← this] at hpos
        have : 0 < (offset obs a).dot (offset obs b) := by exact_mod_cast hpos
        unfold Coord.dot offset at this
        linarith
  have fromSin : ∀ {a b : Coord}, a ≠ obs → b ≠ obs →
      0 < Real.sin (ccwAngle (offset obs b) - ccwAngle (offset obs a)) → 0 < area2 obs a b := by
    intro a b ha hb h
    have := cross_sin (offset obs a) (offset obs b)
    rw [← area_offset] at this
    have hpos := mul_pos (mul_pos (len_pos (off0 ha)) (len_pos (off0 hb))) h
    rw [← this] at hpos
    exact_mod_cast hpos
  have hsin : 0 < Real.sin (ccwAngle (offset obs (endOf obs s)) -
      ccwAngle (offset obs (startOf obs s))) := by
    have := cross_sin (offset obs (startOf obs s)) (offset obs (endOf obs s))
    rw [← area_offset] at this
    have hr : (0 : ℝ) < ((area2 obs (startOf obs s) (endOf obs s) : ℤ) : ℝ) := by exact_mod_cast hse
    rw [this] at hr
    by_contra hcon
    push Not at hcon
    have := mul_pos (len_pos (off0 hs0)) (len_pos (off0 he0))
    nlinarith
  obtain ⟨a0, a1⟩ := angle_range (offset obs (startOf obs s))
  obtain ⟨b0, b1⟩ := angle_range (offset obs (endOf obs s))
  obtain ⟨z0, z1⟩ := angle_range (offset obs v)
  have hpi := Real.pi_pos
  have hsv : ¬ InLine obs (startOf obs s) v := fun h => hps.1 ⟨by
    rw [area2_swap, h.1, neg_zero], by linarith [h.2]⟩
  have hes : ¬ InLine obs (endOf obs s) (startOf obs s) := fun h => by
    have := h.1
    rw [area2_swap] at this
    omega
  have s1 := sin_pos_cases hsin (by linarith)
  suffices h : 0 < Real.sin (ccwAngle (offset obs v) - ccwAngle (offset obs (startOf obs s))) ∧
      0 < Real.sin (ccwAngle (offset obs (endOf obs s)) - ccwAngle (offset obs v)) by
    have h1 := fromSin hs0 hv0 h.1
    rw [area2_swap] at h1
    exact ⟨by linarith, fromSin hv0 he0 h.2⟩
  have wrap : ccwAngle (offset obs (endOf obs s)) < ccwAngle (offset obs (startOf obs s)) →
      ccwAngle (offset obs (endOf obs s)) - ccwAngle (offset obs (startOf obs s)) < -Real.pi := by
    intro hlt
    rcases s1 with ⟨h, -⟩ | h
    · exfalso; linarith
    · exact h
  rcases hF with ⟨ha, h2, -⟩ | ⟨h1, h2, -⟩
  · have w := wrap (strict he0 hs0 hes (across_wraps ha))
    have v2 := strict hv0 he0 hps.2 h2
    constructor
    · rw [← Real.sin_add_two_pi]
      exact Real.sin_pos_of_pos_of_lt_pi (by linarith) (by linarith)
    · exact Real.sin_pos_of_pos_of_lt_pi (by linarith) (by linarith)
  · have v1 := strict hs0 hv0 hsv h1
    rcases h2 with h2 | h2
    · have w := wrap (strict he0 hs0 hes h2)
      constructor
      · exact Real.sin_pos_of_pos_of_lt_pi (by linarith) (by linarith)
      · rw [← Real.sin_add_two_pi]
        exact Real.sin_pos_of_pos_of_lt_pi (by linarith) (by linarith)
    · have v2 := strict hv0 he0 hps.2 h2
      rcases s1 with ⟨_, h⟩ | h
      · exact ⟨Real.sin_pos_of_pos_of_lt_pi (by linarith) (by linarith),
          Real.sin_pos_of_pos_of_lt_pi (by linarith) (by linarith)⟩
      · exfalso; linarith

/-- An open edge with no end on the line of sight has its ends on different sides of it. -/
theorem filed_sides {obs v : Coord} {s : Seg} {k : ℤ} (hF : Filed obs v s k) (hv0 : v ≠ obs)
    (hp : area2 obs v s.p ≠ 0) (hq : area2 obs v s.q ≠ 0) :
    area2 obs v (startOf obs s) < 0 ∧ 0 < area2 obs v (endOf obs s) :=
  filed_sides' hF hv0 (fun h => hp h.1) fun h => hq h.1

/-- A point of both the open segment `s` and the ray from `obs` through `v`, `r` times as far as
`v`. -/
structure RayPoint (obs v : Coord) (s : Seg) (t r : ℚ) : Prop where
  tpos : 0 < t
  tlt : t < 1
  lon : (s.p.lon : ℚ) + t * (s.q.lon - s.p.lon) = obs.lon + r * (v.lon - obs.lon)
  lat : (s.p.lat : ℚ) + t * (s.q.lat - s.p.lat) = obs.lat + r * (v.lat - obs.lat)

/-- Signed areas along both. -/
theorem RayPoint.area {obs v : Coord} {s : Seg} {t r : ℚ} (h : RayPoint obs v s t r) (a b : Coord) :
    (1 - t) * (area2 a b s.p : ℚ) + t * (area2 a b s.q : ℚ) =
      (1 - r) * (area2 a b obs : ℚ) + r * (area2 a b v : ℚ) := by
  have h1 := h.lon
  have h2 := h.lat
  unfold area2
  push_cast
  linear_combination ((b.lon : ℚ) - a.lon) * h2 - ((b.lat : ℚ) - a.lat) * h1

theorem RayPoint.onSeg {obs v : Coord} {s : Seg} {t r : ℚ} (h : RayPoint obs v s t r) :
    OnSeg s (obs.lon + r * (v.lon - obs.lon)) (obs.lat + r * (v.lat - obs.lat)) :=
  ⟨t, h.tpos.le, h.tlt.le, h.lon.symm, h.lat.symm⟩

/-- A segment whose ends are to the right and to the left of the line of sight, with the observer
to its left, has a point on the ray. -/
theorem ray_point {obs v a b : Coord} (h0 : 0 < area2 obs a b) (ha : area2 obs v a < 0)
    (hb : 0 < area2 obs v b) : ∃ t r, 0 < r ∧ RayPoint obs v ⟨a, b⟩ t r := by
  have qa : ((area2 obs v a : ℤ) : ℚ) < 0 := by exact_mod_cast ha
  have qb : (0 : ℚ) < (area2 obs v b : ℤ) := by exact_mod_cast hb
  have q0 : (0 : ℚ) < (area2 obs a b : ℤ) := by exact_mod_cast h0
  have hd : (0 : ℚ) < (area2 obs v b : ℤ) - (area2 obs v a : ℤ) := by linarith
  refine ⟨-(area2 obs v a : ℤ) / ((area2 obs v b : ℤ) - (area2 obs v a : ℤ)),
    (area2 obs a b : ℤ) / ((area2 obs v b : ℤ) - (area2 obs v a : ℤ)), div_pos q0 hd,
    div_pos (by linarith) hd, (div_lt_one hd).2 (by linarith), ?_, ?_⟩
  · field_simp
    unfold area2
    push_cast
    ring
  · field_simp
    unfold area2
    push_cast
    ring

theorem RayPoint.swap {obs v a b : Coord} {t r : ℚ} (h : RayPoint obs v ⟨a, b⟩ t r) :
    RayPoint obs v ⟨b, a⟩ (1 - t) r :=
  ⟨by linarith [h.tlt], by linarith [h.tpos], by have := h.lon; simp only at *; linarith,
    by have := h.lat; simp only at *; linarith⟩

/-- An open edge with no end in the direction of `v` meets the ray. -/
theorem filed_point' {obs v : Coord} {s : Seg} {k : ℤ} (hF : Filed obs v s k) (hv0 : v ≠ obs)
    (hp : ¬ InLine obs v s.p) (hq : ¬ InLine obs v s.q) : ∃ t r, 0 < r ∧ RayPoint obs v s t r := by
  obtain ⟨h1, h2⟩ := filed_sides' hF hv0 hp hq
  obtain ⟨t, r, hr, h⟩ := ray_point (area_ends hF.1) h1 h2
  rcases ends_mem obs s with ⟨a, b⟩ | ⟨a, b⟩ <;> rw [a, b] at h
  · exact ⟨t, r, hr, h⟩
  · exact ⟨1 - t, r, hr, h.swap⟩

/-- An open edge with no end on the line of sight meets the ray. -/
theorem filed_point {obs v : Coord} {s : Seg} {k : ℤ} (hF : Filed obs v s k) (hv0 : v ≠ obs)
    (hp : area2 obs v s.p ≠ 0) (hq : area2 obs v s.q ≠ 0) : ∃ t r, 0 < r ∧ RayPoint obs v s t r :=
  filed_point' hF hv0 (fun h => hp h.1) fun h => hq h.1

/-- An edge properly crossed meets the ray before `v`. -/
theorem crosses_point {obs v : Coord} {s : Seg} (h : Crosses obs v s) :
    ∃ t r, 0 < r ∧ r < 1 ∧ RayPoint obs v s t r := by
  obtain ⟨k, hk⟩ := crosses_filed h
  have hv0 : v ≠ obs := by
    rintro rfl
    have := h.1
    unfold area2 at this; simp at this
  obtain ⟨t, r, hr, hp⟩ := filed_point hk hv0 (fun e => by have := h.1; rw [e] at this; simp at this)
    (fun e => by have := h.1; rw [e] at this; simp at this)
  refine ⟨t, r, hr, ?_, hp⟩
  have := hp.area s.p s.q
  have e1 : area2 s.p s.q s.p = 0 := by unfold area2; ring
  have e2 : area2 s.p s.q s.q = 0 := by unfold area2; ring
  rw [e1, e2] at this
  have h2 : ((area2 s.p s.q obs : ℤ) : ℚ) * ((area2 s.p s.q v : ℤ) : ℚ) < 0 := by exact_mod_cast h.2
  simp only [Int.cast_zero, mul_zero, add_zero] at this
  by_contra hc
  push Not at hc
  have k1 := mul_pos hr (mul_self_pos.2 (right_ne_zero_of_mul h2.ne))
  have k2 := mul_nonneg (sub_nonneg.2 hc) (neg_nonneg.2 h2.le)
  have k3 : r * (((area2 s.p s.q v : ℤ) : ℚ) * ((area2 s.p s.q v : ℤ) : ℚ)) +
      (r - 1) * -(((area2 s.p s.q obs : ℤ) : ℚ) * ((area2 s.p s.q v : ℤ) : ℚ)) = 0 := by
    linear_combination -((area2 s.p s.q v : ℤ) : ℚ) * this
  linarith

/-- Conversely. -/
theorem point_crosses {obs v : Coord} {s : Seg} {t r : ℚ} (h : RayPoint obs v s t r) (hr : 0 < r)
    (hr1 : r < 1) (hp : area2 obs v s.p ≠ 0) (hb : Beside obs s) : Crosses obs v s := by
  have h1 := h.area obs v
  have h2 := h.area s.p s.q
  have e0 : area2 obs v obs = 0 := by unfold area2; ring
  have e0' : area2 obs v v = 0 := by unfold area2; ring
  have e1 : area2 s.p s.q s.p = 0 := by unfold area2; ring
  have e2 : area2 s.p s.q s.q = 0 := by unfold area2; ring
  rw [e0, e0'] at h1
  rw [e1, e2] at h2
  simp only [Int.cast_zero, mul_zero, add_zero] at h1 h2
  have hp' : ((area2 obs v s.p : ℤ) : ℚ) ≠ 0 := by exact_mod_cast hp
  have hb' : ((area2 s.p s.q obs : ℤ) : ℚ) ≠ 0 := by
    have : area2 s.p s.q obs = area2 obs s.p s.q := by unfold area2; ring
    rw [this]
    exact_mod_cast hb
  have t0 := h.tpos
  have t1 := h.tlt
  constructor
  · have : ((area2 obs v s.p : ℤ) : ℚ) * ((area2 obs v s.q : ℤ) : ℚ) < 0 := by
      have k := mul_self_pos.2 hp'
      have : t * (((area2 obs v s.p : ℤ) : ℚ) * ((area2 obs v s.q : ℤ) : ℚ)) =
        -(1 - t) * (((area2 obs v s.p : ℤ) : ℚ) * ((area2 obs v s.p : ℤ) : ℚ)) := by
        linear_combination ((area2 obs v s.p : ℤ) : ℚ) * h1
      have k2 := mul_pos (sub_pos.2 t1) k
      by_contra hc
      push Not at hc
      nlinarith [mul_nonneg t0.le hc]
    exact_mod_cast this
  · have : ((area2 s.p s.q obs : ℤ) : ℚ) * ((area2 s.p s.q v : ℤ) : ℚ) < 0 := by
      have k := mul_self_pos.2 hb'
      have : r * (((area2 s.p s.q obs : ℤ) : ℚ) * ((area2 s.p s.q v : ℤ) : ℚ)) =
        -(1 - r) * (((area2 s.p s.q obs : ℤ) : ℚ) * ((area2 s.p s.q obs : ℤ) : ℚ)) := by
        linear_combination -((area2 s.p s.q obs : ℤ) : ℚ) * h2
      have k2 := mul_pos (sub_pos.2 hr1) k
      by_contra hc
      push Not at hc
      nlinarith [mul_nonneg hr.le hc]
    exact_mod_cast this

/-! ### Convex polygons -/

theorem Convex.pos {p : List Coord} (hc : Convex p) {e : Seg} (he : EdgeOf [p] e) {w : Coord}
    (hw : w ∈ p) (h1 : w ≠ e.p) (h2 : w ≠ e.q) : 0 < area2 e.p e.q w := by
  obtain ⟨p', hp', i, hi, rfl⟩ := he
  rw [List.mem_singleton] at hp'
  subst hp'
  exact hc i hi w hw h1 h2

theorem Convex.nonneg {p : List Coord} (hc : Convex p) {e : Seg} (he : EdgeOf [p] e) {w : Coord}
    (hw : w ∈ p) : 0 ≤ area2 e.p e.q w := by
  by_cases h1 : w = e.p
  · rw [h1]; unfold area2; nlinarith
  · by_cases h2 : w = e.q
    · rw [h2]; unfold area2; nlinarith
    · exact (hc.pos he hw h1 h2).le

theorem edge_in {p : List Coord} {e : Seg} (he : EdgeOf [p] e) : e.p ∈ p ∧ e.q ∈ p := by
  have := edge_mem he
  simpa using this

theorem edge_from {p : List Coord} {v : Coord} (hv : v ∈ p) : ∃ n, EdgeOf [p] ⟨v, n⟩ := by
  obtain ⟨i, hi, rfl⟩ := mem_ringAt hv
  exact ⟨_, p, by simp, i, hi, rfl⟩

/-- Both ends of an edge on the line of another edge. -/
theorem Convex.same {p : List Coord} (hc : Convex p) (hs : Simple [p]) {e f : Seg}
    (he : EdgeOf [p] e) (hf : EdgeOf [p] f) (h1 : area2 f.p f.q e.p = 0) (h2 : area2 f.p f.q e.q = 0) :
    e = f := by
  have m := edge_in he
  have hne := hs.ends_ne he
  have k1 : e.p = f.p ∨ e.p = f.q := by
    by_contra h
    push Not at h
    exact absurd h1 (hc.pos hf m.1 h.1 h.2).ne'
  have k2 : e.q = f.p ∨ e.q = f.q := by
    by_contra h
    push Not at h
    exact absurd h2 (hc.pos hf m.2 h.1 h.2).ne'
  apply hs.edge_eq he hf
  unfold Seg.sameAs
  simp only [Bool.or_eq_true, Bool.and_eq_true, beq_iff_eq]
  rcases k1 with k1 | k1 <;> rcases k2 with k2 | k2
  · exact absurd (k1.trans k2.symm) hne
  · exact Or.inl ⟨k1, k2⟩
  · exact Or.inr ⟨k1, k2⟩
  · exact absurd (k1.trans k2.symm) hne

/-- A weighted mean of nonnegative numbers. -/
theorem mean_nonneg {a b : ℤ} {t : ℚ} (ha : 0 ≤ a) (hb : 0 ≤ b) (t0 : 0 < t) (t1 : t < 1) :
    0 ≤ (1 - t) * (a : ℚ) + t * (b : ℚ) ∧
      ((1 - t) * (a : ℚ) + t * (b : ℚ) = 0 → a = 0 ∧ b = 0) := by
  have qa : (0 : ℚ) ≤ a := by exact_mod_cast ha
  have qb : (0 : ℚ) ≤ b := by exact_mod_cast hb
  have ka := mul_nonneg (sub_pos.2 t1).le qa
  have kb := mul_nonneg t0.le qb
  refine ⟨by linarith, fun h => ?_⟩
  have za : (1 - t) * (a : ℚ) = 0 := by linarith
  have zb : t * (b : ℚ) = 0 := by linarith
  rcases mul_eq_zero.1 za with h1 | h1
  · exact absurd h1 (sub_pos.2 t1).ne'
  · rcases mul_eq_zero.1 zb with h2 | h2
    · exact absurd h2 t0.ne'
    · exact ⟨by exact_mod_cast h1, by exact_mod_cast h2⟩

/-- The ray through a vertex behind an edge of a convex polygon meets no other edge off the
vertex. -/
theorem Convex.only {p : List Coord} (hc : Convex p) (hs : Simple [p]) {obs v : Coord} {e s : Seg}
    (he : EdgeOf [p] e) (hse : EdgeOf [p] s) (hv : v ∈ p) (v1 : v ≠ e.p) (v2 : v ≠ e.q) (v3 : v ≠ s.p)
    (v4 : v ≠ s.q) {t r t' r' : ℚ} (hr1 : r < 1) (hx : RayPoint obs v e t r)
    (hz : RayPoint obs v s t' r') : s = e := by
  have me := edge_in he
  have ms := edge_in hse
  have E0 := hx.area e.p e.q
  have E1 := hz.area e.p e.q
  have S0 := hz.area s.p s.q
  have S1 := hx.area s.p s.q
  have z1 : ∀ a b : Coord, area2 a b a = 0 := fun a b => by unfold area2; ring
  have z2 : ∀ a b : Coord, area2 a b b = 0 := fun a b => by unfold area2; ring
  rw [z1, z2, Int.cast_zero, mul_zero, mul_zero, add_zero] at E0 S0
  have Ev : (0 : ℚ) < (area2 e.p e.q v : ℤ) := by exact_mod_cast hc.pos he hv v1 v2
  have Sv : (0 : ℚ) < (area2 s.p s.q v : ℤ) := by exact_mod_cast hc.pos hse hv v3 v4
  obtain ⟨Ez, Ez0⟩ := mean_nonneg (hc.nonneg he ms.1) (hc.nonneg he ms.2) hz.tpos hz.tlt
  obtain ⟨Sx, -⟩ := mean_nonneg (hc.nonneg hse me.1) (hc.nonneg hse me.2) hx.tpos hx.tlt
  -- the other point is not nearer
  have k1 : (1 - r) * ((1 - r') * ((area2 e.p e.q obs : ℤ) : ℚ) + r' * ((area2 e.p e.q v : ℤ) : ℚ)) =
      (r' - r) * ((area2 e.p e.q v : ℤ) : ℚ) := by linear_combination -(1 - r') * E0
  have k2 : (1 - r') * ((1 - r) * ((area2 s.p s.q obs : ℤ) : ℚ) + r * ((area2 s.p s.q v : ℤ) : ℚ)) =
      (r - r') * ((area2 s.p s.q v : ℤ) : ℚ) := by linear_combination -(1 - r) * S0
  rw [← E1] at k1
  rw [← S1] at k2
  have hge : r ≤ r' := by
    by_contra hcon
    push Not at hcon
    have := mul_nonneg (sub_pos.2 hr1).le Ez
    have := mul_pos (sub_pos.2 hcon) Ev
    linarith
  rcases lt_trichotomy r' 1 with hr | hr | hr
  · have hle : r' ≤ r := by
      by_contra hcon
      push Not at hcon
      have := mul_nonneg (sub_pos.2 hr).le Sx
      have := mul_pos (sub_pos.2 hcon) Sv
      linarith
    have heq : r' = r := le_antisymm hle hge
    rw [heq] at k1
    have : (1 - t') * ((area2 e.p e.q s.p : ℤ) : ℚ) + t' * ((area2 e.p e.q s.q : ℤ) : ℚ) = 0 := by
      have h0 : (1 - r) ≠ 0 := (sub_pos.2 hr1).ne'
      have : (1 - r) * ((1 - t') * ((area2 e.p e.q s.p : ℤ) : ℚ) + t' * ((area2 e.p e.q s.q : ℤ) : ℚ))
          = 0 := by rw [k1]; ring
      exact (mul_eq_zero.1 this).resolve_left h0
    obtain ⟨y1, y2⟩ := Ez0 this
    exact hc.same hs hse he y1 y2
  · exfalso
    rw [hr] at S0
    linarith
  · exfalso
    obtain ⟨n, hn⟩ := edge_from hv
    have F0 := hx.area v n
    have F1 := hz.area v n
    rw [z1, Int.cast_zero, mul_zero, add_zero] at F0 F1
    obtain ⟨Fx, Fx0⟩ := mean_nonneg (hc.nonneg hn me.1) (hc.nonneg hn me.2) hx.tpos hx.tlt
    obtain ⟨Fz, -⟩ := mean_nonneg (hc.nonneg hn ms.1) (hc.nonneg hn ms.2) hz.tpos hz.tlt
    simp only at Fx Fx0 Fz
    have F : ((area2 v n obs : ℤ) : ℚ) = 0 := by
      rw [F0] at Fx
      rw [F1] at Fz
      have := nonneg_of_mul_nonneg_right Fx (sub_pos.2 hr1)
      apply le_antisymm _ this
      by_contra hcon
      push Not at hcon
      have := mul_pos (sub_pos.2 hr) hcon
      linarith
    rw [F, mul_zero] at F0
    obtain ⟨y1, y2⟩ := Fx0 F0
    have := hc.same hs he hn y1 y2
    rw [this] at v1
    exact v1 rfl

/-- Nor does it pass through another vertex. -/
theorem Convex.not_through {p : List Coord} (hc : Convex p) (hs : Simple [p]) {obs v w : Coord}
    {e : Seg} (he : EdgeOf [p] e) (hv : v ∈ p) (hcross : Crosses obs v e) (hw : w ∈ p) (hne : w ≠ v) :
    area2 obs v w ≠ 0 := by
  intro h0
  obtain ⟨t, r, hr0, hr1, hx⟩ := crosses_point hcross
  have me := edge_in he
  have z1 : ∀ a b : Coord, area2 a b a = 0 := fun a b => by unfold area2; ring
  have z2 : ∀ a b : Coord, area2 a b b = 0 := fun a b => by unfold area2; ring
  have w1 : w ≠ e.p := by rintro rfl; have := hcross.1; rw [h0] at this; simp at this
  have w2 : w ≠ e.q := by rintro rfl; have := hcross.1; rw [h0] at this; simp at this
  have v1 : v ≠ e.p := by rintro h; have := hcross.2; rw [h, z1] at this; simp at this
  have v2 : v ≠ e.q := by rintro h; have := hcross.2; rw [h, z2] at this; simp at this
  have hv0 : v ≠ obs := by
    rintro rfl
    have := hcross.1
    unfold area2 at this; simp at this
  -- the place of `w` on the line
  obtain ⟨r', l1, l2⟩ : ∃ r' : ℚ, (w.lon : ℚ) = obs.lon + r' * (v.lon - obs.lon) ∧
      (w.lat : ℚ) = obs.lat + r' * (v.lat - obs.lat) := by
    have q0 : ((v.lon : ℚ) - obs.lon) * (w.lat - obs.lat) = (v.lat - obs.lat) * (w.lon - obs.lon) := by
      have : ((area2 obs v w : ℤ) : ℚ) = 0 := by exact_mod_cast h0
      unfold area2 at this
      push_cast at this
      linarith
    by_cases hl : (v.lon : ℚ) - obs.lon = 0
    · have hm : (v.lat : ℚ) - obs.lat ≠ 0 := by
        intro hm
        apply hv0
        have a1 : (v.lon : ℚ) = obs.lon := by linarith
        have a2 : (v.lat : ℚ) = obs.lat := by linarith
        exact Coord.ext' (by exact_mod_cast a1) (by exact_mod_cast a2)
      refine ⟨(w.lat - obs.lat) / (v.lat - obs.lat), ?_, ?_⟩
      · rw [hl, zero_mul] at q0
        have := (mul_eq_zero.1 q0.symm).resolve_left hm
        rw [hl]; linarith
      · rw [div_mul_cancel₀ _ hm]; ring
    · refine ⟨(w.lon - obs.lon) / (v.lon - obs.lon), ?_, ?_⟩
      · rw [div_mul_cancel₀ _ hl]; ring
      · rw [div_mul_eq_mul_div, mul_comm, ← q0]
        field_simp
        ring
  have area : ∀ a b : Coord, ((area2 a b w : ℤ) : ℚ) =
      (1 - r') * ((area2 a b obs : ℤ) : ℚ) + r' * ((area2 a b v : ℤ) : ℚ) := by
    intro a b
    unfold area2
    push_cast
    rw [l1, l2]
    ring
  have E0 := hx.area e.p e.q
  rw [z1, z2, Int.cast_zero, mul_zero, mul_zero, add_zero] at E0
  have Ev : (0 : ℚ) < (area2 e.p e.q v : ℤ) := by exact_mod_cast hc.pos he hv v1 v2
  have Ew : (0 : ℚ) < (area2 e.p e.q w : ℤ) := by exact_mod_cast hc.pos he hw w1 w2
  have hlt : r < r' := by
    have k1 : (1 - r) * ((area2 e.p e.q w : ℤ) : ℚ) = (r' - r) * ((area2 e.p e.q v : ℤ) : ℚ) := by
      rw [area]; linear_combination -(1 - r') * E0
    by_contra hcon
    push Not at hcon
    have := mul_pos (sub_pos.2 hr1) Ew
    have := mul_nonneg (sub_nonneg.2 hcon) Ev.le
    linarith
  have final : ∀ {u n : Coord}, u ≠ e.p → EdgeOf [p] ⟨u, n⟩ →
      (1 - t) * ((area2 u n e.p : ℤ) : ℚ) + t * ((area2 u n e.q : ℤ) : ℚ) = 0 → False := by
    intro u n hu hn hz
    obtain ⟨y1, y2⟩ := (mean_nonneg (hc.nonneg hn me.1) (hc.nonneg hn me.2) hx.tpos hx.tlt).2 hz
    have := hc.same hs he hn y1 y2
    rw [this] at hu
    exact hu rfl
  rcases lt_trichotomy r' 1 with hr | hr | hr
  · obtain ⟨n, hn⟩ := edge_from hw
    have F0 := hx.area w n
    have Fw := area w n
    rw [z1, Int.cast_zero] at Fw
    have Fv : (0 : ℚ) ≤ (area2 w n v : ℤ) := by exact_mod_cast hc.nonneg hn hv
    obtain ⟨Fx, -⟩ := mean_nonneg (hc.nonneg hn me.1) (hc.nonneg hn me.2) hx.tpos hx.tlt
    simp only at Fx
    refine final w1 hn (le_antisymm ?_ Fx)
    have k1 : (1 - r') * ((1 - t) * ((area2 w n e.p : ℤ) : ℚ) + t * ((area2 w n e.q : ℤ) : ℚ)) =
        (r - r') * ((area2 w n v : ℤ) : ℚ) := by
      rw [F0]; linear_combination -(1 - r) * Fw
    by_contra hcon
    push Not at hcon
    have := mul_pos (sub_pos.2 hr) hcon
    have := mul_nonneg (sub_pos.2 hlt).le Fv
    linarith
  · apply hne
    rw [hr] at l1 l2
    have a1 : (w.lon : ℚ) = v.lon := by linarith
    have a2 : (w.lat : ℚ) = v.lat := by linarith
    exact Coord.ext' (by exact_mod_cast a1) (by exact_mod_cast a2)
  · obtain ⟨n, hn⟩ := edge_from hv
    have F0 := hx.area v n
    have Fw := area v n
    rw [z1, Int.cast_zero, mul_zero, add_zero] at F0 Fw
    have Fw' : (0 : ℚ) ≤ (area2 v n w : ℤ) := by exact_mod_cast hc.nonneg hn hw
    obtain ⟨Fx, -⟩ := mean_nonneg (hc.nonneg hn me.1) (hc.nonneg hn me.2) hx.tpos hx.tlt
    simp only at Fx
    refine final v1 hn (le_antisymm ?_ Fx)
    rw [F0]
    have : ((area2 v n obs : ℤ) : ℚ) ≤ 0 := by
      by_contra hcon
      push Not at hcon
      have := mul_pos (sub_pos.2 hr) hcon
      linarith
    have := mul_nonneg (sub_pos.2 hr1).le (neg_nonneg.2 this)
    linarith

/-- An open edge does not end at `v`. -/
theorem filed_off {obs v : Coord} {s : Seg} {k : ℤ} (hF : Filed obs v s k) : v ≠ s.p ∧ v ≠ s.q := by
  have key : v ≠ startOf obs s ∧ v ≠ endOf obs s := by
    obtain ⟨-, ⟨ha, h2, -⟩ | ⟨h1, h2, -⟩⟩ := hF
    · constructor
      · intro h
        have := across_wraps ha
        rw [← h] at this
        exact sweep_asymm this h2
      · intro h
        rw [← h] at h2
        exact sweep_asymm h2 h2
    · constructor
      · intro h
        rw [← h] at h1
        exact sweep_asymm h1 h1
      · intro h
        rw [← h] at h2
        rcases h2 with h2 | h2
        · exact sweep_asymm h1 h2
        · exact sweep_asymm h2 h2
  rcases ends_mem obs s with ⟨a, b⟩ | ⟨a, b⟩ <;> rw [a, b] at key
  · exact key
  · exact key.symm

end Capi
