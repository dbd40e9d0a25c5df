import Verif.Lemmas.Legible
import Verif.Lemmas.OrderlyCheck

/-!
# A criterion for legible positions that can be computed
-/

namespace Capi

/-- The direction of `v` is not between those of the ends of `s`, nor that of an end. -/
def ShutAt (obs v : Coord) (s : Seg) : Prop :=
  ¬ (area2 obs v (startOf obs s) < 0 ∧ 0 < area2 obs v (endOf obs s)) ∧
    (InLine obs v s.p → v = s.p) ∧ (InLine obs v s.q → v = s.q)

theorem ShutAt.not_filed {obs v : Coord} {s : Seg} (h : ShutAt obs v s) (hv0 : v ≠ obs) {k : ℤ} :
    ¬ Filed obs v s k := by
  intro hF
  have hoff := filed_off hF
  exact h.1 (filed_sides' hF hv0 (fun e => hoff.1 (h.2.1 e)) (fun e => hoff.2 (h.2.2 e)))

instance (obs v : Coord) (s : Seg) : Decidable (ShutAt obs v s) := by
  unfold ShutAt; infer_instance

/-- No point of `s` is within a microdegree of `v`. -/
def FarFrom (v : Coord) (s : Seg) : Prop :=
  |s.q.lon - s.p.lon| + |s.q.lat - s.p.lat| < |area2 s.p s.q v|

instance (v : Coord) (s : Seg) : Decidable (FarFrom v s) := by unfold FarFrom; infer_instance

/-- `c` is not on `s`. -/
def OffEdge (s : Seg) (c : Coord) : Prop :=
  area2 s.p s.q c ≠ 0 ∨ c.lon < min s.p.lon s.q.lon ∨ max s.p.lon s.q.lon < c.lon ∨
    c.lat < min s.p.lat s.q.lat ∨ max s.p.lat s.q.lat < c.lat

instance (s : Seg) (c : Coord) : Decidable (OffEdge s c) := by unfold OffEdge; infer_instance

/-- `e` faces the observer, and no other edge is met at its distance. -/
def DistinctBy (ps : List (List Coord)) (obs : Coord) (e : Seg) : Prop :=
  area2 e.p e.q obs < 0 ∧ ∀ s ∈ edgeList ps, s ≠ e →
    (AcrossEast obs s → AcrossEast obs e → EastApart obs s e) ∧
    (ShutAt obs (startOf obs e) s ∨ ((AcrossEast obs s → EastOff obs s (startOf obs e)) ∧
      dist2 obs (startOf obs s) ≠ dist2 obs (startOf obs e)))

instance (ps : List (List Coord)) (obs : Coord) (e : Seg) : Decidable (DistinctBy ps obs e) := by
  unfold DistinctBy; infer_instance

/-- `s` is not met nearer than `e` by the sweep on its way to `v`. -/
def NotNearer (obs v : Coord) (e s : Seg) : Prop :=
  if obs.lat ≤ v.lat ∧ AcrossEast obs e then
    if AcrossEast obs s then
      0 ≤ eastTimes obs e * rise e ∧ 0 ≤ eastTimes obs s * rise s ∧
        eastTimes obs e * rise e * rise s ^ 2 + 2 * rise e ^ 2 * rise s ^ 2 ≤
          eastTimes obs s * rise s * rise e ^ 2
    else (|eastTimes obs e| + |rise e|) ^ 2 ≤ dist2 obs (startOf obs s) * rise e ^ 2
  else if obs.lat ≤ v.lat ∧ AcrossEast obs s then
    |rise s| ≤ |eastTimes obs s| ∧
      dist2 obs (startOf obs e) * rise s ^ 2 ≤ (|eastTimes obs s| - |rise s|) ^ 2
  else dist2 obs (startOf obs e) ≤ dist2 obs (startOf obs s)

instance (obs v : Coord) (e s : Seg) : Decidable (NotNearer obs v e s) := by
  unfold NotNearer; infer_instance

/-- The criterion for covered vertices. -/
def CoveredBy (ps : List (List Coord)) (obs v : Coord) : Prop :=
  ∃ e ∈ edgeList ps, Crosses obs v e ∧ FarFrom v e ∧ DistinctBy ps obs e ∧
    ∀ s ∈ edgeList ps, s ≠ e → ShutAt obs v s ∨ (Crosses obs v s ∧ FarFrom v s) ∨ NotNearer obs v e s

instance (ps : List (List Coord)) (obs v : Coord) : Decidable (CoveredBy ps obs v) := by
  unfold CoveredBy; infer_instance

/-- `c` is in the direction of the interior angle. -/
def InCorner (a v b c : Coord) : Prop :=
  (0 < area2 a v b ∧ 0 < area2 a v c ∧ 0 < area2 v b c) ∨
    (area2 a v b < 0 ∧ (0 < area2 a v c ∨ 0 < area2 v b c))

instance (a v b c : Coord) : Decidable (InCorner a v b c) := by unfold InCorner; infer_instance

/-- The criterion for directions inside the corner the observer is at. -/
def InwardBy (ps : List (List Coord)) (obs v : Coord) : Prop :=
  ∃ p ∈ ps, ∃ i < p.length, ringAt p i = obs ∧
    InCorner (ringAt p (i + p.length - 1)) obs (ringAt p (i + 1)) v

instance (ps : List (List Coord)) (obs v : Coord) : Decidable (InwardBy ps obs v) := by
  unfold InwardBy; infer_instance

instance (half : Bool) (obs v : Coord) : Decidable (Swept half obs v) := by
  unfold Swept; infer_instance

/-- The criterion. -/
def LegibleBy (half : Bool) (ps : List (List Coord)) (obs : Coord) : Prop :=
  (∀ s ∈ edgeList ps, obs = s.p ∨ obs = s.q ∨ OffEdge s obs) ∧
  ∀ v ∈ ps.flatten, Swept half obs v →
    (∃ s ∈ edgeList ps, Crosses obs v s) ∨
      (∃ w ∈ ps.flatten, InLine obs v w ∧ dist2 obs w < dist2 obs v) →
    InwardBy ps obs v ∨ CoveredBy ps obs v

instance (half : Bool) (ps : List (List Coord)) (obs : Coord) :
    Decidable (LegibleBy half ps obs) := by
  unfold LegibleBy; infer_instance

section

variable {ps : List (List Coord)} {obs v : Coord}

theorem corner_parts {a v b c : Coord} {x y : ℚ}
    (e1 : (c.lon : ℚ) - v.lon = x * (a.lon - v.lon) + y * (b.lon - v.lon))
    (e2 : (c.lat : ℚ) - v.lat = x * (a.lat - v.lat) + y * (b.lat - v.lat)) :
    ((area2 a v c : ℤ) : ℚ) = y * (area2 a v b : ℤ) ∧ ((area2 v b c : ℤ) : ℚ) = x * (area2 a v b : ℤ) := by
  unfold area2
  push_cast
  constructor
  · linear_combination ((v.lon : ℚ) - a.lon) * e2 - ((v.lat : ℚ) - a.lat) * e1
  · linear_combination ((b.lon : ℚ) - v.lon) * e2 - ((b.lat : ℚ) - v.lat) * e1

theorem InCorner.inside {a v b c : Coord} (h : InCorner a v b c) : InsideCorner a v b c := by
  rcases h with ⟨h1, h2, h3⟩ | ⟨h1, h2⟩
  · refine Or.inl ⟨h1, ((area2 v b c : ℤ) : ℚ) / (area2 a v b : ℤ),
      ((area2 a v c : ℤ) : ℚ) / (area2 a v b : ℤ), ?_, ?_, ?_, ?_⟩
    · exact div_pos (by exact_mod_cast h3) (by exact_mod_cast h1)
    · exact div_pos (by exact_mod_cast h2) (by exact_mod_cast h1)
    all_goals
      have hne : ((area2 a v b : ℤ) : ℚ) ≠ 0 := by exact_mod_cast h1.ne'
      field_simp
      unfold area2
      push_cast
      ring
  · refine Or.inr ⟨h1, ?_⟩
    rintro ⟨x, y, hx, hy, e1, e2⟩
    obtain ⟨k1, k2⟩ := corner_parts e1 e2
    have hn : ((area2 a v b : ℤ) : ℚ) < 0 := by exact_mod_cast h1
    have p1 := mul_nonneg hx (neg_pos.2 hn).le
    have p2 := mul_nonneg hy (neg_pos.2 hn).le
    rcases h2 with h2 | h2
    · have : (0 : ℚ) < (area2 a v c : ℤ) := by exact_mod_cast h2
      linarith
    · have : (0 : ℚ) < (area2 v b c : ℤ) := by exact_mod_cast h2
      linarith

theorem OffEdge.not_on {s : Seg} {c : Coord} (h : OffEdge s c) : ¬ OnSeg s c.lon c.lat := by
  rintro ⟨t, t0, t1, hx, hy⟩
  have key : ∀ {x p q : ℤ}, (x : ℚ) = p + t * (q - p) → min p q ≤ x ∧ x ≤ max p q := by
    intro x p q hx
    have m1 := mul_le_mul_of_nonneg_left (Int.cast_le (R := ℚ).2 (min_le_left p q)) (sub_nonneg.2 t1)
    have m2 := mul_le_mul_of_nonneg_left (Int.cast_le (R := ℚ).2 (min_le_right p q)) t0
    have m3 := mul_le_mul_of_nonneg_left (Int.cast_le (R := ℚ).2 (le_max_left p q)) (sub_nonneg.2 t1)
    have m4 := mul_le_mul_of_nonneg_left (Int.cast_le (R := ℚ).2 (le_max_right p q)) t0
    constructor
    · have : ((min p q : ℤ) : ℚ) ≤ x := by linarith
      exact_mod_cast this
    · have : (x : ℚ) ≤ ((max p q : ℤ) : ℚ) := by linarith
      exact_mod_cast this
  have k1 := key hx
  have k2 := key hy
  rcases h with h | h
  · apply h
    have : ((area2 s.p s.q c : ℤ) : ℚ) = 0 := by
      unfold area2
      push_cast
      rw [hx, hy]
      ring
    exact_mod_cast this
  · omega

theorem FarFrom.far {s : Seg} (h : FarFrom v s) {x y : ℚ} (hon : OnSeg s x y) :
    1 ≤ |x - v.lon| ∨ 1 ≤ |y - v.lat| := by
  obtain ⟨t, t0, t1, hx, hy⟩ := hon
  by_contra hno
  push Not at hno
  obtain ⟨n1, n2⟩ := hno
  have eq : ((area2 s.p s.q v : ℤ) : ℚ) =
      (s.q.lat - s.p.lat) * (x - v.lon) - (s.q.lon - s.p.lon) * (y - v.lat) := by
    unfold area2
    push_cast
    rw [hx, hy]
    ring
  have : |((area2 s.p s.q v : ℤ) : ℚ)| ≤ |(s.q.lon - s.p.lon : ℚ)| + |(s.q.lat - s.p.lat : ℚ)| := by
    rw [eq]
    refine (abs_sub _ _).trans ?_
    rw [abs_mul, abs_mul]
    have b1 := mul_le_mul_of_nonneg_left n1.le (abs_nonneg (s.q.lat - s.p.lat : ℚ))
    have b2 := mul_le_mul_of_nonneg_left n2.le (abs_nonneg (s.q.lon - s.p.lon : ℚ))
    linarith
  have : |area2 s.p s.q v| ≤ |s.q.lon - s.p.lon| + |s.q.lat - s.p.lat| := by exact_mod_cast this
  unfold FarFrom at h
  omega

/-- What is south comes after what is not. -/
theorem south_after {a b : Coord} (ha : a.lat < obs.lat) (hb : obs.lat ≤ b.lat) (hb0 : b ≠ obs) :
    ¬ SweepBefore obs a b := by
  have h1 : Real.pi < ccwAngle (offset obs a) := by
    have : (offset obs a).toC.arg < 0 := by
      rw [Complex.arg_neg_iff]
      simp only [Coord.toC, offset]
      have : ((a.lat - obs.lat : ℤ) : ℝ) < 0 := by exact_mod_cast (by omega : a.lat - obs.lat < 0)
      exact this
    unfold ccwAngle
    rw [if_pos this]
    have := Complex.neg_pi_lt_arg (offset obs a).toC
    linarith
  have h2 : ccwAngle (offset obs b) ≤ Real.pi := by
    have : 0 ≤ (offset obs b).toC.arg := by
      rw [Complex.arg_nonneg_iff]
      simp only [Coord.toC, offset]
      have : (0 : ℝ) ≤ ((b.lat - obs.lat : ℤ) : ℝ) := by exact_mod_cast (by omega : 0 ≤ b.lat - obs.lat)
      exact this
    unfold ccwAngle
    rw [if_neg (not_lt.2 this)]
    exact Complex.arg_le_pi _
  rintro (⟨rfl, -⟩ | ⟨-, -, h | ⟨h, -⟩⟩)
  · omega
  · linarith
  · linarith

/-- The distance at which an open edge was met. -/
theorem filed_key {s : Seg} {k : ℤ} (h : Filed obs v s k) (hv : v ≠ obs) :
    if obs.lat ≤ v.lat ∧ AcrossEast obs s then EastDist obs s k else k = dist2 obs (startOf obs s) := by
  obtain ⟨hb, ⟨h1, h2, h3⟩ | ⟨h1, -, h3⟩⟩ := h
  · have hn : obs.lat ≤ v.lat := by
      by_contra hc
      exact south_after (not_le.1 hc) h1.2.le (ends_ne_obs hb).2 h2
    rw [if_pos ⟨hn, h1⟩]
    exact h3
  · rw [if_neg (fun h => south_after h.2.1 h.1 hv h1)]
    exact h3

theorem NotNearer.le_key {e s : Seg} {k K : ℤ} (h : NotNearer obs v e s)
    (fk : if obs.lat ≤ v.lat ∧ AcrossEast obs s then EastDist obs s k else k = dist2 obs (startOf obs s))
    (fK : if obs.lat ≤ v.lat ∧ AcrossEast obs e then EastDist obs e K
      else K = dist2 obs (startOf obs e)) : K ≤ k := by
  have near : ∀ {s : Seg} {k : ℤ}, AcrossEast obs s → EastDist obs s k → ∃ x : ℤ, k = x ^ 2 ∧ rise s ≠ 0 ∧
      |x * rise s - eastTimes obs s| < |rise s| := fun ha hd => east_near ha hd
  unfold NotNearer at h
  split_ifs at h with h1 h2 h2
  · rw [if_pos h1] at fK
    rw [if_pos ⟨h1.1, h2⟩] at fk
    obtain ⟨x, rfl, rx, nx⟩ := near h1.2 fK
    obtain ⟨y, rfl, ry, ny⟩ := near h2 fk
    obtain ⟨g1, g2, g3⟩ := h
    have x0 := east_nonneg rx nx g1
    have y0 := east_nonneg ry ny g2
    refine pow_le_pow_left₀ x0 ?_ 2
    -- `x` is less than one more than the first ratio, `y` more than one less than the second
    have a1 : x * rise e ^ 2 - eastTimes obs e * rise e < rise e ^ 2 := by
      have := mul_lt_mul_of_pos_right nx (abs_pos.2 rx)
      rw [← abs_mul, ← abs_mul, abs_mul_self (rise e)] at this
      have := lt_of_le_of_lt (le_abs_self _) this
      nlinarith
    have a2 : eastTimes obs s * rise s - y * rise s ^ 2 < rise s ^ 2 := by
      have := mul_lt_mul_of_pos_right ny (abs_pos.2 ry)
      rw [← abs_mul, ← abs_mul, abs_mul_self (rise s)] at this
      have := lt_of_le_of_lt (neg_abs_le _ |> fun h => (neg_le.1 h)) this
      nlinarith
    have pe : 0 < rise e ^ 2 := by positivity
    have pq : 0 < rise s ^ 2 := by positivity
    by_contra hc
    have hyx : y + 1 ≤ x := by omega
    have b1 := mul_lt_mul_of_pos_right a1 pq
    have b2 := mul_lt_mul_of_pos_right a2 pe
    have b3 := mul_le_mul_of_nonneg_right hyx (mul_pos pe pq).le
    nlinarith
  · rw [if_pos h1] at fK
    rw [if_neg (fun hc => h2 hc.2)] at fk
    obtain ⟨x, rfl, rx, nx⟩ := near h1.2 fK
    have a1 : |x| * |rise e| < |eastTimes obs e| + |rise e| := by
      rw [← abs_mul]
      have := abs_sub_abs_le_abs_sub (x * rise e) (eastTimes obs e)
      omega
    have hlt := pow_lt_pow_left₀ a1 (by positivity) two_ne_zero
    have e0 : (|x| * |rise e|) ^ 2 = x ^ 2 * rise e ^ 2 := by rw [mul_pow, sq_abs, sq_abs]
    rw [e0] at hlt
    rw [fk]
    have pe : 0 < rise e ^ 2 := by positivity
    exact le_of_lt (lt_of_mul_lt_mul_right (hlt.trans_le h) pe.le)
  · rw [if_neg h1] at fK
    rw [if_pos h2] at fk
    obtain ⟨y, rfl, ry, ny⟩ := near h2.2 fk
    have a2 : |eastTimes obs s| - |rise s| < |y| * |rise s| := by
      rw [← abs_mul]
      have := abs_sub_abs_le_abs_sub (eastTimes obs s) (y * rise s)
      rw [abs_sub_comm] at this
      omega
    have hlt := pow_lt_pow_left₀ a2 (by omega) two_ne_zero
    have e0 : (|y| * |rise s|) ^ 2 = y ^ 2 * rise s ^ 2 := by rw [mul_pow, sq_abs, sq_abs]
    rw [e0] at hlt
    rw [fK]
    have pe : 0 < rise s ^ 2 := by positivity
    exact le_of_lt (lt_of_mul_lt_mul_right (h.2.trans_lt hlt) pe.le)
  · rw [if_neg h1] at fK
    rw [if_neg h2] at fk
    rw [fK, fk]
    exact h

theorem NotNearer.le {e s : Seg} {k K : ℤ} (h : NotNearer obs v e s) (hk : Filed obs v s k)
    (hK : Filed obs v e K) (hv : v ≠ obs) : K ≤ k := h.le_key (filed_key hk hv) (filed_key hK hv)

theorem DistinctBy.distinct {e : Seg} (h : DistinctBy ps obs e) (he : EdgeOf ps e) : Distinct ps obs e := by
  obtain ⟨hf, h⟩ := h
  have hb : Beside obs e := by
    have : area2 obs e.p e.q = area2 e.p e.q obs := by unfold area2; ring
    unfold Beside
    omega
  have hst := (ends_vertices (obs := obs) he).1
  refine ⟨fun s d hs hne ha hae hd hd' => ?_, fun s hs hne hF => ?_, fun s _ _ _ _ => near_start hf⟩
  · exact ((h s (mem_edgeList.2 hs) hne).1 ha hae).not_same ha hae hd' hd
  · rcases (h s (mem_edgeList.2 hs) hne).2 with h1 | ⟨h1, h2⟩
    · exact h1.not_filed (ends_ne_obs hb).1 hF
    · obtain ⟨-, ⟨h3, -, h5⟩ | ⟨-, -, h5⟩⟩ := hF
      · exact (h1 h3).not_there h3 h5
      · exact h2 h5.symm

/-- The criterion is sufficient. -/
theorem LegibleBy.legible {half : Bool} (h : LegibleBy half ps obs) : Legible half ps obs := by
  obtain ⟨h1, h3⟩ := h
  have inward : ∀ {v}, InwardBy ps obs v → Inward ps obs v := by
    rintro v ⟨p, hp, i, hi, rfl, hin⟩
    exact ⟨_, _, ⟨p, hp, i, hi, rfl, rfl, rfl⟩, hin.inside⟩
  refine ⟨fun s hs n1 n2 => ?_, fun v hv hsw w hw hne hl hd => ?_, fun v hv hsw s hs hc => ?_⟩
  · exact (((h1 s (mem_edgeList.2 hs)).resolve_left n1).resolve_left n2).not_on
  · rcases h3 v hv hsw (Or.inr ⟨w, hw, hl, hd⟩) with hi | ⟨e, he, hce, -⟩
    · exact Or.inl (inward hi)
    · exact Or.inr ⟨e, mem_edgeList.1 he, hce⟩
  · have hv0 : v ≠ obs := by
      rintro rfl
      have := hc.1
      unfold area2 at this; simp at this
    rcases h3 v hv hsw (Or.inl ⟨s, mem_edgeList.2 hs, hc⟩) with hi | ⟨e, he, hce, hfe, hde, hall⟩
    · exact Or.inl (inward hi)
    · refine Or.inr ⟨e, mem_edgeList.1 he, hce, hde.distinct (mem_edgeList.1 he), ?_⟩
      intro s k K hs hk hK hor
      by_cases hse : s = e
      · rw [hse]
        exact ⟨hce, fun x y hx _ => hfe.far hx⟩
      rcases hall s (mem_edgeList.2 hs) hse with g | g | g
      · exact absurd hk (g.not_filed hv0)
      · exact ⟨g.1, fun x y hx _ => g.2.far hx⟩
      · have := g.le hk hK hv0
        have := hor.resolve_left hse
        omega

end

end Capi
