import Verif.Lemmas.Sweep
import Verif.Spec.Archipelago

/-!
# A criterion for orderly positions that can be computed
-/

namespace Capi

instance (obs : Coord) (s : Seg) : Decidable (AcrossEast obs s) := by
  unfold AcrossEast; infer_instance

/-- The edges of the polygons. -/
def edgeList (ps : List (List Coord)) : List Seg :=
  ps.flatMap fun p => (List.range p.length).map fun i => ⟨ringAt p i, ringAt p (i + 1)⟩

theorem mem_edgeList {ps : List (List Coord)} {e : Seg} : e ∈ edgeList ps ↔ EdgeOf ps e := by
  unfold edgeList EdgeOf
  simp only [List.mem_flatMap, List.mem_map, List.mem_range]
  exact ⟨fun ⟨p, hp, i, hi, h⟩ => ⟨p, hp, i, hi, h.symm⟩, fun ⟨p, hp, i, hi, h⟩ => ⟨p, hp, i, hi, h.symm⟩⟩

/-- The scalar product of `n` with the way from `obs` to `w`. -/
def along (obs n w : Coord) : ℤ := n.lon * (w.lon - obs.lon) + n.lat * (w.lat - obs.lat)

/-- One of the given lines has `A` on the left and `B` on the right, or one of the given circles has
`A` inside and `B` behind a tangent in one of the given directions. -/
def ApartBy (dirs : List Coord) (radii : List ℤ) (obs : Coord) (A B : List Coord) : Prop :=
  (∃ n ∈ dirs, (∀ w ∈ A, 0 < area2 obs (obs.add n) w) ∧ ∀ w ∈ B, area2 obs (obs.add n) w < 0) ∨
    ∃ R ∈ radii, 0 ≤ R ∧ (∀ w ∈ A, dist2 obs w ≤ R ^ 2) ∧ ∃ n ∈ dirs, n ≠ ⟨0, 0⟩ ∧
      ∀ w ∈ B, 0 ≤ along obs n w ∧ (R + 2) ^ 2 * (n.lon ^ 2 + n.lat ^ 2) ≤ along obs n w ^ 2

instance (dirs : List Coord) (radii : List ℤ) (obs : Coord) (A B : List Coord) :
    Decidable (ApartBy dirs radii obs A B) := by
  unfold ApartBy; infer_instance

/-- How far `s` extends to the north. -/
def rise (s : Seg) : ℤ := s.q.lat - s.p.lat

/-- How far east of `obs` the edge `s` passes, times `rise s`. -/
def eastTimes (obs : Coord) (s : Seg) : ℤ :=
  (s.p.lon - obs.lon) * rise s + (obs.lat - s.p.lat) * (s.q.lon - s.p.lon)

/-- `s` and `t` pass east of `obs` two microdegrees from each other. -/
def EastApart (obs : Coord) (s t : Seg) : Prop :=
  0 ≤ eastTimes obs s * rise s ∧ 0 ≤ eastTimes obs t * rise t ∧
    2 * |rise s * rise t| ≤ |eastTimes obs s * rise t - eastTimes obs t * rise s|

instance (obs : Coord) (s t : Seg) : Decidable (EastApart obs s t) := by
  unfold EastApart; infer_instance

/-- `w` is one microdegree nearer or farther than where `s` passes. -/
def EastOff (obs : Coord) (s : Seg) (w : Coord) : Prop :=
  (|eastTimes obs s| + |rise s|) ^ 2 ≤ dist2 obs w * rise s ^ 2 ∨
    |rise s| ≤ |eastTimes obs s| ∧ dist2 obs w * rise s ^ 2 ≤ (|eastTimes obs s| - |rise s|) ^ 2

instance (obs : Coord) (s : Seg) (w : Coord) : Decidable (EastOff obs s w) := by
  unfold EastOff; infer_instance

/-- The criterion, with lines and circles to try. -/
def OrderlyBy (dirs : List Coord) (radii : List ℤ) (ps : List (List Coord)) (obs : Coord) : Prop :=
  (∀ p ∈ ps, obs ∉ p → Outside p obs) ∧
  (∀ A ∈ ps, ∀ B ∈ ps, A ≠ B → obs ∉ A → obs ∉ B →
    ApartBy dirs radii obs A B ∨ ApartBy dirs radii obs B A) ∧
  (∀ v ∈ ps.flatten, ∀ w ∈ ps.flatten, v ≠ w → ¬ InLine obs v w) ∧
  (∀ a ∈ ps.flatten, ∀ b ∈ ps.flatten, dist2 obs a = dist2 obs b → a = b ∨ area2 obs a b = 0) ∧
  (∀ s ∈ edgeList ps, AcrossEast obs s →
    (∀ t ∈ edgeList ps, s ≠ t → AcrossEast obs t → EastApart obs s t) ∧
    ∀ w ∈ ps.flatten, EastOff obs s w) ∧
  ∀ e ∈ edgeList ps, ∀ v ∈ ps.flatten, Crosses obs v e →
    |e.q.lon - e.p.lon| + |e.q.lat - e.p.lat| < |area2 e.p e.q v|

instance (dirs : List Coord) (radii : List ℤ) (ps : List (List Coord)) (obs : Coord) :
    Decidable (OrderlyBy dirs radii ps obs) := by
  unfold OrderlyBy; infer_instance

section

variable {dirs : List Coord} {radii : List ℤ} {ps : List (List Coord)} {obs : Coord}

theorem edge_ends {p : List Coord} {s : Seg} (h : EdgeOf [p] s) : s.p ∈ p ∧ s.q ∈ p := by
  have := Vistree.edge_mem h
  simpa using this

theorem ApartBy.apart {A B : List Coord} (h : ApartBy dirs radii obs A B) :
    SideBySide obs A B ∨ WhollyNearer obs A B := by
  rcases h with ⟨n, -, h1, h2⟩ | ⟨R, -, hR, h1, n, -, hn, h2⟩
  · exact Or.inl ⟨_, h1, h2⟩
  · refine Or.inr ⟨R, by exact_mod_cast hR, ?_, ?_⟩
    · rintro s hs x y ⟨t, t0, t1, rfl, rfl⟩
      obtain ⟨m1, m2⟩ := edge_ends hs
      have d1 : ((s.p.lon : ℚ) - obs.lon) ^ 2 + (s.p.lat - obs.lat) ^ 2 ≤ R ^ 2 := by
        have := h1 _ m1
        unfold dist2 at this
        exact_mod_cast this
      have d2 : ((s.q.lon : ℚ) - obs.lon) ^ 2 + (s.q.lat - obs.lat) ^ 2 ≤ R ^ 2 := by
        have := h1 _ m2
        unfold dist2 at this
        exact_mod_cast this
      have e1 := mul_le_mul_of_nonneg_left d1 (sub_nonneg.2 t1)
      have e2 := mul_le_mul_of_nonneg_left d2 t0
      have e3 : 0 ≤ t * (1 - t) * (((s.p.lon : ℚ) - s.q.lon) ^ 2 + (s.p.lat - s.q.lat) ^ 2) :=
        mul_nonneg (mul_nonneg t0 (sub_nonneg.2 t1)) (by positivity)
      nlinarith
    · rintro s hs x y ⟨t, t0, t1, rfl, rfl⟩
      obtain ⟨m1, m2⟩ := edge_ends hs
      obtain ⟨a1, b1⟩ := h2 _ m1
      obtain ⟨a2, b2⟩ := h2 _ m2
      have hN : (0 : ℚ) < (n.lon : ℚ) ^ 2 + (n.lat : ℚ) ^ 2 := by
        by_contra hc
        push Not at hc
        apply hn
        have q1 : (n.lon : ℚ) = 0 := by nlinarith [sq_nonneg (n.lon : ℚ), sq_nonneg (n.lat : ℚ)]
        have q2 : (n.lat : ℚ) = 0 := by nlinarith [sq_nonneg (n.lon : ℚ), sq_nonneg (n.lat : ℚ)]
        exact Coord.ext' (by exact_mod_cast q1) (by exact_mod_cast q2)
      generalize hK : ((R : ℚ) + 2) ^ 2 * ((n.lon : ℚ) ^ 2 + (n.lat : ℚ) ^ 2) = K
      have c1 : K ≤ ((along obs n s.p : ℤ) : ℚ) ^ 2 := by rw [← hK]; exact_mod_cast b1
      have c2 : K ≤ ((along obs n s.q : ℤ) : ℚ) ^ 2 := by rw [← hK]; exact_mod_cast b2
      have p1 : (0 : ℚ) ≤ (along obs n s.p : ℤ) := by exact_mod_cast a1
      have p2 : (0 : ℚ) ≤ (along obs n s.q : ℤ) := by exact_mod_cast a2
      have key : K ≤ ((1 - t) * ((along obs n s.p : ℤ) : ℚ) + t * ((along obs n s.q : ℤ) : ℚ)) ^ 2 := by
        have t1' := sub_nonneg.2 t1
        rcases le_total ((along obs n s.p : ℤ) : ℚ) ((along obs n s.q : ℤ) : ℚ) with hle | hle
        · refine c1.trans (pow_le_pow_left₀ p1 ?_ 2)
          have := mul_le_mul_of_nonneg_left hle t0
          linarith
        · refine c2.trans (pow_le_pow_left₀ p2 ?_ 2)
          have := mul_le_mul_of_nonneg_left hle t1'
          linarith
      have hal : (1 - t) * ((along obs n s.p : ℤ) : ℚ) + t * ((along obs n s.q : ℤ) : ℚ) =
          n.lon * (s.p.lon + t * (s.q.lon - s.p.lon) - obs.lon) +
          n.lat * (s.p.lat + t * (s.q.lat - s.p.lat) - obs.lat) := by
        unfold along
        push_cast
        ring
      rw [hal, ← hK] at key
      generalize (s.p.lon + t * (s.q.lon - s.p.lon) - obs.lon : ℚ) = X at key ⊢
      generalize (s.p.lat + t * (s.q.lat - s.p.lat) - obs.lat : ℚ) = Y at key ⊢
      have cs : ((n.lon : ℚ) * X + n.lat * Y) ^ 2 ≤ ((n.lon : ℚ) ^ 2 + (n.lat : ℚ) ^ 2) * (X ^ 2 + Y ^ 2) := by
        nlinarith [sq_nonneg ((n.lon : ℚ) * Y - n.lat * X)]
      have := key.trans cs
      rw [mul_comm] at this
      exact le_of_mul_le_mul_left this hN

/-- The rounded longitude at which the edge passes. -/
theorem east_near {s : Seg} {d : ℤ} (ha : AcrossEast obs s) (h : EastDist obs s d) :
    ∃ k : ℤ, d = k ^ 2 ∧ rise s ≠ 0 ∧ |(k * rise s - eastTimes obs s : ℤ)| < |rise s| := by
  obtain ⟨x, X, ⟨t, t0, t1, hx, hy⟩, hX, rfl⟩ := h
  have hr : rise s ≠ 0 := by
    unfold AcrossEast startOf endOf at ha
    unfold rise
    split_ifs at ha <;> omega
  refine ⟨x - obs.lon, rfl, hr, ?_⟩
  have e : ((eastTimes obs s : ℤ) : ℚ) = (X - obs.lon) * (rise s : ℤ) := by
    unfold eastTimes rise
    push_cast
    rw [hx]
    have : (obs.lat : ℚ) - s.p.lat = t * (s.q.lat - s.p.lat) := by linarith
    rw [this]
    ring
  have : |(((x - obs.lon) * rise s - eastTimes obs s : ℤ) : ℚ)| < |((rise s : ℤ) : ℚ)| := by
    push_cast
    rw [e]
    have : ((x : ℚ) - obs.lon) * (rise s : ℤ) - (X - obs.lon) * (rise s : ℤ) = (x - X) * (rise s : ℤ) := by
      ring
    rw [this, abs_mul]
    have hp : 0 < |((rise s : ℤ) : ℚ)| := abs_pos.2 (by exact_mod_cast hr)
    have : |(x : ℚ) - X| < 1 := by linarith
    calc _ < 1 * |((rise s : ℤ) : ℚ)| := mul_lt_mul_of_pos_right this hp
      _ = _ := one_mul _
  exact_mod_cast this

theorem east_nonneg {k n r : ℤ} (hr : r ≠ 0) (h : |k * r - n| < |r|) (hn : 0 ≤ n * r) : 0 ≤ k := by
  by_contra hk
  push Not at hk
  have hk1 : k ≤ -1 := by omega
  rw [abs_lt] at h
  rcases lt_or_gt_of_ne hr with h0 | h0
  · rw [abs_of_neg h0] at h
    have : n ≤ 0 := by
      by_contra hc
      have := mul_neg_of_pos_of_neg (not_le.1 hc) h0
      omega
    nlinarith
  · rw [abs_of_pos h0] at h
    have : 0 ≤ n := by
      by_contra hc
      have := mul_neg_of_neg_of_pos (not_le.1 hc) h0
      omega
    nlinarith

theorem EastApart.not_same {s t : Seg} {d : ℤ} (h : EastApart obs s t) (as : AcrossEast obs s)
    (at' : AcrossEast obs t) (ds : EastDist obs s d) : ¬ EastDist obs t d := by
  intro dt
  obtain ⟨e1, e2, e3⟩ := h
  obtain ⟨k, hk, r1, n1⟩ := east_near as ds
  obtain ⟨l, hl, r2, n2⟩ := east_near at' dt
  have k0 := east_nonneg r1 n1 e1
  have l0 := east_nonneg r2 n2 e2
  obtain rfl : k = l := by
    rw [hk] at hl
    exact (pow_left_inj₀ k0 l0 two_ne_zero).1 hl
  have e : eastTimes obs s * rise t - eastTimes obs t * rise s =
      (k * rise t - eastTimes obs t) * rise s - (k * rise s - eastTimes obs s) * rise t := by ring
  rw [e] at e3
  have a1 := abs_sub ((k * rise t - eastTimes obs t) * rise s) ((k * rise s - eastTimes obs s) * rise t)
  rw [abs_mul, abs_mul] at a1
  rw [abs_mul] at e3
  have p1 := abs_pos.2 r1
  have p2 := abs_pos.2 r2
  have b1 := mul_lt_mul_of_pos_right n2 p1
  have b2 := mul_lt_mul_of_pos_right n1 p2
  have c : |rise t| * |rise s| = |rise s| * |rise t| := mul_comm _ _
  linarith

theorem EastOff.not_there {s : Seg} {w : Coord} (h : EastOff obs s w) (as : AcrossEast obs s) :
    ¬ EastDist obs s (dist2 obs w) := by
  intro ds
  obtain ⟨k, hk, r1, n1⟩ := east_near as ds
  have p1 := abs_pos.2 r1
  have e : dist2 obs w * rise s ^ 2 = (|k| * |rise s|) ^ 2 := by
    rw [hk, mul_pow, sq_abs, sq_abs]
  have a1 : |k| * |rise s| < |eastTimes obs s| + |rise s| := by
    rw [← abs_mul]
    have := abs_sub_abs_le_abs_sub (k * rise s) (eastTimes obs s)
    omega
  have a2 : |eastTimes obs s| - |rise s| < |k| * |rise s| := by
    rw [← abs_mul]
    have := abs_sub_abs_le_abs_sub (eastTimes obs s) (k * rise s)
    rw [abs_sub_comm] at this
    omega
  have hn : 0 ≤ |k| * |rise s| := by positivity
  rcases h with h | ⟨h0, h⟩
  · rw [e] at h
    have := pow_lt_pow_left₀ a1 hn two_ne_zero
    omega
  · rw [e] at h
    have := pow_lt_pow_left₀ a2 (by omega) two_ne_zero
    omega

/-- The criterion is sufficient. -/
theorem OrderlyBy.orderly (h : OrderlyBy dirs radii ps obs) : Orderly ps obs := by
  obtain ⟨h1, h2, h3, h4, h5, h6⟩ := h
  refine ⟨h1, ?_, h3, h4, ?_, ?_, ?_⟩
  · intro A hA B hB hne ho ho'
    rcases h2 A hA B hB hne ho ho' with h | h
    · rcases h.apart with h | h <;> simp [h]
    · rcases h.apart with h | h <;> simp [h]
  · exact fun s t d hs ht hne as at' ds =>
      ((h5 s (mem_edgeList.2 hs) as).1 t (mem_edgeList.2 ht) hne at').not_same as at' ds
  · exact fun s hs as w hw => ((h5 s (mem_edgeList.2 hs) as).2 w hw).not_there as
  · rintro v hv e he hc x y ⟨t, t0, t1, hx, hy⟩ -
    have hoff := h6 e (mem_edgeList.2 he) v hv hc
    by_contra hno
    push Not at hno
    obtain ⟨n1, n2⟩ := hno
    have eq : ((area2 e.p e.q v : ℤ) : ℚ) =
        (e.q.lat - e.p.lat) * (x - v.lon) - (e.q.lon - e.p.lon) * (y - v.lat) := by
      unfold area2
      push_cast
      rw [hx, hy]
      ring
    have : |((area2 e.p e.q v : ℤ) : ℚ)| ≤ |(e.q.lon - e.p.lon : ℚ)| + |(e.q.lat - e.p.lat : ℚ)| := by
      rw [eq]
      refine (abs_sub _ _).trans ?_
      rw [abs_mul, abs_mul]
      have b1 := mul_le_mul_of_nonneg_left n1.le (abs_nonneg (e.q.lat - e.p.lat : ℚ))
      have b2 := mul_le_mul_of_nonneg_left n2.le (abs_nonneg (e.q.lon - e.p.lon : ℚ))
      linarith
    have : |area2 e.p e.q v| ≤ |e.q.lon - e.p.lon| + |e.q.lat - e.p.lat| := by exact_mod_cast this
    omega

end

end Capi
