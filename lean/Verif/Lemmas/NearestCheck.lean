import Verif.Lemmas.Nearest

/-!
# A criterion for ranked edges that can be computed
-/

namespace Capi

/-- The criterion: right ends of edges in sight together and crossings due east at different
distances. -/
def RankedBy (ps : List (List Coord)) (obs : Coord) : Prop :=
  (∀ s ∈ edgeList ps, ∀ t ∈ edgeList ps, dist2 obs (startOf obs s) = dist2 obs (startOf obs t) →
    startOf obs s = startOf obs t ∨ (ShutAt obs (startOf obs t) s ∧
      ∀ v ∈ ps.flatten, ShutAt obs v s ∨ ShutAt obs v t)) ∧
  (∀ s ∈ edgeList ps, AcrossEast obs s → ∀ v ∈ ps.flatten, EastOff obs s v) ∧
  (∀ s ∈ edgeList ps, ∀ t ∈ edgeList ps, s ≠ t → AcrossEast obs s → AcrossEast obs t →
    EastApart obs s t) ∧
  ∀ v ∈ ps.flatten, ∀ s ∈ edgeList ps, ∀ t ∈ edgeList ps, s ≠ t → ShutAt obs v s ∨ ShutAt obs v t ∨
    NotNearer obs v s t ∨ NotNearer obs v t s

instance (ps : List (List Coord)) (obs : Coord) : Decidable (RankedBy ps obs) := by
  unfold RankedBy; infer_instance

/-- The criterion for room around the vertices. -/
def RoomyBy (ps : List (List Coord)) : Prop :=
  ∀ v ∈ ps.flatten, ∀ s ∈ edgeList ps, v = s.p ∨ v = s.q ∨ FarFrom v s ∨
    v.lon < min s.p.lon s.q.lon ∨ max s.p.lon s.q.lon < v.lon ∨
    v.lat < min s.p.lat s.q.lat ∨ max s.p.lat s.q.lat < v.lat

instance (ps : List (List Coord)) : Decidable (RoomyBy ps) := by
  unfold RoomyBy; infer_instance

section

variable {ps : List (List Coord)} {obs v : Coord}

theorem onSeg_between {s : Seg} {x y : ℚ} (h : OnSeg s x y) :
    ((min s.p.lon s.q.lon : ℤ) : ℚ) ≤ x ∧ x ≤ ((max s.p.lon s.q.lon : ℤ) : ℚ) ∧
      ((min s.p.lat s.q.lat : ℤ) : ℚ) ≤ y ∧ y ≤ ((max s.p.lat s.q.lat : ℤ) : ℚ) := by
  obtain ⟨t, t0, t1, hx, hy⟩ := h
  have key : ∀ {z : ℚ} {p q : ℤ}, z = p + t * (q - p) →
      ((min p q : ℤ) : ℚ) ≤ z ∧ z ≤ ((max p q : ℤ) : ℚ) := by
    intro z p q hz
    have m1 := mul_le_mul_of_nonneg_left (Int.cast_le (R := ℚ).2 (min_le_left p q)) (sub_nonneg.2 t1)
    have m2 := mul_le_mul_of_nonneg_left (Int.cast_le (R := ℚ).2 (min_le_right p q)) t0
    have m3 := mul_le_mul_of_nonneg_left (Int.cast_le (R := ℚ).2 (le_max_left p q)) (sub_nonneg.2 t1)
    have m4 := mul_le_mul_of_nonneg_left (Int.cast_le (R := ℚ).2 (le_max_right p q)) t0
    constructor <;> linarith
  exact ⟨(key hx).1, (key hx).2, (key hy).1, (key hy).2⟩

/-- The criterion is sufficient. -/
theorem RoomyBy.roomy (h : RoomyBy ps) : Roomy ps := by
  intro v hv s hs n1 n2 x y hon
  have hb := onSeg_between hon
  have below : ∀ {a b : ℤ} {z : ℚ}, a < b → (b : ℚ) ≤ z → 1 ≤ |z - a| := by
    intro a b z h1 h2
    have : (a : ℚ) + 1 ≤ b := by exact_mod_cast h1
    exact le_trans (by linarith) (le_abs_self _)
  have above : ∀ {a b : ℤ} {z : ℚ}, b < a → z ≤ (b : ℚ) → 1 ≤ |z - a| := by
    intro a b z h1 h2
    have : (b : ℚ) + 1 ≤ a := by exact_mod_cast h1
    exact le_trans (by linarith) (neg_le_abs _)
  rcases h v hv s (mem_edgeList.2 hs) with e | e | hf | h' | h' | h' | h'
  · exact absurd e n1
  · exact absurd e n2
  · exact hf.far hon
  · exact Or.inl (below h' hb.1)
  · exact Or.inl (above h' hb.2.1)
  · exact Or.inr (below h' hb.2.2.1)
  · exact Or.inr (above h' hb.2.2.2)

theorem MetAt.key {s : Seg} {k : ℤ} (h : MetAt obs v s k) :
    if obs.lat ≤ v.lat ∧ AcrossEast obs s then EastDist obs s k else k = dist2 obs (startOf obs s) := by
  split_ifs with hc
  · exact h.1 hc
  · exact h.2 hc

/-- The criterion is sufficient. -/
theorem RankedBy.ranked (h : RankedBy ps obs) (hS : Simple ps) : Ranked ps obs := by
  obtain ⟨h1, h2, h3, h4⟩ := h
  have ne : ∀ {v s t k}, v ∈ ps.flatten → Listed ps obs v s → Listed ps obs v t → s ≠ t → MetAt obs v s k →
      ¬ MetAt obs v t k := by
    intro v s t k hv hs ht hne hk hk'
    have es := ends_vertices (obs := obs) hs.1
    have et := ends_vertices (obs := obs) ht.1
    by_cases fs : FromEast obs v s <;> by_cases ft : FromEast obs v t
    · exact (h3 s (mem_edgeList.2 hs.1) t (mem_edgeList.2 ht.1) hne fs.2 ft.2).not_same fs.2 ft.2
        (hk.1 fs) (hk'.1 ft)
    · have := hk.1 fs
      rw [hk'.2 ft] at this
      exact (h2 s (mem_edgeList.2 hs.1) fs.2 _ et.1).not_there fs.2 this
    · have := hk'.1 ft
      rw [hk.2 fs] at this
      exact (h2 t (mem_edgeList.2 ht.1) ft.2 _ es.1).not_there ft.2 this
    · have e : startOf obs s = startOf obs t := by
        rcases h1 s (mem_edgeList.2 hs.1) t (mem_edgeList.2 ht.1) ((hk.2 fs).symm.trans (hk'.2 ft)) with
          h | ⟨-, h⟩
        · exact h
        · rcases h v hv with h | h
          · exact absurd hs.2.1.2 h.1
          · exact absurd ht.2.1.2 h.1
      have q1 := hs.2.2.resolve_left fs t ht.1 hne.symm ht.2.1.1 e.symm
      have q2 := ht.2.2.resolve_left ft s hs.1 hne hs.2.1.1 e
      obtain ⟨b, hb⟩ := (edge_corner hs.1).2
      obtain ⟨b', hb'⟩ := (edge_corner ht.1).2
      have eq : s.q = t.q := q1.trans (e.trans q2.symm)
      rw [← eq] at hb'
      have := (hS.corner_unique hb hb').1
      exact hne (by obtain ⟨a, b⟩ := s; obtain ⟨c, d⟩ := t; simp only at this eq; rw [this, eq])
  refine ⟨fun v hv hv0 s t hs ht hne => ?_, fun e s he hb hk hs hne hm => ?_, fun s t d hs ht hne as at' =>
    (h3 s (mem_edgeList.2 hs) t (mem_edgeList.2 ht) hne as at').not_same as at'⟩
  · have open' : ∀ {s}, Listed ps obs v s → ¬ ShutAt obs v s := fun h hsh => hsh.1 h.2.1.2
    rcases h4 v hv s (mem_edgeList.2 hs.1) t (mem_edgeList.2 ht.1) hne with g | g | g | g
    · exact absurd g (open' hs)
    · exact absurd g (open' ht)
    · left
      intro k K hk hK
      refine lt_of_le_of_ne (g.le_key hK.key hk.key) ?_
      rintro rfl
      exact ne hv hs ht hne hk hK
    · right
      intro k K hk hK
      refine lt_of_le_of_ne (g.le_key hk.key hK.key) ?_
      rintro rfl
      exact ne hv hs ht hne hk hK
  · have es := ends_vertices (obs := obs) hs.1
    have ee := ends_vertices (obs := obs) he
    by_cases fs : FromEast obs (startOf obs e) s
    · exact (h2 s (mem_edgeList.2 hs.1) fs.2 _ ee.1).not_there fs.2 (hm.1 fs)
    · have e' : startOf obs s = startOf obs e := by
        rcases h1 s (mem_edgeList.2 hs.1) e (mem_edgeList.2 he) (hm.2 fs).symm with h | ⟨h, -⟩
        · exact h
        · exact absurd hs.2.1.2 h.1
      have := hs.2.1.2.1
      rw [e'] at this
      have h0 : area2 obs (startOf obs e) (startOf obs e) = 0 := by unfold area2; ring
      omega

instance (ps : List (List Coord)) (obs : Coord) (s : Seg) : Decidable (Kept ps obs s) :=
  decidable_of_iff (∀ t ∈ edgeList ps, t ≠ s → area2 obs t.p t.q ≠ 0 → startOf obs t = startOf obs s →
    s.q = startOf obs s) (by unfold Kept Beside; simp only [mem_edgeList])

instance (ps : List (List Coord)) (obs v : Coord) (s : Seg) : Decidable (Listed ps obs v s) :=
  decidable_of_iff (s ∈ edgeList ps ∧ (area2 obs s.p s.q ≠ 0 ∧ area2 obs v (startOf obs s) < 0 ∧
    0 < area2 obs v (endOf obs s)) ∧ ((obs.lat ≤ v.lat ∧ AcrossEast obs s) ∨ Kept ps obs s))
    (by unfold Listed Facing Beside FromEast; simp only [mem_edgeList])

theorem Listed.met {s : Seg} (h : Listed ps obs v s) (hv : v ≠ obs) : ∃ k, MetAt obs v s k := by
  obtain ⟨K, hF⟩ := facing_filed h.2.1.1 h.2.1.2
  exact ⟨K, filed_met hF hv⟩

/-- An edge not nearer than another one known is not nearest. -/
theorem not_nearest {s e : Seg} (hs : Listed ps obs v s) (hv : v ≠ obs) (hne : s ≠ e)
    (h : NotNearer obs v s e) : ¬ Nearest ps obs v e := by
  intro hN
  obtain ⟨k, hk⟩ := hs.met hv
  obtain ⟨K, hK⟩ := hN.1.met hv
  have := hN.2 s hs hne k K hk hK
  have := h.le_key hK.key hk.key
  omega

end

end Capi
