import Verif.Lemmas.Sweep

/-!
# Lemmas on the segments that touch a point
-/

namespace Capi

open Vistree Polygon

/-- Specification: the segments with an end at `v`, in order; a degenerate one twice. -/
def touching (ss : List Seg) (v : Coord) : List Seg :=
  ss.flatMap fun s => (if s.p = v then [s] else []) ++ (if s.q = v then [s] else [])

theorem touching_append (a b : List Seg) (v : Coord) :
    touching (a ++ b) v = touching a v ++ touching b v := by
  simp [touching]

theorem touching_cons (s : Seg) (b : List Seg) (v : Coord) :
    touching (s :: b) v = touching [s] v ++ touching b v := touching_append [s] b v

theorem lonDeg_swap (a b : Coord) : (a.sub b).lonDeg = -(b.sub a).lonDeg := by
  unfold Coord.lonDeg Coord.degOfMicro
  rw [← fl_neg]
  congr 1
  simp only [Coord.sub, Coord.add, Coord.neg]
  push_cast
  ring

theorem latDeg_swap (a b : Coord) : (a.sub b).latDeg = -(b.sub a).latDeg := by
  unfold Coord.latDeg Coord.degOfMicro
  rw [← fl_neg]
  congr 1
  simp only [Coord.sub, Coord.add, Coord.neg]
  push_cast
  ring

/-- A corner of the form `v, w, v` hides nothing. -/
theorem visible_fold (v w c : Coord) : Polyline.visible v w v c = true := by
  have hr : Polyline.isReflex v w v = false := by
    unfold Polyline.isReflex
    rw [latDeg_swap v w, lonDeg_swap v w, mul_neg, mul_neg, mul_comm (w.sub v).latDeg, sub_self,
      fl_zero]
    rfl
  unfold Polyline.visible Polyline.visibleWith
  simp only [hr, Bool.not_false, if_true]
  cases (v.sub w).orient (c.sub w) <;> simp

theorem touching_filter {ss : List Seg} (h : ∀ s ∈ ss, s.p ≠ s.q) (v : Coord) :
    touching ss v = ss.filter fun s => decide (s.p = v) || decide (s.q = v) := by
  induction ss with
  | nil => rfl
  | cons s r ih =>
    have hs := h s (by simp)
    rw [touching_cons, ih fun t ht => h t (by simp [ht]), List.filter_cons]
    by_cases hp : s.p = v
    · have hq : s.q ≠ v := fun hq => hs (hp.trans hq.symm)
      simp [touching, hp, hq]
    · by_cases hq : s.q = v
      · simp [touching, hp, hq]
      · simp [touching, hp, hq]

theorem ringAt_eq_iff {vs : List Coord} (h : vs.Nodup) {i j : ℕ} (hi : i < vs.length) :
    ringAt vs j = ringAt vs i ↔ j % vs.length = i := by
  constructor
  · intro e
    have := ringAt_inj h (by omega) e
    rwa [Nat.mod_eq_of_lt hi] at this
  · intro e
    unfold ringAt
    rw [e, Nat.mod_eq_of_lt hi]

theorem seg_ne {vs : List Coord} (h : vs.Nodup) (h2 : 2 ≤ vs.length) {i : ℕ}
    (hi : i < vs.length) : ringAt vs i ≠ ringAt vs (i + 1) := by
  intro e
  have := (ringAt_eq_iff h hi).1 e.symm
  rcases Nat.lt_or_ge (i + 1) vs.length with h' | h'
  · rw [Nat.mod_eq_of_lt h'] at this; omega
  · have e1 : i + 1 = vs.length := by omega
    rw [e1, Nat.mod_self] at this; omega

theorem ring_seg_ne {vs : List Coord} (h : vs.Nodup) (h2 : 2 ≤ vs.length) :
    ∀ s ∈ Polygon.segments vs, s.p ≠ s.q := by
  intro s hs
  obtain ⟨i, hi, rfl⟩ := List.mem_map.1 hs
  exact seg_ne h h2 (List.mem_range.1 hi)

theorem ring_segs_nodup {vs : List Coord} (h : vs.Nodup) : (Polygon.segments vs).Nodup := by
  refine List.Nodup.map_on ?_ List.nodup_range
  intro i hi j hj e
  have e1 : ringAt vs i = ringAt vs j := by injection e
  have := (ringAt_eq_iff h (List.mem_range.1 hj)).1 e1
  rwa [Nat.mod_eq_of_lt (List.mem_range.1 hi)] at this

/-- At every corner of a ring one edge comes in and one goes out. -/
theorem ring_touching {vs : List Coord} (h : vs.Nodup) (h2 : 2 ≤ vs.length) {i : ℕ}
    (hi : i < vs.length) :
    (touching (Polygon.segments vs) (ringAt vs i)).Perm
      [⟨ringAt vs (i + vs.length - 1), ringAt vs i⟩, ⟨ringAt vs i, ringAt vs (i + 1)⟩] := by
  rw [touching_filter (ring_seg_ne h h2)]
  have hne : ringAt vs (i + vs.length - 1) ≠ ringAt vs i := by
    intro e
    have := (ringAt_eq_iff h hi).1 e
    rcases Nat.eq_zero_or_pos i with h0 | h0
    · subst h0
      rw [Nat.zero_add, Nat.mod_eq_of_lt (by omega)] at this; omega
    · rw [show i + vs.length - 1 = (i - 1) + vs.length by omega, Nat.add_mod_right,
        Nat.mod_eq_of_lt (by omega)] at this
      omega
  refine (List.perm_ext_iff_of_nodup ((ring_segs_nodup h).filter _) ?_).2 ?_
  · simp only [List.nodup_cons, List.mem_singleton, List.not_mem_nil, not_false_eq_true,
      List.nodup_nil, and_true]
    intro e
    exact hne (by injection e)
  · intro s
    rw [List.mem_filter]
    simp only [Bool.or_eq_true, decide_eq_true_eq, List.mem_cons, List.not_mem_nil, or_false]
    constructor
    · rintro ⟨hs, ht⟩
      obtain ⟨j, hj, rfl⟩ := List.mem_map.1 hs
      rw [List.mem_range] at hj
      rcases ht with ht | ht
      · right
        have := (ringAt_eq_iff h hi).1 ht
        rw [Nat.mod_eq_of_lt hj] at this
        rw [this]
      · left
        have e := (ringAt_eq_iff h hi).1 ht
        simp only [Seg.mk.injEq]
        refine ⟨?_, ht⟩
        refine ((ringAt_eq_iff h hj).2 ?_).symm
        rcases Nat.lt_or_ge (j + 1) vs.length with h' | h'
        · rw [Nat.mod_eq_of_lt h'] at e
          rw [← e, show j + 1 + vs.length - 1 = j + vs.length by omega, Nat.add_mod_right,
            Nat.mod_eq_of_lt hj]
        · have e1 : j + 1 = vs.length := by omega
          rw [e1, Nat.mod_self] at e
          rw [← e, Nat.zero_add, Nat.mod_eq_of_lt (by omega)]
          omega
    · rintro (rfl | rfl)
      · refine ⟨?_, Or.inr rfl⟩
        have hm : (i + vs.length - 1) % vs.length < vs.length := Nat.mod_lt _ (by omega)
        refine List.mem_map.2 ⟨(i + vs.length - 1) % vs.length, List.mem_range.2 hm, ?_⟩
        simp only [Seg.mk.injEq]
        refine ⟨?_, (ringAt_eq_iff h hi).2 ?_⟩
        · unfold ringAt; rw [Nat.mod_mod]
        · rw [Nat.mod_add_mod, show i + vs.length - 1 + 1 = i + vs.length by omega,
            Nat.add_mod_right, Nat.mod_eq_of_lt hi]
      · exact ⟨List.mem_map.2 ⟨i, List.mem_range.2 hi, rfl⟩, Or.inl rfl⟩

theorem touching_none {vs : List Coord} {v : Coord} (hv : v ∉ vs) :
    touching (Polygon.segments vs) v = [] := by
  unfold touching
  rw [List.flatMap_eq_nil_iff]
  intro s hs
  obtain ⟨j, hj, rfl⟩ := List.mem_map.1 hs
  have hj : 0 < vs.length := by have := List.mem_range.1 hj; omega
  have h1 : ringAt vs j ≠ v := fun e => hv (e ▸ Vistree.ringAt_mem hj)
  have h2 : ringAt vs (j + 1) ≠ v := fun e => hv (e ▸ Vistree.ringAt_mem hj)
  simp [h1, h2]

theorem touching_flat_none {ps : List (List Coord)} {v : Coord} (hv : v ∉ ps.flatten) :
    touching (ps.flatMap Polygon.segments) v = [] := by
  induction ps with
  | nil => rfl
  | cons p r ih =>
    rw [List.flatMap_cons, touching_append, touching_none, ih]
    · rfl
    · intro h; exact hv (by simp [h])
    · intro h; exact hv (by simp [h])

theorem touching_perm {a b : List Seg} (h : a.Perm b) (v : Coord) :
    (touching a v).Perm (touching b v) := h.flatMap_right _

/-- The same among several polygons without common corners. -/
theorem rings_touching {ps : List (List Coord)} (hn : ps.flatten.Nodup) {p : List Coord}
    (hp : p ∈ ps) (h2 : 2 ≤ p.length) {i : ℕ} (hi : i < p.length) {ss : List Seg}
    (hss : ss.Perm (ps.flatMap Polygon.segments)) :
    (touching ss (ringAt p i)).Perm
      [⟨ringAt p (i + p.length - 1), ringAt p i⟩, ⟨ringAt p i, ringAt p (i + 1)⟩] := by
  obtain ⟨a, b, rfl⟩ := List.append_of_mem hp
  have hv : ringAt p i ∈ p := Vistree.ringAt_mem (by omega)
  simp only [List.flatten_append, List.flatten_cons, List.nodup_append, List.mem_append] at hn
  refine (touching_perm hss _).trans ?_
  rw [List.flatMap_append, List.flatMap_cons, touching_append, touching_append,
    touching_flat_none fun h => hn.2.2 _ h _ (Or.inl hv) rfl,
    touching_flat_none fun h => hn.2.1.2.2 _ hv _ h rfl, List.nil_append, List.append_nil]
  exact ring_touching hn.2.1.1 h2 hi

end Capi
