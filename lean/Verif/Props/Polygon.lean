import Verif.Lemmas.Winding

/-!
# C09 (polygons), C12–C15: polygon construction

`T` is the order in which the floating-point winding sum is evaluated (the code leaves it to
the compiler); every theorem holds for all `T`.
-/

namespace Capi

open Polygon

/-- **C09** (polygons) Equal polygons have equal hashes. -/
theorem C09_polygon_hash (p q : List Coord) (h : p = q) : Polygon.hash p = Polygon.hash q := by
  rw [h]

/-! ### C03 for polygon construction -/

/-- **C03** Removing redundant vertices neither overflows nor throws on periodic input. -/
theorem C03_polygon (vs : List Coord) (h : ∀ v ∈ vs, v.Per) :
    removeCollinearC vs = .ok (removeCollinear vs) := by
  by_cases h0 : vs = []
  · subst h0; rfl
  unfold removeCollinearC removeCollinear
  generalize List.range vs.length = is
  induction is with
  | nil => rfl
  | cons i is ih =>
    have hk : ∀ a b c : Coord, a.Per → b.Per → c.Per → keepsC a b c = .ok (keeps a b c) := by
      intro a b c ha hb hc
      unfold keepsC keeps
      rw [Coord.subC_ok hb ha, Coord.subC_ok hc hb]
      simp only [Res.bind_ok]
      rw [Coord.orientC_ok (Coord.Per.vec_sub hb ha) (Coord.Per.vec_sub hc hb)]
      simp only [Res.bind_ok]
      unfold Coord.parallel
      by_cases ho : (b.sub a).orient (c.sub b) = .collinear
      · have hs : ∃ k, (b.sub a).scalarMultiple (c.sub b) = some k := by
          unfold Coord.scalarMultiple Coord.parallel
          simp only [ho, beq_self_eq_true, Bool.not_true, Bool.false_eq_true, if_false]
          split_ifs <;> simp
        obtain ⟨k, hs⟩ := hs
        simp [ho, hs]
      · simp [ho]
    rw [removeCollinearLoopC, hk _ _ _ (h _ (ringAt_mem h0 _)) (h _ (ringAt_mem h0 _))
      (h _ (ringAt_mem h0 _)), ih]
    simp only [Res.bind_ok, Res.pure_eq, List.filter_cons]
    split_ifs <;> simp

example : ∀ v ∈ [(⟨0, 0⟩ : Coord), ⟨540000001, 0⟩, ⟨0, 90000000⟩], v.Per := by decide

/-! ### C14 -/

/-- **C14** Construction drops exactly the vertices lying on the straight way from predecessor
to successor (this includes vertices equal to a neighbour), and keeps the others in order. -/
theorem C14_drops_exactly (vs : List Coord) :
    removeCollinear vs = ((List.range vs.length).filter fun i =>
        !(@decide (OnSeg ⟨ringAt vs (i + vs.length - 1), ringAt vs (i + 1)⟩
          (ringAt vs i).lon (ringAt vs i).lat) (Classical.propDecidable _))).map (ringAt vs) ∧
    (removeCollinear vs).Sublist vs := by
  refine ⟨?_, removeCollinear_sublist vs⟩
  unfold removeCollinear
  congr 1
  apply List.filter_congr
  intro i _
  rw [Bool.eq_iff_iff, ← Bool.not_eq_false, keeps_false_iff_onSeg]
  simp

/-- **C14** Without equal neighbours, dropping vertices changes neither the covered boundary
nor the signed area, and leaves no equal neighbours. -/
theorem C14_preserves (vs : List Coord) (h : NoRepeat vs) :
    (∀ x y, OnRing (removeCollinear vs) x y ↔ OnRing vs x y) ∧
    twiceArea (removeCollinear vs) = twiceArea vs ∧
    NoRepeat (removeCollinear vs) :=
  ⟨removeCollinear_onRing h, removeCollinear_area h, removeCollinear_noRepeat h⟩

example : NoRepeat [⟨0, 0⟩, ⟨1, 0⟩, ⟨2, 0⟩, ⟨2, 2⟩] ∧
    removeCollinear [⟨0, 0⟩, ⟨1, 0⟩, ⟨2, 0⟩, ⟨2, 2⟩] = [⟨0, 0⟩, ⟨2, 0⟩, ⟨2, 2⟩] := by
  decide +kernel

/-- **C14** (the hypothesis is needed) A corner listed twice in a row disappears altogether,
changing the area. -/
theorem C14_repeated_corner_lost_false :
    ¬ ∀ vs : List Coord, (∀ v ∈ vs, v.Geo) → twiceArea (removeCollinear vs) = twiceArea vs := by
  intro h
  exact absurd (h [⟨0, 0⟩, ⟨0, 0⟩, ⟨10, 0⟩, ⟨0, 10⟩] (by decide)) (by decide +kernel)

/-- **C14** `get_line_segments` lists one edge per vertex, from it to the next vertex (the last one to
the first), and the edges together are exactly the boundary. -/
theorem C14_segments (vs : List Coord) :
    (segments vs).length = vs.length ∧
    (∀ (i : ℕ) (h : i < vs.length), (segments vs)[i]? =
      some ⟨vs[i], vs[(i + 1) % vs.length]'(Nat.mod_lt _ (by omega))⟩) ∧
    ∀ x y, OnRing vs x y ↔ ∃ s ∈ segments vs, OnSeg s x y := by
  have hat : ∀ i (h : 0 < vs.length), ringAt vs i = vs[i % vs.length]'(Nat.mod_lt _ h) := by
    intro i h
    unfold ringAt
    rw [List.getD_eq_getElem?_getD, List.getElem?_eq_getElem (Nat.mod_lt _ h)]
    rfl
  refine ⟨by simp [segments], ?_, ?_⟩
  · intro i h
    have hn : 0 < vs.length := by omega
    rw [segments, List.getElem?_map, List.getElem?_range h, Option.map_some, hat i hn, hat (i + 1) hn]
    simp only [Nat.mod_eq_of_lt h]
  · intro x y
    unfold OnRing segments
    constructor
    · rintro ⟨i, hi, h⟩
      exact ⟨_, List.mem_map.2 ⟨i, List.mem_range.2 hi, rfl⟩, h⟩
    · rintro ⟨s, hs, h⟩
      obtain ⟨i, hi, rfl⟩ := List.mem_map.1 hs
      exact ⟨i, List.mem_range.1 hi, h⟩

example : segments [⟨0, 0⟩, ⟨2, 0⟩, ⟨2, 2⟩] =
    [⟨⟨0, 0⟩, ⟨2, 0⟩⟩, ⟨⟨2, 0⟩, ⟨2, 2⟩⟩, ⟨⟨2, 2⟩, ⟨0, 0⟩⟩] := by
  decide +kernel

/-! ### C12 -/

/-- **C12** The stored ring is the cleaned ring or its reversal. -/
theorem C12_same_vertices (T : ℕ → SumTree) (vs : List Coord) :
    mk T vs = removeCollinear vs ∨ mk T vs = (removeCollinear vs).reverse := by
  unfold mk normalizeOrient
  split_ifs <;> simp

/-- **C12** If the area of the cleaned ring exceeds the rounding error of the winding sum
(`n·(156 + 44·d)` square microdegrees for `n` vertices and summation depth `d`), the stored
ring is counter-clockwise.  For the plain loop `d = n`.
Missing for the full statement: slimmer rings, for which it is false
(`C12_sliver_clockwise_false`). -/
theorem C12_counter_clockwise_partial (T : ℕ → SumTree) (hT : PlanOk T) (vs : List Coord)
    (hper : ∀ v ∈ vs, v.Per)
    (hd : (T (removeCollinear vs).length).depth ≤ 2 ^ 40)
    (hA : (removeCollinear vs).length * (156 + 44 * (T (removeCollinear vs).length).depth) <
      |twiceArea (removeCollinear vs)|) :
    0 < twiceArea (mk T vs) := by
  unfold mk
  have hc : ∀ v ∈ removeCollinear vs, v.Per := fun v hv =>
    hper v ((removeCollinear_sublist vs).subset hv)
  rw [mk_of_resolved hT hc hd hA]
  split_ifs with h
  · exact h
  · rw [twiceArea_reverse]
    have hne : twiceArea (removeCollinear vs) ≠ 0 := by
      intro h0
      rw [h0] at hA
      have : (0 : ℤ) ≤ (removeCollinear vs).length *
        (156 + 44 * (T (removeCollinear vs).length).depth) := by positivity
      simp at hA; omega
    omega

example : (removeCollinear [⟨0, 0⟩, ⟨0, 1000⟩, ⟨1000, 0⟩]).length *
    (156 + 44 * (SumTree.sequential
      (removeCollinear [⟨0, 0⟩, ⟨0, 1000⟩, ⟨1000, 0⟩]).length).depth) <
    |twiceArea (removeCollinear [⟨0, 0⟩, ⟨0, 1000⟩, ⟨1000, 0⟩])| := by decide +kernel

/-- **C12** (false without the area bound) A long sliver with positive exact area is stored
clockwise, because the winding sum is computed in doubles. -/
theorem C12_sliver_clockwise_false :
    ¬ ∀ (T : ℕ → SumTree), PlanOk T → ∀ vs : List Coord, (∀ v ∈ vs, v.Geo) → NoRepeat vs →
      0 ≤ twiceArea (mk T vs) := by
  intro h
  exact absurd (h SumTree.sequential sequential_ok
    [⟨-123640686, -77402380⟩, ⟨51269972, -26451287⟩, ⟨-101577105, -70975307⟩]
    (by decide) (by decide)) (by decide +kernel)

/-! ### C13 -/

/-- **C13** Drawing the ring in the opposite direction gives the same stored ring. -/
theorem C13_direction (T : ℕ → SumTree) (hT : PlanOk T) (vs : List Coord)
    (hper : ∀ v ∈ vs, v.Per)
    (hd : (T (removeCollinear vs).length).depth ≤ 2 ^ 40)
    (hA : (removeCollinear vs).length * (156 + 44 * (T (removeCollinear vs).length).depth) <
      |twiceArea (removeCollinear vs)|) :
    mk T vs.reverse = mk T vs := by
  have hc : ∀ v ∈ removeCollinear vs, v.Per := fun v hv =>
    hper v ((removeCollinear_sublist vs).subset hv)
  have hne : twiceArea (removeCollinear vs) ≠ 0 := by
    intro h0
    rw [h0] at hA
    have : (0 : ℤ) ≤ (removeCollinear vs).length *
      (156 + 44 * (T (removeCollinear vs).length).depth) := by positivity
    simp at hA; omega
  unfold mk
  rw [removeCollinear_reverse, mk_of_resolved hT hc hd hA]
  have e := mk_of_resolved (c := (removeCollinear vs).reverse) hT (by simpa using hc)
    (by simpa using hd) (by
      unfold AreaResolved; rw [twiceArea_reverse, abs_neg, List.length_reverse]; exact hA)
  rw [List.length_reverse] at e ⊢
  rw [e, twiceArea_reverse, List.reverse_reverse]
  split_ifs <;> first | rfl | omega

example : mk SumTree.sequential [⟨0, 0⟩, ⟨0, 1000⟩, ⟨1000, 0⟩] =
    mk SumTree.sequential [⟨1000, 0⟩, ⟨0, 1000⟩, ⟨0, 0⟩] := by decide +kernel

/-! ### C15 -/

/-- **C15** Rebuilding a polygon from its own vertices changes nothing, if the input had no
equal neighbours and its area exceeds the rounding error.
Missing for the full statement: equal neighbours (`C15_rebuild_false`) and slivers. -/
theorem C15_rebuild_partial (T : ℕ → SumTree) (hT : PlanOk T) (vs : List Coord)
    (hper : ∀ v ∈ vs, v.Per) (hn : NoRepeat vs)
    (hd : (T (removeCollinear vs).length).depth ≤ 2 ^ 40)
    (hA : (removeCollinear vs).length * (156 + 44 * (T (removeCollinear vs).length).depth) <
      |twiceArea (removeCollinear vs)|) :
    mk T (mk T vs) = mk T vs := by
  have hpos := C12_counter_clockwise_partial T hT vs hper hd hA
  have hsame : removeCollinear (mk T vs) = mk T vs := by
    rcases C12_same_vertices T vs with h | h
    · rw [h, removeCollinear_idem hn]
    · rw [h, removeCollinear_reverse, removeCollinear_idem hn]
  have hlen : (mk T vs).length = (removeCollinear vs).length := by
    rcases C12_same_vertices T vs with h | h <;> rw [h]; simp
  have harea : |twiceArea (mk T vs)| = |twiceArea (removeCollinear vs)| := by
    rcases C12_same_vertices T vs with h | h <;> rw [h]
    rw [twiceArea_reverse, abs_neg]
  have hmem : ∀ v ∈ mk T vs, v.Per := by
    intro v hv
    apply hper v ((removeCollinear_sublist vs).subset _)
    rcases C12_same_vertices T vs with h | h
    · rwa [h] at hv
    · rw [h] at hv; simpa using hv
  have e : mk T (mk T vs) =
      normalizeOrient (T (removeCollinear (mk T vs)).length) (removeCollinear (mk T vs)) := rfl
  rw [e, hsame, mk_of_resolved hT hmem (by rw [hlen]; exact hd)
    (by unfold AreaResolved; rw [hlen, harea]; exact hA), if_pos hpos]

example : NoRepeat [⟨0, 0⟩, ⟨0, 1000⟩, ⟨1000, 0⟩] := by decide

/-- **C15** (false with equal neighbours) Rebuilding a polygon from its own vertices can drop
further vertices. -/
theorem C15_rebuild_false :
    ¬ ∀ vs : List Coord, (∀ v ∈ vs, v.Geo) →
      mk SumTree.sequential (mk SumTree.sequential vs) = mk SumTree.sequential vs := by
  intro h
  exact absurd (h [⟨0, 1⟩, ⟨0, 1⟩, ⟨1, 0⟩, ⟨2, 0⟩, ⟨0, 0⟩] (by decide)) (by decide +kernel)

/-- **C15** (false for slivers) Without equal neighbours a rebuild can still change a polygon:
the winding sum of this parallelogram rounds to a positive number in both directions, so each
rebuild turns it round. -/
theorem C15_sliver_false :
    ¬ ∀ vs : List Coord, (∀ v ∈ vs, v.Geo) → NoRepeat vs → twiceArea vs ≠ 0 →
      mk SumTree.sequential (mk SumTree.sequential vs) = mk SumTree.sequential vs := by
  intro h
  exact absurd (h [⟨-119397385, -1466676⟩, ⟨-39235427, 21082613⟩, ⟨39603074, 43259618⟩,
    ⟨-40558884, 20710329⟩] (by decide) (by decide) (by decide)) (by decide +kernel)

/-- **C15** Exactly when a rebuild changes a polygon without equal neighbours: the winding sum
of the cleaned ring comes out positive in both directions. -/
theorem C15_rebuild_iff (T : ℕ → SumTree) (vs : List Coord) (hn : NoRepeat vs) :
    mk T (mk T vs) = mk T vs ↔
      ¬ (2 < (removeCollinear vs).length ∧
        0 < (T (removeCollinear vs).length).eval (windingTerm (removeCollinear vs)) ∧
        0 < (T (removeCollinear vs).length).eval
          (windingTerm (removeCollinear vs).reverse)) := by
  have hsame : removeCollinear (mk T vs) = mk T vs := by
    rcases C12_same_vertices T vs with h | h
    · rw [h, removeCollinear_idem hn]
    · rw [h, removeCollinear_reverse, removeCollinear_idem hn]
  have e : mk T (mk T vs) =
      normalizeOrient (T (removeCollinear (mk T vs)).length) (removeCollinear (mk T vs)) := rfl
  rw [e, hsame]
  have e' : mk T vs = normalizeOrient (T (removeCollinear vs).length) (removeCollinear vs) := rfl
  rw [e']
  have hnr := removeCollinear_noRepeat hn
  generalize removeCollinear vs = r at hnr
  have hcw : ∀ (t : SumTree) (l : List Coord),
      windingOrient t l = .clockwise ↔ 0 < t.eval (windingTerm l) := by
    intro t l
    unfold windingOrient
    split_ifs with h1 h2
    · simp; linarith
    · simp [h2]
    · simp [h2]
  by_cases hl : r.length ≤ 2
  · have e1 : ∀ t, normalizeOrient t r = r := fun t => by unfold normalizeOrient; rw [if_pos hl]
    rw [e1, e1]
    exact ⟨fun _ h => by omega, fun _ => rfl⟩
  · have en : ∀ l : List Coord, l.length = r.length → ∀ t, normalizeOrient t l =
        if windingOrient t l = .clockwise then l.reverse else l := fun l h t => by
      unfold normalizeOrient; rw [if_neg (by rw [h]; exact hl)]
    rw [en r rfl]
    by_cases h1 : windingOrient (T r.length) r = .clockwise
    · rw [if_pos h1, en _ (by simp)]
      by_cases h2 : windingOrient (T r.length) r.reverse = .clockwise
      · have h2' := h2
        rw [show T r.length = T r.reverse.length by simp] at h2'
        rw [if_pos h2', List.reverse_reverse]
        refine ⟨fun h => absurd h ?_, fun h => absurd ⟨by omega, (hcw _ _).1 h1, (hcw _ _).1 h2⟩ h⟩
        intro hr
        have hlast := hnr (r.length - 1) (by omega)
        have e1 : r.length - 1 + 1 = r.length := by omega
        rw [e1] at hlast
        apply hlast
        unfold ringAt
        rw [Nat.mod_self, Nat.mod_eq_of_lt (by omega), List.getD_eq_getElem?_getD,
          List.getD_eq_getElem?_getD, ← List.getElem?_reverse' (i := 0) (by omega), ← hr]
      · have h2' := h2
        rw [show T r.length = T r.reverse.length by simp] at h2'
        rw [if_neg h2']
        exact ⟨fun _ h => h2 ((hcw _ _).2 h.2.2), fun _ => rfl⟩
    · rw [if_neg h1, en _ rfl, if_neg h1]
      exact ⟨fun _ h => h1 ((hcw _ _).2 h.2.1), fun _ => rfl⟩

/-- The sliver above meets the condition, a plain triangle does not. -/
example : let r : List Coord := [⟨-119397385, -1466676⟩, ⟨-39235427, 21082613⟩,
      ⟨39603074, 43259618⟩, ⟨-40558884, 20710329⟩]
    NoRepeat r ∧ removeCollinear r = r ∧ 0 < (SumTree.sequential 4).eval (windingTerm r) ∧
      0 < (SumTree.sequential 4).eval (windingTerm r.reverse) := by decide +kernel

example : let r : List Coord := [⟨0, 0⟩, ⟨0, 1000⟩, ⟨1000, 0⟩]
    NoRepeat r ∧ removeCollinear r = r ∧ 0 < (SumTree.sequential 3).eval (windingTerm r) ∧
      (SumTree.sequential 3).eval (windingTerm r.reverse) < 0 := by decide +kernel

/-- **C15** The cleaning step alone is idempotent without any area condition. -/
theorem C15_cleaning_idempotent (vs : List Coord) (h : NoRepeat vs) :
    removeCollinear (removeCollinear vs) = removeCollinear vs := removeCollinear_idem h

end Capi
