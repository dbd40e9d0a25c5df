import Verif.Lemmas.LegibleCheck
import Verif.Spec.Nearest

/-!
# Lemmas on the edge the sweep takes to be nearest
-/

namespace Capi

open Vistree

theorem emplace_key (d : ℤ) (s : Seg) (l : List (ℤ × Seg)) :
    ∃ y ∈ OpenEdges.emplace d s l, y.1 = d := by
  induction l with
  | nil => exact ⟨(d, s), by simp [OpenEdges.emplace], rfl⟩
  | cons y r ih =>
    simp only [OpenEdges.emplace]
    split_ifs with h1 h2
    · exact ⟨(d, s), by simp, rfl⟩
    · exact ⟨y, by simp, h2.symm⟩
    · obtain ⟨z, hz, e⟩ := ih
      exact ⟨z, List.mem_cons_of_mem _ hz, e⟩

theorem emplace_dup {d : ℤ} {s : Seg} {l : List (ℤ × Seg)}
    (hl : l.Pairwise fun x y => x.1 < y.1) (h : ∃ y ∈ l, y.1 = d) : OpenEdges.emplace d s l = l := by
  induction l with
  | nil => simp at h
  | cons y r ih =>
    rw [List.pairwise_cons] at hl
    obtain ⟨z, hz, e⟩ := h
    simp only [OpenEdges.emplace]
    rcases List.mem_cons.1 hz with rfl | hz
    · rw [if_neg (by omega), if_pos e.symm]
    · have := hl.1 z hz
      rw [if_neg (by omega), if_neg (by omega), ih hl.2 ⟨z, hz, e⟩]

theorem closeAt_mem {look : Seg → Seg → Bool} {m : VisMap} {obs w : Coord} {o : OpenEdges}
    {x : ℤ × Seg} (h : x ∈ (closeAt look m obs w o).byDist) : x ∈ o.byDist := by
  unfold closeAt at h
  generalize orientSegs (incident m w) obs w .clockwise = cs at h
  induction cs generalizing o with
  | nil => exact h
  | cons s r ih =>
    have : x ∈ (o.remove look s).byDist := ih h
    unfold OpenEdges.remove at this
    split at this
    · exact this
    · exact eraseAt_mem this

section

variable {ps : List (List Coord)} {m : VisMap} {segs : List Seg} {look : Seg → Seg → Bool}
  {obs : Coord}

/-- What is opened at `w`: the edge arriving there, or one that has no other beginning there. -/
theorem World.opened_kept (W : World ps m segs look obs) {w : Coord} (hw : w ∈ ps.flatten)
    {o : OpenEdges} (ho : o.byDist.Pairwise fun x y => x.1 < y.1) {x : ℤ × Seg}
    (hx : x ∈ (openAt look m obs w o).byDist) :
    x ∈ o.byDist ∨ (x.2 ∈ orientSegs (incident m w) obs w .counterClockwise ∧
      x.1 = openDist obs w x.2 ∧ Kept ps obs x.2) := by
  obtain ⟨a, b, hc, hi, hu⟩ := W.simple.incident_form W.map hw
  have hmem := fun s => (W.mem_orient hw s).2
  have hkeptA : startOf obs ⟨a, w⟩ = w → Kept ps obs ⟨a, w⟩ := fun h _ _ _ _ _ => h.symm
  unfold openAt at hx
  have hform : ∃ p : Seg → Bool, orientSegs (incident m w) obs w .counterClockwise =
      [⟨a, w⟩, ⟨w, b⟩].filter p := ⟨_, by unfold orientSegs; rw [hi]⟩
  obtain ⟨p, hp⟩ := hform
  rw [hp] at hx hmem ⊢
  by_cases hA : p ⟨a, w⟩ = true
  · obtain ⟨ha1, ha2, ha3⟩ := (hmem ⟨a, w⟩).1 (List.mem_filter.2 ⟨by simp, hA⟩)
    by_cases hB : p ⟨w, b⟩ = true
    · obtain ⟨hb1, hb2, hb3⟩ := (hmem ⟨w, b⟩).1 (List.mem_filter.2 ⟨by simp, hB⟩)
      have hl : [Seg.mk a w, ⟨w, b⟩].filter p = [⟨a, w⟩, ⟨w, b⟩] := by simp [hA, hB]
      rw [hl] at hx ⊢
      simp only [List.foldl_cons, List.foldl_nil, OpenEdges.add] at hx
      rw [W.openDist_eq hw ha1 ha2 ha3, W.openDist_eq hw hb1 hb2 hb3,
        emplace_dup (emplace_sorted ho) (emplace_key _ _ _)] at hx
      rcases emplace_mem hx with rfl | hx
      · exact Or.inr ⟨by simp, (W.openDist_eq hw ha1 ha2 ha3).symm, hkeptA ha3⟩
      · exact Or.inl hx
    · have hl : [Seg.mk a w, ⟨w, b⟩].filter p = [⟨a, w⟩] := by simp [hA, hB]
      rw [hl] at hx ⊢
      simp only [List.foldl_cons, List.foldl_nil, OpenEdges.add] at hx
      rcases emplace_mem hx with rfl | hx
      · exact Or.inr ⟨by simp, rfl, hkeptA ha3⟩
      · exact Or.inl hx
  · by_cases hB : p ⟨w, b⟩ = true
    · obtain ⟨hb1, hb2, hb3⟩ := (hmem ⟨w, b⟩).1 (List.mem_filter.2 ⟨by simp, hB⟩)
      have hl : [Seg.mk a w, ⟨w, b⟩].filter p = [⟨w, b⟩] := by simp [hA, hB]
      rw [hl] at hx ⊢
      simp only [List.foldl_cons, List.foldl_nil, OpenEdges.add] at hx
      rcases emplace_mem hx with rfl | hx
      · refine Or.inr ⟨by simp, rfl, fun t ht hne hbt hst => ?_⟩
        exfalso
        have := (hmem t).2 ⟨ht, hbt, hst.trans hb3⟩
        rw [hl, List.mem_singleton] at this
        exact hne this
      · exact Or.inl hx
    · have hl : [Seg.mk a w, ⟨w, b⟩].filter p = [] := by simp [hA, hB]
      rw [hl] at hx
      exact Or.inl hx

/-- Everything stored was in sight at the start, or is the edge kept at its right end. -/
theorem World.entries (W : World ps m segs look obs) (pre : List Coord) :
    ∀ rest, Order ps obs (pre ++ rest) →
    ∀ x ∈ (pre.foldl (sweepStep look m obs) (initialOpen look obs segs)).byDist,
      (AcrossEast obs x.2 ∧ endOf obs x.2 ∉ pre) ∨ (startOf obs x.2 ∈ pre ∧ Kept ps obs x.2) := by
  induction pre using List.reverseRecOn with
  | nil =>
    intro rest O x hx
    obtain ⟨-, -, ⟨h, h', -⟩ | ⟨h, -⟩⟩ := W.start.known _ (W.start.agree x hx)
    · exact Or.inl ⟨h, h'⟩
    · simp at h
  | append_singleton pre w ih =>
    intro rest O x hx
    rw [List.append_assoc] at O
    have hw : w ∈ ps.flatten := (O.mem w).1 (by simp)
    have hI := W.inv pre _ O
    have hJ := ih _ O
    rw [List.foldl_append, List.foldl_cons, List.foldl_nil] at hx
    generalize pre.foldl (sweepStep look m obs) (initialOpen look obs segs) = o at hI hJ hx
    have old : x ∈ o.byDist → endOf obs x.2 ≠ w →
        (AcrossEast obs x.2 ∧ endOf obs x.2 ∉ pre ++ [w]) ∨
          (startOf obs x.2 ∈ pre ++ [w] ∧ Kept ps obs x.2) := by
      intro hx hne
      rcases hJ x hx with ⟨h1, h2⟩ | ⟨h1, h2⟩
      · exact Or.inl ⟨h1, by simp [h2, hne]⟩
      · exact Or.inr ⟨by simp [h1], h2⟩
    unfold sweepStep at hx
    split_ifs at hx with how
    · refine old hx ?_
      rw [← how]
      exact (ends_ne_obs (hI.known _ (hI.agree x hx)).2.1).2
    · have hC := W.close hw hI
      rcases W.opened_kept hw hC.sorted hx with h | ⟨h1, -, h3⟩
      · obtain ⟨-, h2, h3⟩ := hC.known _ (hC.agree x h)
        refine old ?_ (h3 h2.1)
        exact closeAt_mem h
      · exact Or.inr ⟨by simp [(((W.mem_orient hw x.2).2).1 h1).2.2], h3⟩

theorem World.entry_filed (W : World ps m segs look obs) {pre rest : List Coord} {v : Coord}
    (O : Order ps obs (pre ++ v :: rest)) {x : ℤ × Seg}
    (hx : x ∈ (closeAt look m obs v
      (pre.foldl (sweepStep look m obs) (initialOpen look obs segs))).byDist) :
    EdgeOf ps x.2 ∧ Filed obs v x.2 x.1 ∧ endOf obs x.2 ≠ v := by
  have hv : v ∈ ps.flatten := (O.mem v).1 (by simp)
  have hC := W.close hv (W.inv pre _ O)
  obtain ⟨hwall, ⟨hbx, h⟩, hend⟩ := hC.known _ (hC.agree x hx)
  simp only at hwall hbx h hend
  have hmx := ends_vertices (obs := obs) hwall.1
  refine ⟨hwall.1, ⟨hbx, ?_⟩, hend hbx⟩
  rcases h with ⟨h1, h2, h3⟩ | ⟨h1, h2, h3⟩
  · exact Or.inl ⟨h1, O.after hmx.2 h2 (hend hbx), h3⟩
  · refine Or.inr ⟨O.of_mem h1, ?_, h3⟩
    rcases h2 with h2 | h2
    · exact Or.inl h2
    · exact Or.inr (O.after hmx.2 h2 (hend hbx))

theorem filed_met {v : Coord} {s : Seg} {k : ℤ} (h : Filed obs v s k) (hv : v ≠ obs) :
    MetAt obs v s k := by
  have := filed_key h hv
  unfold MetAt FromEast
  split_ifs at this with hc
  · exact ⟨fun _ => this, fun hn => absurd hc hn⟩
  · exact ⟨fun hn => absurd hn hc, fun _ => this⟩

/-- Every entry is known and met at its key. -/
theorem World.entry_listed (W : World ps m segs look obs)
    (hlin : ∀ v ∈ ps.flatten, ∀ w ∈ ps.flatten, v ≠ w → ¬ InLine obs v w)
    {pre rest : List Coord} {v : Coord} (hv0 : v ≠ obs)
    (O : Order ps obs (pre ++ v :: rest)) {x : ℤ × Seg}
    (hx : x ∈ (closeAt look m obs v
      (pre.foldl (sweepStep look m obs) (initialOpen look obs segs))).byDist) :
    Listed ps obs v x.2 ∧ MetAt obs v x.2 x.1 := by
  have hv : v ∈ ps.flatten := (O.mem v).1 (by simp)
  obtain ⟨he, hF, hend⟩ := W.entry_filed O hx
  have ms := edge_mem he
  have hoff := filed_off hF
  refine ⟨⟨he, ⟨hF.1, filed_sides' hF hv0 (hlin _ hv _ ms.1 hoff.1) (hlin _ hv _ ms.2 hoff.2)⟩, ?_⟩,
    filed_met hF hv0⟩
  rcases W.entries pre _ O x (closeAt_mem hx) with ⟨h1, h2⟩ | ⟨-, h⟩
  · left
    refine ⟨?_, h1⟩
    by_contra hc
    exact south_after (not_le.1 hc) h1.2.le (ends_ne_obs hF.1).2
      (O.after (ends_vertices (obs := obs) he).2 h2 hend)
  · exact Or.inr h

/-- Every edge known is stored. -/
theorem World.listed_entry (W : World ps m segs look obs) (R : Ranked ps obs)
    (hlin : ∀ v ∈ ps.flatten, ∀ w ∈ ps.flatten, v ≠ w → ¬ InLine obs v w)
    {pre rest : List Coord} {v : Coord} (hv0 : v ≠ obs)
    (O : Order ps obs (pre ++ v :: rest)) {e : Seg} (h : Listed ps obs v e) :
    ∃ K, (K, e) ∈ (closeAt look m obs v
      (pre.foldl (sweepStep look m obs) (initialOpen look obs segs))).byDist := by
  obtain ⟨he, ⟨hb, hside⟩, hor⟩ := h
  obtain ⟨K, -, hF⟩ := facing_filed hb hside
  by_cases hE : FromEast obs v e
  · rcases hF with ⟨h1, h2, -⟩ | ⟨h1, -, -⟩
    · obtain ⟨K, -, hm⟩ := W.stored_east he hb h1
        (fun s d hs hne ha hd hd' => R.east e s d he hs hne.symm h1 ha hd hd') O h2
      exact ⟨K, hm⟩
    · exact absurd h1 (south_after hE.2.1 hE.1 hv0)
  · have hk := hor.resolve_left hE
    rcases hF with ⟨h1, h2, -⟩ | ⟨h1, h2, -⟩
    · exfalso
      refine hE ⟨?_, h1⟩
      by_contra hc
      exact south_after (not_le.1 hc) h1.2.le (ends_ne_obs hb).2 h2
    · refine ⟨_, W.stored_met he (fun p r O' => W.stored_of he hb hk fun x hx hd => ?_) O h1 h2⟩
      by_contra hne
      obtain ⟨hl, hm⟩ := W.entry_listed hlin (ends_ne_obs hb).1 O' hx
      rw [hd] at hm
      exact R.fresh e x.2 he hb hk hl hne hm

/-- The closest open edge is the one met nearest. -/
theorem World.closest_iff (W : World ps m segs look obs) (R : Ranked ps obs)
    (hlin : ∀ v ∈ ps.flatten, ∀ w ∈ ps.flatten, v ≠ w → ¬ InLine obs v w)
    {pre rest : List Coord} {v : Coord} (hv0 : v ≠ obs)
    (O : Order ps obs (pre ++ v :: rest)) (c : Seg) :
    (closeAt look m obs v (pre.foldl (sweepStep look m obs) (initialOpen look obs segs))).closest =
      some c ↔ Nearest ps obs v c := by
  have hv : v ∈ ps.flatten := (O.mem v).1 (by simp)
  have hC := W.close hv (W.inv pre _ O)
  have h1 := fun x hx => W.entry_listed hlin hv0 O (x := x) hx
  have h2 := fun e he => W.listed_entry R hlin hv0 O (e := e) he
  generalize closeAt look m obs v
    (pre.foldl (sweepStep look m obs) (initialOpen look obs segs)) = o at hC h1 h2
  have hs := hC.sorted
  unfold OpenEdges.closest
  cases hbd : o.byDist with
  | nil =>
    refine ⟨fun h => by simp at h, fun h => ?_⟩
    obtain ⟨K, hK⟩ := h2 c h.1
    rw [hbd] at hK
    simp at hK
  | cons x r =>
    rw [hbd] at hs h1 h2
    simp only [List.head?_cons, Option.map_some, Option.some.injEq]
    obtain ⟨hl, hm⟩ := h1 x (by simp)
    constructor
    · rintro rfl
      refine ⟨hl, fun s hls hne k K hk hK => ?_⟩
      obtain ⟨K', hK'⟩ := h2 s hls
      have hlt : x.1 < K' := by
        rcases List.mem_cons.1 hK' with h | h
        · exact absurd (by rw [← h]) hne
        · exact (List.pairwise_cons.1 hs).1 _ h
      have hm' := (h1 _ hK').2
      simp only at hm'
      rcases R.apart v hv hv0 s x.2 hls hl hne with h | h
      · have := h _ _ hm' hm
        omega
      · exact h _ _ hk hK
    · intro hN
      by_contra hne
      obtain ⟨K', hK'⟩ := h2 c hN.1
      have hlt : x.1 < K' := by
        rcases List.mem_cons.1 hK' with h | h
        · exact absurd (by rw [← h]) hne
        · exact (List.pairwise_cons.1 hs).1 _ h
      have hm' := (h1 _ hK').2
      simp only at hm'
      have := hN.2 _ hl hne _ _ hm hm'
      omega

end

end Capi
