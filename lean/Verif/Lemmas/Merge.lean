import Verif.Model.Merge
import Verif.Lemmas.Graph
import Verif.Lemmas.Geometry

/-!
# Helper lemmas about merging and equality of graphs
-/

namespace Capi

namespace Graph

theorem mem_vertexPairs {g : Graph} {p : Coord × Coord} :
    p ∈ g.vertexPairs ↔ p.1 ∈ g.verts ∧ p.2 ∈ g.verts := by
  unfold vertexPairs
  simp only [List.mem_flatMap, List.mem_map]
  constructor
  · rintro ⟨a, ha, b, hb, rfl⟩; exact ⟨ha, hb⟩
  · rintro ⟨ha, hb⟩; exact ⟨p.1, ha, p.2, hb, rfl⟩

theorem mergeLoop_ok {g : Graph} (hs : g.Shape) (l : List (Coord × Coord))
    (hl : ∀ p ∈ l, p.1 ∈ g.verts ∧ p.2 ∈ g.verts) :
    ∃ ops, g.mergeLoop l = .ok ops ∧ ∀ o, o ∈ ops ↔
      ∃ a b m, o = .add a b m ∧ (a, b) ∈ l ∧ g.hasEdge a b = .ok true ∧
        g.isCrossing a b = .ok m := by
  induction l with
  | nil => exact ⟨[], rfl, by simp⟩
  | cons p r ih =>
    obtain ⟨ops, h1, h2⟩ := ih fun x hx => hl x (by simp [hx])
    obtain ⟨hp1, hp2⟩ := hl p (by simp)
    obtain ⟨a, b⟩ := p
    have e1 := hasEdge_ok hs hp1 hp2
    have e2 := isCrossing_ok hs hp1 hp2
    simp only at e1 e2
    unfold mergeLoop
    simp only [e1, e2, h1, Res.bind_ok, Res.pure_eq]
    by_cases hb : (a != b && g.bits a b != 0) = true
    · rw [if_pos hb]
      refine ⟨_, rfl, fun o => ?_⟩
      rw [List.mem_cons, h2]
      constructor
      · rintro (rfl | ⟨c, d, m, rfl, h3, h4, h5⟩)
        · exact ⟨a, b, _, rfl, by simp, by rw [e1, hb], e2⟩
        · exact ⟨c, d, m, rfl, by simp [h3], h4, h5⟩
      · rintro ⟨c, d, m, rfl, h3, h4, h5⟩
        rcases List.mem_cons.1 h3 with h | h
        · left
          cases h
          rw [e2] at h5
          rw [Except.ok.inj h5]
        · exact Or.inr ⟨c, d, m, rfl, h, h4, h5⟩
    · rw [if_neg hb]
      refine ⟨ops, rfl, fun o => ?_⟩
      rw [h2]
      constructor
      · rintro ⟨c, d, m, rfl, h3, h4, h5⟩
        exact ⟨c, d, m, rfl, by simp [h3], h4, h5⟩
      · rintro ⟨c, d, m, rfl, h3, h4, h5⟩
        rcases List.mem_cons.1 h3 with h | h
        · cases h
          rw [e1] at h4
          exact absurd (Except.ok.inj h4) hb
        · exact ⟨c, d, m, rfl, h, h4, h5⟩

theorem hasEdge_true_mem {g : Graph} (hs : g.Shape) {a b : Coord} (h : g.hasEdge a b = .ok true) :
    a ∈ g.verts ∧ b ∈ g.verts ∧ a ≠ b ∧ g.bits a b ≠ 0 := by
  rw [hasEdge_eq hs] at h
  split_ifs at h with h1 h2
  · simp at h
  · refine ⟨h2.1, h2.2, h1, ?_⟩
    simpa using h

theorem mergeOps_ok (gs : List Graph) (hs : ∀ g ∈ gs, g.Shape) :
    ∃ ops, mergeOps gs = .ok ops ∧ ∀ o, o ∈ ops ↔
      ∃ g ∈ gs, ∃ a b m, o = .add a b m ∧ g.hasEdge a b = .ok true ∧ g.isCrossing a b = .ok m := by
  induction gs with
  | nil => exact ⟨[], rfl, by simp⟩
  | cons g r ih =>
    obtain ⟨ops, h1, h2⟩ := ih fun x hx => hs x (by simp [hx])
    have hg := hs g (by simp)
    obtain ⟨ops', h3, h4⟩ := mergeLoop_ok hg g.vertexPairs fun p hp => mem_vertexPairs.1 hp
    refine ⟨ops' ++ ops, by simp [mergeOps, h1, h3], fun o => ?_⟩
    rw [List.mem_append, h2, h4]
    simp only [List.mem_cons, exists_eq_or_imp]
    refine or_congr_left ?_
    constructor
    · rintro ⟨a, b, m, rfl, _, h5, h6⟩; exact ⟨a, b, m, rfl, h5, h6⟩
    · rintro ⟨a, b, m, rfl, h5, h6⟩
      obtain ⟨ha, hb, _⟩ := hasEdge_true_mem hg h5
      exact ⟨a, b, m, rfl, mem_vertexPairs.2 ⟨ha, hb⟩, h5, h6⟩

theorem Live_of_no_removal {h : List Event} (hn : ∀ a b, Event.removed a b ∉ h) {a b : Coord}
    {m : Bool} : Live h a b m ↔ Event.added a b m ∈ h := by
  constructor
  · rintro ⟨pre, post, rfl, _⟩; simp
  · intro hm
    obtain ⟨pre, post, rfl⟩ := List.append_of_mem hm
    exact ⟨pre, post, rfl, fun h => hn a b (by simp [h])⟩

theorem mergeOps_history {gs : List Graph} {ops : List Op}
    (hm : ∀ o, o ∈ ops ↔ ∃ g ∈ gs, ∃ a b m, o = .add a b m ∧ g.hasEdge a b = .ok true ∧
      g.isCrossing a b = .ok m) (a b : Coord) (m : Bool) :
    Live (history ops) a b m ↔ ∃ g ∈ gs,
      (g.hasEdge a b = .ok true ∧ g.isCrossing a b = .ok m) ∨
      (g.hasEdge b a = .ok true ∧ g.isCrossing b a = .ok m) := by
  rw [Live_of_no_removal]
  · unfold history
    rw [List.mem_flatMap]
    constructor
    · rintro ⟨o, ho, he⟩
      obtain ⟨g, hg, c, d, m', rfl, h1, h2⟩ := (hm o).1 ho
      simp only [eventsOf, List.mem_cons, Event.added.injEq, List.not_mem_nil, or_false] at he
      rcases he with ⟨rfl, rfl, rfl⟩ | ⟨rfl, rfl, rfl⟩
      · exact ⟨g, hg, Or.inl ⟨h1, h2⟩⟩
      · exact ⟨g, hg, Or.inr ⟨h1, h2⟩⟩
    · rintro ⟨g, hg, ⟨h1, h2⟩ | ⟨h1, h2⟩⟩
      · exact ⟨.add a b m, (hm _).2 ⟨g, hg, a, b, m, rfl, h1, h2⟩, by simp [eventsOf]⟩
      · exact ⟨.add b a m, (hm _).2 ⟨g, hg, b, a, m, rfl, h1, h2⟩, by simp [eventsOf]⟩
  · intro c d hc
    unfold history at hc
    rw [List.mem_flatMap] at hc
    obtain ⟨o, ho, he⟩ := hc
    obtain ⟨g, hg, c, d, m', rfl, h1, h2⟩ := (hm o).1 ho
    simp [eventsOf] at he

theorem merge_ok {gs : List Graph} {ps : List (List Coord)} {schedule : List Op → List Op}
    (hg : ∀ g ∈ gs, g.Built) (hp : MergeOrder gs ps) (hsch : ∀ l, (schedule l).Perm l) :
    ∃ ops G, mergeOps gs = .ok ops ∧ merge ps schedule gs = .ok G ∧
      G.polygons = ps ∧ UserGraph G ∧
      Ok ps.flatten G (history (schedule ops)) ∧
      ∀ a b m, Live (history (schedule ops)) a b m ↔ ∃ g ∈ gs,
        (g.hasEdge a b = .ok true ∧ g.isCrossing a b = .ok m) ∨
        (g.hasEdge b a = .ok true ∧ g.isCrossing b a = .ok m) := by
  obtain ⟨ops, h1, h2⟩ := mergeOps_ok gs fun g h => (hg g h).shape
  have hmem : ∀ o, o ∈ schedule ops ↔ o ∈ ops := fun o => (hsch ops).mem_iff
  have hon : OpsOn ps.flatten (schedule ops) := by
    intro o ho c hc
    obtain ⟨g, hgg, a, b, m, rfl, h3, h4⟩ := (h2 o).1 ((hmem o).1 ho)
    obtain ⟨ha, hb, _⟩ := hasEdge_true_mem (hg g hgg).shape h3
    rw [(hg g hgg).verts] at ha hb
    have key : ∀ v ∈ g.polygons.flatten, v ∈ ps.flatten := by
      intro v hv
      obtain ⟨p, hpp, hvp⟩ := List.mem_flatten.1 hv
      exact List.mem_flatten.2 ⟨p, (hp.2 p).2 ⟨g, hgg, hpp⟩, hvp⟩
    simp only [opCoords, List.mem_cons, List.not_mem_nil, or_false] at hc
    rcases hc with rfl | rfl
    · exact key _ ha
    · exact key _ hb
  obtain ⟨G, h3, h4, h5⟩ := (ok_fresh ps).run (schedule ops) hon
  refine ⟨ops, G, h1, by simp [merge, h1, h3], h4.polygons, ?_, by simpa using h5,
    mergeOps_history fun o => by rw [hmem, h2]⟩
  refine ⟨ps, schedule ops, ?_, hon, h3⟩
  intro o ho
  obtain ⟨g, hgg, a, b, m, rfl, _⟩ := (h2 o).1 ((hmem o).1 ho)
  trivial

/-! ### The string representation -/

theorem split_at {c : Char} {u v s t : List Char} (hu : c ∉ u) (hv : c ∉ v)
    (h : u ++ c :: s = v ++ c :: t) : u = v ∧ s = t := by
  induction u generalizing v with
  | nil =>
    cases v with
    | nil => simpa using h
    | cons d v =>
      simp only [List.nil_append, List.cons_append, List.cons.injEq] at h
      exact absurd (by simp [h.1]) hv
  | cons e u ih =>
    cases v with
    | nil =>
      simp only [List.nil_append, List.cons_append, List.cons.injEq] at h
      exact absurd (by simp [h.1]) hu
    | cons d v =>
      simp only [List.cons_append, List.cons.injEq] at h
      obtain ⟨h1, h2⟩ := ih (fun h => hu (by simp [h])) (fun h => hv (by simp [h])) h.2
      exact ⟨by rw [h.1, h1], h2⟩

/-- Coordinates with `int32` components. -/
def _root_.Capi.Coord.I32 (c : Coord) : Prop := FitsI32 c.lon ∧ FitsI32 c.lat

theorem deg_inj {fmtD : ℚ → List Char} (hf : FmtOk fmtD) {a b : ℤ} (ha : FitsI32 a)
    (hb : FitsI32 b) (h : fmtD (Coord.degOfMicro a) = fmtD (Coord.degOfMicro b)) : a = b := by
  have := hf.inj a b ha hb h
  exact le_antisymm ((degOfMicro_le_iff ha hb).1 this.le) ((degOfMicro_le_iff hb ha).1 this.ge)

theorem neighbor_inj {fmtD : ℚ → List Char} (hf : FmtOk fmtD) {p q : Coord × Bool}
    {s t : List Char} (hp : p.1.I32) (hq : q.1.I32)
    (h : renderNeighbor fmtD p ++ s = renderNeighbor fmtD q ++ t) : p = q ∧ s = t := by
  unfold renderNeighbor at h
  simp only [List.cons_append, List.append_assoc, List.cons.injEq, true_and] at h
  obtain ⟨h1, h⟩ := split_at (hf.clean _).1 (hf.clean _).1 h
  simp only [List.cons.injEq, true_and] at h
  obtain ⟨h2, h⟩ := split_at (hf.clean _).1 (hf.clean _).1 h
  have h := List.append_cancel_left h
  have hb : ∀ b : Bool, ')' ∉ fmtBool b := by decide
  obtain ⟨h3, h⟩ := split_at (hb _) (hb _) h
  simp only [List.cons.injEq, true_and, List.nil_append] at h
  refine ⟨?_, h⟩
  have e1 := deg_inj hf hp.1 hq.1 h1
  have e2 := deg_inj hf hp.2 hq.2 h2
  have e3 : p.2 = q.2 := by
    revert h3; cases p.2 <;> cases q.2 <;> simp [fmtBool]
  obtain ⟨⟨a, b⟩, c⟩ := p
  obtain ⟨⟨a', b'⟩, c'⟩ := q
  simp_all

theorem neighbors_inj {fmtD : ℚ → List Char} (hf : FmtOk fmtD) {l m : List (Coord × Bool)}
    {s t : List Char} (hl : ∀ p ∈ l, p.1.I32) (hm : ∀ p ∈ m, p.1.I32)
    (h : l.flatMap (renderNeighbor fmtD) ++ ']' :: s = m.flatMap (renderNeighbor fmtD) ++ ']' :: t) :
    l = m ∧ s = t := by
  induction l generalizing m with
  | nil =>
    cases m with
    | nil => simpa using h
    | cons q m => simp [renderNeighbor] at h
  | cons p l ih =>
    cases m with
    | nil => simp [renderNeighbor] at h
    | cons q m =>
      rw [List.flatMap_cons, List.flatMap_cons, List.append_assoc, List.append_assoc] at h
      obtain ⟨h1, h2⟩ := neighbor_inj hf (hl p (by simp)) (hm q (by simp)) h
      obtain ⟨h3, h4⟩ := ih (fun x hx => hl x (by simp [hx])) (fun x hx => hm x (by simp [hx])) h2
      exact ⟨by rw [h1, h3], h4⟩

/-- All coordinates of a line are `int32`. -/
def LineI32 (p : Coord × List (Coord × Bool)) : Prop := p.1.I32 ∧ ∀ q ∈ p.2, q.1.I32

theorem line_inj {fmtD : ℚ → List Char} (hf : FmtOk fmtD) {p q : Coord × List (Coord × Bool)}
    {s t : List Char} (hp : LineI32 p) (hq : LineI32 q)
    (h : renderLine fmtD p ++ s = renderLine fmtD q ++ t) : p = q ∧ s = t := by
  unfold renderLine at h
  simp only [List.cons_append, List.append_assoc, List.cons.injEq, true_and] at h
  obtain ⟨h1, h⟩ := split_at (hf.clean _).1 (hf.clean _).1 h
  simp only [List.cons.injEq, true_and] at h
  obtain ⟨h2, h⟩ := split_at (hf.clean _).2 (hf.clean _).2 h
  simp only [List.cons.injEq, true_and] at h
  obtain ⟨h3, h⟩ := neighbors_inj hf hp.2 hq.2 h
  simp only [List.cons.injEq, true_and, List.nil_append] at h
  refine ⟨?_, h⟩
  have e1 := deg_inj hf hp.1.1 hq.1.1 h1
  have e2 := deg_inj hf hp.1.2 hq.1.2 h2
  obtain ⟨⟨a, b⟩, c⟩ := p
  obtain ⟨⟨a', b'⟩, c'⟩ := q
  simp_all

theorem lines_inj {fmtD : ℚ → List Char} (hf : FmtOk fmtD)
    {l m : List (Coord × List (Coord × Bool))}
    (hl : ∀ p ∈ l, LineI32 p) (hm : ∀ p ∈ m, LineI32 p)
    (h : l.flatMap (renderLine fmtD) ++ [')'] = m.flatMap (renderLine fmtD) ++ [')']) : l = m := by
  induction l generalizing m with
  | nil =>
    cases m with
    | nil => rfl
    | cons q m => simp [renderLine] at h
  | cons p l ih =>
    cases m with
    | nil => simp [renderLine] at h
    | cons q m =>
      rw [List.flatMap_cons, List.flatMap_cons, List.append_assoc, List.append_assoc] at h
      obtain ⟨h1, h2⟩ := line_inj hf (hl p (by simp)) (hm q (by simp)) h
      rw [h1, ih (fun x hx => hl x (by simp [hx])) (fun x hx => hm x (by simp [hx])) h2]

/-! ### The printed data -/

theorem flagLoop_ok {g : Graph} (hs : g.Shape) {v : Coord} (hv : v ∈ g.verts) (l : List Coord)
    (hl : ∀ w ∈ l, w ∈ g.verts) :
    g.flagLoop v l = .ok (l.map fun w => (w, v != w && g.bits v w == 2)) := by
  induction l with
  | nil => rfl
  | cons w r ih =>
    unfold flagLoop
    rw [isCrossing_ok hs hv (hl w (by simp)), ih fun x hx => hl x (by simp [hx])]
    rfl

/-- The neighbours of `v` in the order the matrix row gives. -/
def nbrs (g : Graph) (v : Coord) : List Coord :=
  match g.neighbors v with
  | .ok ns => ns
  | .error _ => []

theorem nbrs_ok {g : Graph} (hs : g.Shape) {v : Coord} (hv : v ∈ g.verts) :
    g.neighbors v = .ok (g.nbrs v) := by
  obtain ⟨j, ns, _, _, h, _⟩ := neighbors_ok hs hv
  rw [nbrs, h]

theorem lineLoop_ok {g : Graph} (hs : g.Shape) (hc : g.Clean) {srt : List Coord → List Coord}
    (hsrt : SortOk srt) (l : List Coord) (hl : ∀ w ∈ l, w ∈ g.verts) :
    g.lineLoop srt l = .ok (l.map fun v =>
      (v, (srt (g.nbrs v)).map fun w => (w, v != w && g.bits v w == 2))) := by
  induction l with
  | nil => rfl
  | cons v r ih =>
    have hv := hl v (by simp)
    have hn := nbrs_ok hs hv
    unfold lineLoop
    rw [hn, Res.bind_ok, flagLoop_ok hs hv, ih fun x hx => hl x (by simp [hx])]
    · rfl
    · intro w hw
      have := (hsrt (g.nbrs v)).1.subset hw
      exact (((neighbors_mem hs hc hv hn).2 w).1 this).1

theorem hash_sorted_unique {l m : List Coord} (hp : l.Perm m)
    (hl : l.Pairwise fun a b => ¬ b.hash < a.hash) (hm : m.Pairwise fun a b => ¬ b.hash < a.hash)
    (hh : (l.map Coord.hash).Nodup) : l = m := by
  have hinj : ∀ a ∈ l, ∀ b ∈ l, a.hash = b.hash → a = b :=
    fun a ha b hb h => List.inj_on_of_nodup_map hh ha hb h
  refine hp.eq_of_pairwise (le := fun a b => ¬ b.hash < a.hash) ?_ hl hm
  intro a b ha hb h1 h2
  apply hinj a ha b (hp.symm.subset hb)
  rw [BitVec.not_lt] at h1 h2
  exact BitVec.le_antisymm h1 h2

theorem sort_unique {srt : List Coord → List Coord} (hsrt : SortOk srt) {l m : List Coord}
    (hp : l.Perm m) (hh : (l.map Coord.hash).Nodup) : srt l = srt m := by
  obtain ⟨p1, s1⟩ := hsrt l
  obtain ⟨p2, s2⟩ := hsrt m
  refine hash_sorted_unique (p1.trans (hp.trans p2.symm)) s1 s2 ?_
  exact (p1.map _).nodup_iff.2 hh

theorem hashInsert_perm (c : Coord) (l : List Coord) : (hashInsert c l).Perm (c :: l) := by
  induction l with
  | nil => exact List.Perm.refl _
  | cons d r ih =>
    rw [hashInsert]
    split_ifs
    · exact List.Perm.refl _
    · exact (ih.cons d).trans (List.Perm.swap c d r)

theorem hashInsert_sorted (c : Coord) (l : List Coord)
    (hl : l.Pairwise fun a b => ¬ b.hash < a.hash) :
    (hashInsert c l).Pairwise fun a b => ¬ b.hash < a.hash := by
  induction l with
  | nil => simp [hashInsert]
  | cons d r ih =>
    rw [List.pairwise_cons] at hl
    rw [hashInsert]
    split_ifs with h
    · refine List.pairwise_cons.2 ⟨?_, List.pairwise_cons.2 hl⟩
      intro x hx
      rcases List.mem_cons.1 hx with rfl | hx
      · rw [BitVec.not_lt]; exact BitVec.le_of_lt h
      · have := hl.1 x hx
        rw [BitVec.not_lt] at this ⊢
        rw [BitVec.le_def] at this ⊢
        rw [BitVec.lt_def] at h
        omega
    · refine List.pairwise_cons.2 ⟨?_, ih hl.2⟩
      intro x hx
      rcases List.mem_cons.1 ((hashInsert_perm c r).subset hx) with rfl | hx
      · exact h
      · exact hl.1 x hx

theorem hashSort_ok : SortOk hashSort := by
  have key : ∀ (l acc : List Coord), (acc.Pairwise fun a b => ¬ b.hash < a.hash) →
      (l.foldl (fun acc c => hashInsert c acc) acc).Perm (acc ++ l) ∧
      (l.foldl (fun acc c => hashInsert c acc) acc).Pairwise fun a b => ¬ b.hash < a.hash := by
    intro l
    induction l with
    | nil => intro acc h; exact ⟨by simp, h⟩
    | cons c r ih =>
      intro acc h
      obtain ⟨h1, h2⟩ := ih (hashInsert c acc) (hashInsert_sorted c acc h)
      refine ⟨h1.trans ?_, h2⟩
      refine ((hashInsert_perm c acc).append_right r).trans ?_
      exact (List.perm_middle (a := c) (l₁ := acc) (l₂ := r)).symm
  intro l
  have := key l [] (by simp)
  simpa [hashSort] using this

end Graph

end Capi
