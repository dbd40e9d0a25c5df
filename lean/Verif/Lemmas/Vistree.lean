import Verif.Model.Vistree
import Verif.Spec.Sight
import Verif.Lemmas.Angle
import Verif.Lemmas.Coordinate
import Verif.Lemmas.Periodicity
import Verif.Lemmas.Polyline
import Verif.Props.Segment

/-!
# Helper lemmas about the visibility scan
-/

namespace Capi

namespace Vistree

/-! ### The map of incident segments -/

/-- An entry stems from a corner of a polygon. -/
def CornerEntry (ps : List (List Coord)) (e : Coord × List Seg) : Prop :=
  ∃ a b, CornerOf ps a e.1 b ∧ e.2 = [⟨a, e.1⟩, ⟨e.1, b⟩]

theorem set_keys (m : VisMap) (k : Coord) (x : List Seg) (c : Coord) :
    c ∈ (Assoc.set m k x).map Prod.fst ↔ c = k ∨ c ∈ m.map Prod.fst := by
  have h : c ∈ (Assoc.set m k x).map Prod.fst ↔ ¬ Assoc.get (Assoc.set m k x) c = none := by
    rw [Assoc.get_eq_none, not_not]
  rw [h, Assoc.get_set]
  by_cases hk : k = c
  · simp [hk]
  · rw [if_neg hk, Assoc.get_eq_none, not_not]
    constructor
    · exact Or.inr
    · rintro (rfl | h)
      · exact absurd rfl hk
      · exact h

theorem addPolygon_facts (ps : List (List Coord)) (p : List Coord) (hp : p ∈ ps) (m : VisMap)
    (hn : (m.map Prod.fst).Nodup) (he : ∀ e ∈ m, CornerEntry ps e) (is : List ℕ)
    (hi : ∀ i ∈ is, i < p.length) :
    let m' := is.foldl (fun m i => Assoc.set m (ringAt p i)
      [⟨ringAt p (i + p.length - 1), ringAt p i⟩, ⟨ringAt p i, ringAt p (i + 1)⟩]) m
    (m'.map Prod.fst).Nodup ∧ (∀ e ∈ m', CornerEntry ps e) ∧
      ∀ c, c ∈ m'.map Prod.fst ↔ c ∈ m.map Prod.fst ∨ ∃ i ∈ is, c = ringAt p i := by
  induction is generalizing m with
  | nil => exact ⟨hn, he, fun c => by simp⟩
  | cons i r ih =>
    have h1 := Assoc.keys_set m (ringAt p i)
      [⟨ringAt p (i + p.length - 1), ringAt p i⟩, ⟨ringAt p i, ringAt p (i + 1)⟩] hn
    obtain ⟨a1, a2, a3⟩ := ih _ h1 (fun e hm => by
      rcases Assoc.mem_set _ _ _ _ hm with rfl | hm
      · exact ⟨_, _, ⟨p, hp, i, hi i (by simp), rfl, rfl, rfl⟩, rfl⟩
      · exact he e hm) (fun j hj => hi j (by simp [hj]))
    refine ⟨a1, a2, fun c => ?_⟩
    refine (a3 c).trans ?_
    rw [set_keys]
    simp only [List.mem_cons, exists_eq_or_imp]
    tauto

theorem ringAt_mem {p : List Coord} {i : ℕ} (h : 0 < p.length) : ringAt p i ∈ p := by
  unfold ringAt
  have hlt := Nat.mod_lt i h
  rw [List.getD_eq_getElem?_getD, List.getElem?_eq_getElem hlt]
  exact List.getElem_mem hlt

theorem mem_ringAt {p : List Coord} {c : Coord} (h : c ∈ p) : ∃ i < p.length, c = ringAt p i := by
  obtain ⟨i, hi, rfl⟩ := List.getElem_of_mem h
  refine ⟨i, hi, ?_⟩
  unfold ringAt
  rw [Nat.mod_eq_of_lt hi, List.getD_eq_getElem?_getD, List.getElem?_eq_getElem hi]
  rfl

theorem ofPolygons_facts (ps : List (List Coord)) :
    ((ofPolygons ps).map Prod.fst).Nodup ∧ (∀ e ∈ ofPolygons ps, CornerEntry ps e) ∧
      ∀ c, c ∈ (ofPolygons ps).map Prod.fst ↔ c ∈ ps.flatten := by
  have key : ∀ (qs : List (List Coord)) (m : VisMap), (∀ q ∈ qs, q ∈ ps) →
      (m.map Prod.fst).Nodup → (∀ e ∈ m, CornerEntry ps e) →
      ((qs.foldl addPolygon m).map Prod.fst).Nodup ∧
        (∀ e ∈ qs.foldl addPolygon m, CornerEntry ps e) ∧
        ∀ c, c ∈ (qs.foldl addPolygon m).map Prod.fst ↔ c ∈ m.map Prod.fst ∨ c ∈ qs.flatten := by
    intro qs
    induction qs with
    | nil => intro m _ h1 h2; exact ⟨h1, h2, fun c => by simp⟩
    | cons q r ih =>
      intro m hq h1 h2
      obtain ⟨a1, a2, a3⟩ := addPolygon_facts ps q (hq q (by simp)) m h1 h2 (List.range q.length)
        (fun i hi => List.mem_range.1 hi)
      obtain ⟨b1, b2, b3⟩ := ih (addPolygon m q) (fun x hx => hq x (by simp [hx])) a1 a2
      refine ⟨b1, b2, fun c => (b3 c).trans ?_⟩
      have h3 : c ∈ (addPolygon m q).map Prod.fst ↔ c ∈ m.map Prod.fst ∨ c ∈ q := by
        refine (a3 c).trans (or_congr_right ?_)
        constructor
        · rintro ⟨i, hi, rfl⟩
          exact ringAt_mem (lt_of_le_of_lt (Nat.zero_le i) (List.mem_range.1 hi))
        · intro hc
          obtain ⟨i, hi, rfl⟩ := mem_ringAt hc
          exact ⟨i, List.mem_range.2 hi, rfl⟩
      rw [h3, List.flatten_cons, List.mem_append, or_assoc]
  have h := key ps [] (fun _ h => h) (by simp) (by simp)
  refine ⟨h.1, h.2.1, fun c => (h.2.2 c).trans (by simp)⟩

theorem corner_edges {ps : List (List Coord)} {a v b : Coord} (h : CornerOf ps a v b) :
    EdgeOf ps ⟨a, v⟩ ∧ EdgeOf ps ⟨v, b⟩ := by
  obtain ⟨p, hp, i, hi, rfl, rfl, rfl⟩ := h
  refine ⟨?_, p, hp, i, hi, rfl⟩
  rcases Nat.eq_zero_or_pos i with h0 | h0
  · subst h0
    refine ⟨p, hp, p.length - 1, by omega, ?_⟩
    have h1 : ringAt p (0 + p.length - 1) = ringAt p (p.length - 1) := by rw [Nat.zero_add]
    have h2 : ringAt p (p.length - 1 + 1) = ringAt p 0 := by
      unfold ringAt
      rw [Nat.sub_add_cancel hi, Nat.mod_self, Nat.zero_mod]
    rw [h1, h2]
  · refine ⟨p, hp, i - 1, by omega, ?_⟩
    have h1 : ringAt p (i + p.length - 1) = ringAt p (i - 1) := by
      unfold ringAt
      rw [show i + p.length - 1 = (i - 1) + p.length by omega, Nat.add_mod_right]
    rw [h1, Nat.sub_add_cancel h0]

theorem corner_mem {ps : List (List Coord)} {a v b : Coord} (h : CornerOf ps a v b) :
    a ∈ ps.flatten ∧ v ∈ ps.flatten ∧ b ∈ ps.flatten := by
  obtain ⟨p, hp, i, hi, rfl, rfl, rfl⟩ := h
  have h0 : 0 < p.length := by omega
  exact ⟨List.mem_flatten.2 ⟨p, hp, ringAt_mem h0⟩, List.mem_flatten.2 ⟨p, hp, ringAt_mem h0⟩,
    List.mem_flatten.2 ⟨p, hp, ringAt_mem h0⟩⟩

/-- A map built from polygons, in any iteration order. -/
structure MapOf (ps : List (List Coord)) (m : VisMap) : Prop where
  perm : m.Perm (ofPolygons ps)

theorem MapOf.nodup {ps : List (List Coord)} {m : VisMap} (h : MapOf ps m) :
    (m.map Prod.fst).Nodup :=
  (h.perm.map Prod.fst).nodup_iff.2 (ofPolygons_facts ps).1

theorem MapOf.keys {ps : List (List Coord)} {m : VisMap} (h : MapOf ps m) (c : Coord) :
    c ∈ vertices m ↔ c ∈ ps.flatten := by
  unfold vertices
  rw [(h.perm.map Prod.fst).mem_iff]
  exact (ofPolygons_facts ps).2.2 c

theorem MapOf.get {ps : List (List Coord)} {m : VisMap} (h : MapOf ps m) {v : Coord}
    (hv : v ∈ ps.flatten) :
    ∃ a b, CornerOf ps a v b ∧ Assoc.get m v = some [⟨a, v⟩, ⟨v, b⟩] := by
  have hk : v ∈ m.map Prod.fst := (h.keys v).2 hv
  obtain ⟨⟨w, inc⟩, hm, rfl⟩ := List.mem_map.1 hk
  obtain ⟨a, b, hc, he⟩ := (ofPolygons_facts ps).2.1 _ (h.perm.mem_iff.1 hm)
  refine ⟨a, b, hc, ?_⟩
  rw [Assoc.get_eq_some _ _ _ h.nodup, ← he]
  exact hm

theorem MapOf.get_none {ps : List (List Coord)} {m : VisMap} (h : MapOf ps m) {v : Coord}
    (hv : v ∉ ps.flatten) : Assoc.get m v = none := by
  rw [Assoc.get_eq_none]
  exact fun hk => hv ((h.keys v).1 hk)

theorem MapOf.segs {ps : List (List Coord)} {m : VisMap} (h : MapOf ps m) {s : Seg}
    (hs : s ∈ segments m) : EdgeOf ps s := by
  obtain ⟨e, he, hse⟩ := List.mem_flatMap.1 hs
  obtain ⟨a, b, hc, h2⟩ := (ofPolygons_facts ps).2.1 _ (h.perm.mem_iff.1 he)
  rw [h2] at hse
  rcases List.mem_cons.1 hse with rfl | hse
  · exact (corner_edges hc).1
  · rw [List.mem_singleton] at hse
    subst hse
    exact (corner_edges hc).2

theorem edge_mem {ps : List (List Coord)} {s : Seg} (h : EdgeOf ps s) :
    s.p ∈ ps.flatten ∧ s.q ∈ ps.flatten := by
  obtain ⟨p, hp, i, hi, rfl⟩ := h
  have h0 : 0 < p.length := by omega
  exact ⟨List.mem_flatten.2 ⟨p, hp, ringAt_mem h0⟩, List.mem_flatten.2 ⟨p, hp, ringAt_mem h0⟩⟩

/-! ### The set of open edges -/

/-- All open edges have a property. -/
def AllOpen (P : Seg → Prop) (o : OpenEdges) : Prop := ∀ e ∈ o.byDist, P e.2

theorem emplace_mem {d : ℤ} {s : Seg} {l : List (ℤ × Seg)} {e : ℤ × Seg}
    (h : e ∈ OpenEdges.emplace d s l) : e = (d, s) ∨ e ∈ l := by
  induction l with
  | nil => left; simpa [OpenEdges.emplace] using h
  | cons x r ih =>
    simp only [OpenEdges.emplace] at h
    split_ifs at h
    · rcases List.mem_cons.1 h with h | h
      · exact Or.inl h
      · exact Or.inr h
    · exact Or.inr h
    · rcases List.mem_cons.1 h with h | h
      · exact Or.inr (by simp [h])
      · rcases ih h with h | h
        · exact Or.inl h
        · exact Or.inr (by simp [h])

theorem eraseAt_mem {d : ℤ} {s : Seg} {l : List (ℤ × Seg)} {e : ℤ × Seg}
    (h : e ∈ OpenEdges.eraseAt d s l) : e ∈ l := by
  induction l with
  | nil => simp [OpenEdges.eraseAt] at h
  | cons x r ih =>
    simp only [OpenEdges.eraseAt] at h
    split_ifs at h
    · exact List.mem_cons_of_mem _ h
    · exact h
    · rcases List.mem_cons.1 h with h | h
      · simp [h]
      · exact List.mem_cons_of_mem _ (ih h)

theorem AllOpen.add {P : Seg → Prop} {o : OpenEdges} (h : AllOpen P o) {look : Seg → Seg → Bool}
    {d : ℤ} {s : Seg} (hs : P s) : AllOpen P (o.add look d s) := by
  intro e he
  rcases emplace_mem he with rfl | he
  · exact hs
  · exact h e he

theorem AllOpen.remove {P : Seg → Prop} {o : OpenEdges} (h : AllOpen P o)
    {look : Seg → Seg → Bool} {s : Seg} : AllOpen P (o.remove look s) := by
  unfold OpenEdges.remove
  split
  · exact h
  · exact fun e he => h e (eraseAt_mem he)

theorem AllOpen.empty (P : Seg → Prop) : AllOpen P .empty := by
  intro e he; simp [OpenEdges.empty] at he

theorem AllOpen.foldl_remove {P : Seg → Prop} {o : OpenEdges} (h : AllOpen P o)
    {look : Seg → Seg → Bool} (l : List Seg) :
    AllOpen P (l.foldl (fun o s => o.remove look s) o) := by
  induction l generalizing o with
  | nil => exact h
  | cons s r ih => exact ih h.remove

theorem AllOpen.foldl_add {P : Seg → Prop} {o : OpenEdges} (h : AllOpen P o)
    {look : Seg → Seg → Bool} (f : Seg → ℤ) (l : List Seg) (hl : ∀ s ∈ l, P s) :
    AllOpen P (l.foldl (fun o s => o.add look (f s) s) o) := by
  induction l generalizing o with
  | nil => exact h
  | cons s r ih => exact ih (h.add (hl s (by simp))) fun x hx => hl x (by simp [hx])

/-- An edge that may be opened: an obstacle edge not incident to the observer. -/
def Wall (ps : List (List Coord)) (obs : Coord) (s : Seg) : Prop :=
  EdgeOf ps s ∧ obs ≠ s.p ∧ obs ≠ s.q

theorem initial_walls {ps : List (List Coord)} {look : Seg → Seg → Bool} {obs : Coord}
    {segs : List Seg} (hs : ∀ s ∈ segs, EdgeOf ps s) :
    AllOpen (Wall ps obs) (initialOpen look obs segs) := by
  unfold initialOpen
  have key : ∀ (l : List Seg) (o : OpenEdges), (∀ s ∈ l, EdgeOf ps s) →
      AllOpen (Wall ps obs) o → AllOpen (Wall ps obs) (l.foldl (openInitial look obs) o) := by
    intro l
    induction l with
    | nil => intro o _ h; exact h
    | cons s r ih =>
      intro o hl h
      refine ih _ (fun x hx => hl x (by simp [hx])) ?_
      unfold openInitial
      by_cases h1 : obs = s.p ∨ obs = s.q
      · rw [if_pos h1]; exact h
      · rw [if_neg h1]
        push Not at h1
        split
        · split
          · exact h.add ⟨hl s (by simp), h1.1, h1.2⟩
          · exact h
        · exact h
  exact key segs _ hs (AllOpen.empty _)

theorem orientPt_self (obs v : Coord) : (Seg.mk obs v).orientPt obs = .collinear := by
  simp [Seg.orientPt, Seg.signedArea, Seg.orientOfArea]

theorem orientPt_end (obs v : Coord) : (Seg.mk obs v).orientPt v = .collinear := by
  have : (Seg.mk obs v).signedArea v = 0 := by simp only [Seg.signedArea]; ring
  simp [Seg.orientPt, this, Seg.orientOfArea]

theorem MapOf.incident {ps : List (List Coord)} {m : VisMap} (h : MapOf ps m) {v : Coord}
    {s : Seg} (hs : s ∈ incident m v) : EdgeOf ps s ∧ (s.q = v ∨ s.p = v) := by
  unfold Vistree.incident at hs
  by_cases hv : v ∈ ps.flatten
  · obtain ⟨a, b, hc, hg⟩ := h.get hv
    rw [hg] at hs
    simp only [Option.getD_some, List.mem_cons, List.not_mem_nil, or_false] at hs
    rcases hs with rfl | rfl
    · exact ⟨(corner_edges hc).1, Or.inl rfl⟩
    · exact ⟨(corner_edges hc).2, Or.inr rfl⟩
  · rw [h.get_none hv] at hs
    simp at hs

/-- Segments turning left or right at `v ≠ obs` are not incident to the observer. -/
theorem MapOf.oriented {ps : List (List Coord)} {m : VisMap} (h : MapOf ps m) {obs v : Coord}
    (hv : v ≠ obs) {o : Orientation} (ho : o ≠ .collinear) {s : Seg}
    (hs : s ∈ orientSegs (Vistree.incident m v) obs v o) : Wall ps obs s := by
  obtain ⟨h1, h2⟩ := List.mem_filter.1 hs
  obtain ⟨he, hend⟩ := h.incident h1
  rw [beq_iff_eq] at h2
  refine ⟨he, ?_, ?_⟩
  · intro e
    by_cases hp : v = s.p
    · exact hv (hp.trans e.symm)
    · rw [other, if_neg hp, ← e, orientPt_self] at h2
      exact ho h2.symm
  · intro e
    by_cases hp : v = s.p
    · rw [other, if_pos hp, ← e, orientPt_self] at h2
      exact ho h2.symm
    · rcases hend with hq | hq
      · exact hv (hq.symm.trans e.symm)
      · exact hp hq.symm

theorem closeAt_walls {ps : List (List Coord)} {m : VisMap} {look : Seg → Seg → Bool}
    {obs v : Coord} {o : OpenEdges} (h : AllOpen (Wall ps obs) o) :
    AllOpen (Wall ps obs) (closeAt look m obs v o) := h.foldl_remove _

theorem openAt_walls {ps : List (List Coord)} {m : VisMap} (hm : MapOf ps m)
    {look : Seg → Seg → Bool} {obs v : Coord} (hv : v ≠ obs) {o : OpenEdges}
    (h : AllOpen (Wall ps obs) o) : AllOpen (Wall ps obs) (openAt look m obs v o) :=
  h.foldl_add _ _ fun _ hs => hm.oriented hv (by simp) hs

/-! ### The loop -/

theorem loop_sublist (look : Seg → Seg → Bool) (m : VisMap) (obs : Coord) (half : Bool)
    (l : List Coord) (o : OpenEdges) :
    (loop look m obs half l o).Sublist l ∧ obs ∉ loop look m obs half l o := by
  induction l generalizing o with
  | nil => simp [loop]
  | cons v r ih =>
    simp only [loop]
    split_ifs with h1 h2 h3
    · exact ⟨(ih o).1.cons _, (ih o).2⟩
    · simp
    · refine ⟨(ih _).1.cons_cons _, ?_⟩
      rw [List.mem_cons, not_or]
      exact ⟨h1, (ih _).2⟩
    · exact ⟨(ih _).1.cons _, (ih _).2⟩

/-- A vertex that is visible whatever walls are open is found by the full scan. -/
theorem loop_complete {ps : List (List Coord)} {m : VisMap} (hm : MapOf ps m)
    {look : Seg → Seg → Bool} {obs : Coord} {v : Coord} (hv : v ≠ obs)
    (hvis : ∀ o, AllOpen (Wall ps obs) o → isVisible m o obs v = true) (l : List Coord)
    (hl : v ∈ l) (o : OpenEdges) (ho : AllOpen (Wall ps obs) o) :
    v ∈ loop look m obs false l o := by
  induction l generalizing o with
  | nil => simp at hl
  | cons w r ih =>
    simp only [loop, Bool.false_and, Bool.false_eq_true, if_false]
    by_cases hw : obs = w
    · rw [if_pos hw]
      rcases List.mem_cons.1 hl with h | h
      · exact absurd (h.trans hw.symm) hv
      · exact ih h o ho
    · rw [if_neg hw]
      have hw' : w ≠ obs := fun e => hw e.symm
      have h1 := closeAt_walls (m := m) (look := look) (v := w) ho
      have h2 := openAt_walls hm (look := look) hw' h1
      rcases List.mem_cons.1 hl with h | h
      · subst h
        rw [if_pos (hvis _ h1)]; simp
      · split_ifs
        · exact List.mem_cons_of_mem _ (ih h _ h2)
        · exact ih h _ h2

/-- The half scan stops where the full scan goes below the observer. -/
theorem loop_half (look : Seg → Seg → Bool) (m : VisMap) (obs : Coord) (l : List Coord)
    (hl : l.Pairwise fun a b => a ≠ obs → b ≠ obs → below obs a = true → below obs b = true)
    (o : OpenEdges) :
    loop look m obs true l o = (loop look m obs false l o).filter fun v => !below obs v := by
  induction l generalizing o with
  | nil => rfl
  | cons v r ih =>
    rw [List.pairwise_cons] at hl
    simp only [loop, Bool.true_and, Bool.false_and, Bool.false_eq_true, if_false]
    by_cases hv : obs = v
    · rw [if_pos hv, if_pos hv]; exact ih hl.2 o
    · rw [if_neg hv, if_neg hv]
      by_cases hb : below obs v = true
      · rw [if_pos hb]
        symm
        rw [List.filter_eq_nil_iff]
        intro w hw
        have hall : ∀ w ∈ (if isVisible m (closeAt look m obs v o) obs v then
            v :: loop look m obs false r (openAt look m obs v (closeAt look m obs v o))
            else loop look m obs false r (openAt look m obs v (closeAt look m obs v o))),
            w = v ∨ (w ∈ r ∧ w ≠ obs) := by
          intro w hw
          have hsub := loop_sublist look m obs false r
            (openAt look m obs v (closeAt look m obs v o))
          split_ifs at hw
          · rcases List.mem_cons.1 hw with h | h
            · exact Or.inl h
            · exact Or.inr ⟨hsub.1.subset h, fun e => hsub.2 (e ▸ h)⟩
          · exact Or.inr ⟨hsub.1.subset hw, fun e => hsub.2 (e ▸ hw)⟩
        rcases hall w hw with rfl | ⟨h1, h2⟩
        · simp [hb]
        · simp [hl.1 w h1 (fun e => hv e.symm) h2 hb]
      · rw [if_neg hb]
        split_ifs
        · rw [List.filter_cons_of_pos (by simpa using hb), ih hl.2]
        · exact ih hl.2 _

theorem below_iff {obs v : Coord} (ho : obs.lon < maxPeriodicLon) :
    below obs v = true ↔ v.lat < obs.lat := by
  unfold below initialScanline Seg.tangent
  rw [decide_eq_true_eq]
  have e : (Coord.sub ⟨maxPeriodicLon, obs.lat⟩ obs).cross (v.sub obs) =
      (maxPeriodicLon - obs.lon) * (v.lat - obs.lat) := by
    simp only [Coord.cross, Coord.sub, Coord.add, Coord.neg]; ring
  rw [e]
  have hp : 0 < maxPeriodicLon - obs.lon := by omega
  constructor
  · intro h
    by_contra hc
    have := mul_nonneg hp.le (show 0 ≤ v.lat - obs.lat by omega)
    omega
  · intro h
    exact mul_neg_of_pos_of_neg hp (by omega)

/-- In sweep order nothing above follows anything below. -/
theorem sweep_below {obs a b : Coord} (ho : obs.lon < maxPeriodicLon) (h : SweepBefore obs a b)
    (ha : a ≠ obs) (hb : b ≠ obs) (hab : below obs a = true) : below obs b = true := by
  rw [below_iff ho] at hab ⊢
  by_contra hc
  have ha0 : offset obs a ≠ ⟨0, 0⟩ := by
    intro e
    apply ha
    unfold offset at e
    rw [Coord.mk.injEq] at e
    apply Coord.ext' <;> omega
  have hb0 : offset obs b ≠ ⟨0, 0⟩ := by
    intro e
    apply hb
    unfold offset at e
    rw [Coord.mk.injEq] at e
    apply Coord.ext' <;> omega
  have hle : ccwAngle (offset obs a) ≤ ccwAngle (offset obs b) := by
    rcases h with ⟨h, _⟩ | ⟨_, _, h | h⟩
    · exact absurd h ha
    · exact h.le
    · exact h.1.le
  have hlt : AngleSorter.angleLt (offset obs b) (offset obs a) = true := by
    have la : AngleSorter.lowerHalf (offset obs a) = true := by
      unfold AngleSorter.lowerHalf offset
      simp only [Bool.or_eq_true, decide_eq_true_eq]
      left; omega
    unfold AngleSorter.angleLt
    rw [la]
    by_cases lb : AngleSorter.lowerHalf (offset obs b) = true
    · rw [if_pos lb, decide_eq_true_eq]
      unfold AngleSorter.lowerHalf offset at lb
      simp only [Bool.or_eq_true, decide_eq_true_eq, Bool.and_eq_true] at lb
      have hlat : b.lat - obs.lat = 0 ∧ b.lon - obs.lon < 0 := by
        rcases lb with h | h
        · omega
        · exact h
      unfold Coord.cross offset
      simp only
      rw [hlat.1, mul_zero, sub_zero]
      exact mul_pos_of_neg_of_neg hlat.2 (by omega)
    · rw [if_neg lb]
      simpa using lb
  rw [angleLt_iff hb0 ha0] at hlt
  linarith

theorem sorted_below {obs : Coord} {vs : List Coord} (ho : obs.Per)
    (hlon : obs.lon < maxPeriodicLon) (hp : ∀ v ∈ vs, v.Per) (hn : vs.Nodup) :
    (AngleSorter.sort obs vs).Pairwise fun a b =>
      a ≠ obs → b ≠ obs → below obs a = true → below obs b = true :=
  (sort_sorted ho hp hn).imp fun h ha hb => sweep_below hlon h ha hb

/-! ### Sight lines -/

theorem unblocked_of_clear {obs v : Coord} (ho : obs.Per) (hv : v.Per) {e : Seg}
    (hp : e.p.Per) (hq : e.q.Per) (h1 : obs ≠ e.p) (h2 : obs ≠ e.q) (hc : Clear obs v e) :
    e.intersect ⟨obs, v⟩ = none ∨ e.intersect ⟨obs, v⟩ = some v := by
  cases hi : e.intersect ⟨obs, v⟩ with
  | none => exact Or.inl rfl
  | some x =>
    right
    by_cases hD : e.detD ⟨obs, v⟩ = 0
    · unfold Seg.intersect at hi
      rw [if_pos hD] at hi
      unfold Seg.sharedEndpoint at hi
      split_ifs at hi with ha hb
      · rw [← hi]
        rcases ha with ha | ha
        · exact absurd ha.symm h1
        · rw [ha]
      · rw [← hi]
        rcases hb with hb | hb
        · exact absurd hb.symm h2
        · rw [hb]
    · have hnp := (nonParallel_iff e ⟨obs, v⟩).2 hD
      obtain ⟨x', y', hs, ht⟩ := (intersect_isSome_iff hD).1 (by rw [hi]; rfl)
      obtain ⟨ex, ey⟩ := hc x' y' hs ht
      subst ex ey
      have := C07_exact_at_lattice e ⟨obs, v⟩ hp hq ho hv hnp v hs ht
      rw [Seg.intersectC_ok hp hq ho hv, hi, Except.ok.injEq] at this
      exact this

/-! ### Absence of faults -/

theorem scanline_per {obs : Coord} (ho : obs.Per) : (⟨maxPeriodicLon, obs.lat⟩ : Coord).Per := by
  unfold Coord.Per at *
  simp only [maxPeriodicLon, maxLon, period]
  omega

theorem intersect_per {s t : Seg} (hp : s.p.Per) (hq : s.q.Per) {x : Coord}
    (h : s.intersect t = some x) : x.Per := by
  have := Seg.intersect_box hp hq h
  unfold Coord.Per at *
  omega

theorem lessC_eq {obs a b : Coord} (ho : obs.Per) (ha : a.Per) (hb : b.Per) :
    lessC obs a b = .ok (AngleSorter.less obs a b) := by
  unfold lessC AngleSorter.less AngleSorter.lessWith
  by_cases h1 : a = obs
  · rw [if_pos h1, if_pos h1]
  · rw [if_neg h1, if_neg h1]
    by_cases h2 : b = obs
    · rw [if_pos h2, if_pos h2]
    · rw [if_neg h2, if_neg h2, Coord.subC_ok ha ho, Coord.subC_ok hb ho]
      simp only [Res.bind_ok]
      rw [Coord.orientC_ok (Coord.Per.vec_sub ha ho) (Coord.Per.vec_sub hb ho),
        Coord.dotC_ok (Coord.Per.vec_sub ha ho) (Coord.Per.vec_sub hb ho)]
      simp only [Res.bind_ok]
      split_ifs <;> rfl

theorem lessC_ok {obs a b : Coord} (ho : obs.Per) (ha : a.Per) (hb : b.Per) :
    ∃ r, lessC obs a b = .ok r := ⟨_, lessC_eq ho ha hb⟩

theorem sortC_ok {obs : Coord} {vs : List Coord} (ho : obs.Per) (hp : ∀ v ∈ vs, v.Per)
    (hn : vs.Nodup) : sortC obs vs = .ok (AngleSorter.sort obs vs) := by
  unfold sortC
  rw [if_pos (fun a ha b hb => lessC_ok ho (hp a ha) (hp b hb)), if_pos]
  refine List.Pairwise.imp_of_mem (R := (· ≠ ·)) ?_ hn
  intro a b ha hb hab ⟨h1, h2⟩
  rw [less_iff ho (hp a ha) (hp b hb) hab] at h1
  rw [less_iff ho (hp b hb) (hp a ha) (Ne.symm hab)] at h2
  exact sweep_irrefl obs a (sweep_trans h1 h2)

theorem openInitialC_ok {look : Seg → Seg → Bool} {obs : Coord} {o : OpenEdges} {s : Seg}
    (ho : obs.Per) (hp : s.p.Per) (hq : s.q.Per) :
    openInitialC look obs o s = .ok (openInitial look obs o s) := by
  have hs := scanline_per ho
  unfold openInitialC openInitial
  by_cases h1 : obs = s.p ∨ obs = s.q
  · rw [if_pos h1, if_pos h1]
  · rw [if_neg h1, if_neg h1, Seg.intersectC_ok (t := initialScanline obs) hp hq ho hs]
    cases hi : s.intersect (initialScanline obs) with
    | none => rfl
    | some x =>
      simp only [Res.bind_ok]
      rw [Seg.onSegmentC_ok (s := initialScanline obs) ho hs hp,
        Seg.onSegmentC_ok (s := initialScanline obs) ho hs hq]
      simp only [Res.bind_ok]
      have hx := intersect_per hp hq hi
      split
      · rw [Coord.subC_ok hx ho]
        simp only [Res.bind_ok]
        rw [Coord.magSqC_ok (Coord.Per.vec_sub hx ho)]
        rfl
      · rfl

theorem initialOpenC_ok {look : Seg → Seg → Bool} {obs : Coord} (ho : obs.Per) (segs : List Seg)
    (hs : ∀ s ∈ segs, s.p.Per ∧ s.q.Per) (o : OpenEdges) :
    segs.foldlM (openInitialC look obs) o = .ok (segs.foldl (openInitial look obs) o) := by
  induction segs generalizing o with
  | nil => rfl
  | cons s r ih =>
    rw [List.foldlM_cons, openInitialC_ok ho (hs s (by simp)).1 (hs s (by simp)).2]
    exact ih (fun x hx => hs x (by simp [hx])) _

theorem orientSegsC_ok {obs v : Coord} {o : Orientation} (ho : obs.Per) (hv : v.Per)
    (inc : List Seg) (hs : ∀ s ∈ inc, s.p.Per ∧ s.q.Per ∧ (s.q = v ∨ s.p = v)) :
    orientSegsC inc obs v o = .ok (orientSegs inc obs v o) := by
  induction inc with
  | nil => rfl
  | cons s r ih =>
    obtain ⟨hp, hq, he⟩ := hs s (by simp)
    have ha : s.adjacentTo v = .ok (other s v) := by
      unfold Seg.adjacentTo other
      by_cases h1 : v = s.p
      · rw [if_pos h1, if_pos h1]
      · rw [if_neg h1, if_neg h1]
        rcases he with h | h
        · rw [if_pos h.symm]
        · exact absurd h.symm h1
    have hper : (other s v).Per := by unfold other; split_ifs <;> assumption
    unfold orientSegsC
    rw [ha]
    simp only [Res.bind_ok]
    rw [Seg.orientPtC_ok (s := ⟨obs, v⟩) ho hv hper, ih fun x hx => hs x (by simp [hx])]
    simp only [Res.bind_ok, Res.pure_eq]
    unfold orientSegs
    rw [List.filter_cons]

theorem scalarMultiple_isSome {a b : Coord} (h : a.parallel b = true) : a.scalarMultiple b ≠ none := by
  unfold Coord.scalarMultiple
  rw [h]
  simp only [Bool.not_true, Bool.false_eq_true, if_false]
  split_ifs <;> simp

theorem cornerC_ok {v1 v2 v3 c : Coord} (h1 : v1.Per) (h2 : v2.Per) (h3 : v3.Per) (hc : c.Per) :
    cornerC v1 v2 v3 c = .ok (Polyline.visible v1 v2 v3 c) := by
  have key : ∀ a b : Coord, ¬ (a.orient b = .collinear ∧ a.scalarMultiple b = none) := by
    rintro a b ⟨h, h'⟩
    refine scalarMultiple_isSome ?_ h'
    unfold Coord.parallel
    rw [h]; rfl
  unfold cornerC
  rw [Coord.subC_ok h1 h2, Coord.subC_ok h3 h2, Coord.subC_ok hc h2, Coord.subC_ok h2 h1]
  simp only [Res.bind_ok]
  rw [Coord.orientC_ok (Coord.Per.vec_sub h1 h2) (Coord.Per.vec_sub hc h2),
    Coord.orientC_ok (Coord.Per.vec_sub h3 h2) (Coord.Per.vec_sub hc h2)]
  simp only [Res.bind_ok]
  rw [if_neg (key _ _)]
  simp only [Res.pure_eq]
  rw [if_neg (key _ _)]

theorem MapOf.barrier_ok {ps : List (List Coord)} {m : VisMap} (h : MapOf ps m)
    (hp : ∀ v ∈ ps.flatten, v.Per) {obs v : Coord} (hv : v.Per) :
    barrierC m obs v = .ok (barrier m obs v) := by
  unfold barrierC barrier
  by_cases ho : obs ∈ ps.flatten
  · obtain ⟨a, b, hc, hg⟩ := h.get ho
    obtain ⟨m1, m2, m3⟩ := corner_mem hc
    rw [hg]
    exact cornerC_ok (hp a m1) (hp obs m2) (hp b m3) hv
  · rw [h.get_none ho]

theorem isVisibleC_ok {ps : List (List Coord)} {m : VisMap} (h : MapOf ps m)
    (hp : ∀ v ∈ ps.flatten, v.Per) {obs v : Coord} (ho : obs.Per) (hv : v.Per) {o : OpenEdges}
    (hw : AllOpen (Wall ps obs) o) : isVisibleC m o obs v = .ok (isVisible m o obs v) := by
  unfold isVisibleC isVisible
  by_cases h1 : v = obs
  · rw [if_pos h1]; simp [h1]
  · rw [if_neg h1, h.barrier_ok hp hv]
    simp only [Res.pure_eq, Res.bind_ok]
    cases hb : barrier m obs v with
    | false => simp
    | true =>
      simp only [Bool.not_true, Bool.false_eq_true, if_false, Bool.and_true]
      have h1' : (v != obs) = true := by rw [bne_iff_ne]; exact h1
      rw [h1', Bool.true_and]
      unfold unblocked
      cases hcl : o.closest with
      | none => rfl
      | some e =>
        have he : Wall ps obs e := by
          unfold OpenEdges.closest at hcl
          cases hb : o.byDist with
          | nil => rw [hb] at hcl; simp at hcl
          | cons x r =>
            rw [hb] at hcl
            simp only [List.head?_cons, Option.map_some, Option.some.injEq] at hcl
            rw [← hcl]
            exact hw x (by rw [hb]; simp)
        have hm := edge_mem he.1
        simp only
        rw [Seg.intersectC_ok (t := ⟨obs, v⟩) (hp _ hm.1) (hp _ hm.2) ho hv]
        simp only [Res.bind_ok]
        cases e.intersect ⟨obs, v⟩ <;> rfl

theorem OnSeg_left (s : Seg) : OnSeg s s.p.lon s.p.lat := ⟨0, le_refl _, by norm_num, by ring, by ring⟩

theorem OnSeg_right (s : Seg) : OnSeg s s.q.lon s.q.lat := ⟨1, by norm_num, le_refl _, by ring, by ring⟩

/-- A segment ending at `v` beside the sight line meets it in `v`. -/
theorem intersect_beside {obs v : Coord} {s : Seg} {o : Orientation} (ho : o ≠ .collinear)
    (he : s.q = v ∨ s.p = v) (h : (Seg.mk obs v).orientPt (other s v) = o) :
    (s.detD ⟨obs, v⟩ ≠ 0) ∧ (s.intersect ⟨obs, v⟩).isSome := by
  have ha : (Seg.mk obs v).signedArea (other s v) ≠ 0 := by
    intro h0
    apply ho
    rw [← h]
    simp [Seg.orientPt, h0, Seg.orientOfArea]
  have hD : s.detD ⟨obs, v⟩ ≠ 0 := by
    intro h0
    apply ha
    unfold other
    unfold Seg.detD at h0
    unfold Seg.signedArea
    simp only [Coord.sub, Coord.add, Coord.neg] at *
    by_cases h1 : v = s.p
    · rw [if_pos h1]
      subst h1
      linarith
    · rw [if_neg h1]
      rcases he with h2 | h2
      · subst h2
        linarith
      · exact absurd h2.symm h1
  refine ⟨hD, ?_⟩
  rw [intersect_isSome_iff hD]
  refine ⟨v.lon, v.lat, ?_, OnSeg_right ⟨obs, v⟩⟩
  rcases he with rfl | rfl
  · exact OnSeg_right s
  · exact OnSeg_left s

theorem openAtC_ok {look : Seg → Seg → Bool} {obs v : Coord} (ho : obs.Per) (hv : v.Per)
    (l : List Seg) (hl : ∀ s ∈ l, s.p.Per ∧ s.q.Per ∧ (s.intersect ⟨obs, v⟩).isSome)
    (o : OpenEdges) :
    openAtC look obs v l o = .ok (l.foldl (fun o s => o.add look (openDist obs v s) s) o) := by
  induction l generalizing o with
  | nil => rfl
  | cons s r ih =>
    obtain ⟨hp, hq, hi⟩ := hl s (by simp)
    obtain ⟨x, hx⟩ := Option.isSome_iff_exists.1 hi
    unfold openAtC
    rw [Seg.intersectC_ok (t := ⟨obs, v⟩) hp hq ho hv, hx]
    simp only [Res.bind_ok]
    have hxp := intersect_per hp hq hx
    rw [Coord.subC_ok hxp ho]
    simp only [Res.bind_ok]
    rw [Coord.magSqC_ok (Coord.Per.vec_sub hxp ho)]
    simp only [Res.bind_ok]
    rw [ih fun t ht => hl t (by simp [ht])]
    rw [List.foldl_cons]
    have : openDist obs v s = (x.sub obs).magSq := by unfold openDist; rw [hx]
    rw [this]

theorem scanline_tangentC {obs : Coord} (ho : obs.Per) :
    (initialScanline obs).tangentC = .ok (initialScanline obs).tangent :=
  Coord.subC_ok (scanline_per ho) ho

theorem beyondC_ok {obs v : Coord} (ho : obs.Per) (hv : v.Per) (half : Bool) :
    beyondC obs half v = .ok (half && below obs v) := by
  unfold beyondC
  cases half with
  | false => rfl
  | true =>
    have e2 : (Seg.mk obs v).tangentC = .ok (v.sub obs) := Coord.subC_ok hv ho
    have e3 : (initialScanline obs).tangent.Vec := Coord.Per.vec_sub (scanline_per ho) ho
    rw [if_pos rfl, scanline_tangentC ho, e2]
    simp only [Res.bind_ok]
    rw [Coord.crossC_ok e3 (Coord.Per.vec_sub hv ho)]
    rfl

theorem seenC_ok {v : Coord} (hv : v.Per) (b : Bool) :
    seenC b v = .ok (if b then [report v] else []) := by
  unfold seenC
  cases b with
  | false => rfl
  | true =>
    rw [if_pos rfl, normalizeC_eq v hv.wf.1]
    rfl

theorem loopC_ok {ps : List (List Coord)} {m : VisMap} (h : MapOf ps m)
    (hp : ∀ v ∈ ps.flatten, v.Per) {look : Seg → Seg → Bool} {obs : Coord} (ho : obs.Per)
    (half : Bool) (l : List Coord) (hl : ∀ v ∈ l, v ∈ ps.flatten) (o : OpenEdges)
    (hw : AllOpen (Wall ps obs) o) :
    loopC look m obs half l o = .ok ((loop look m obs half l o).map report) := by
  induction l generalizing o with
  | nil => rfl
  | cons v r ih =>
    have hr := fun x hx => hl x (List.mem_cons_of_mem v hx)
    unfold loopC loop
    by_cases h1 : obs = v
    · rw [if_pos h1, if_pos h1]; exact ih hr o hw
    · rw [if_neg h1, if_neg h1]
      have hvm := hl v (by simp)
      have hv := hp v hvm
      rw [beyondC_ok ho hv half]
      simp only [Res.bind_ok]
      by_cases h2 : (half && below obs v) = true
      · rw [if_pos h2, if_pos h2]; rfl
      · rw [if_neg h2, if_neg h2]
        obtain ⟨a, b, hc, hg⟩ := h.get hvm
        have hinc : incident m v = [⟨a, v⟩, ⟨v, b⟩] := by unfold incident; rw [hg]; rfl
        have hends : ∀ s ∈ ([⟨a, v⟩, ⟨v, b⟩] : List Seg), s.p.Per ∧ s.q.Per ∧ (s.q = v ∨ s.p = v) := by
          intro s hs
          rw [← hinc] at hs
          obtain ⟨he, hend⟩ := h.incident hs
          have := edge_mem he
          exact ⟨hp _ this.1, hp _ this.2, hend⟩
        rw [hg]
        simp only [Res.pure_eq]
        rw [orientSegsC_ok ho hv _ hends, orientSegsC_ok ho hv _ hends]
        simp only [Res.bind_ok]
        have hw1 := closeAt_walls (m := m) (look := look) (v := v) hw
        have hw2 := openAt_walls h (look := look) (Ne.symm h1) hw1
        have hcl : (orientSegs [⟨a, v⟩, ⟨v, b⟩] obs v .clockwise).foldl
            (fun o s => o.remove look s) o = closeAt look m obs v o := by
          unfold closeAt; rw [hinc]
        rw [hcl, isVisibleC_ok h hp ho hv hw1]
        simp only [Res.bind_ok]
        rw [seenC_ok hv]
        simp only [Res.bind_ok]
        rw [openAtC_ok ho hv _ (fun s hs => by
          obtain ⟨hs1, hs2⟩ := List.mem_filter.1 hs
          obtain ⟨q1, q2, q3⟩ := hends s hs1
          rw [beq_iff_eq] at hs2
          exact ⟨q1, q2, (intersect_beside (by simp) q3 hs2).2⟩)]
        simp only [Res.bind_ok]
        have hop : (orientSegs [⟨a, v⟩, ⟨v, b⟩] obs v .counterClockwise).foldl
            (fun o s => o.add look (openDist obs v s) s) (closeAt look m obs v o) =
              openAt look m obs v (closeAt look m obs v o) := by
          unfold openAt; rw [hinc]
        rw [hop, ih hr _ hw2]
        simp only [Res.bind_ok]
        split_ifs <;> rfl

end Vistree

end Capi
