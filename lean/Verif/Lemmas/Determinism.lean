import Verif.Lemmas.Sweep

/-!
# Scans that differ in the order of their containers
-/

namespace Capi

open Vistree

/-- The two maps of open edges hold the same entries. -/
structure SameOpen (E : Seg → Prop) (o o' : OpenEdges) : Prop where
  dist : o.byDist = o'.byDist
  mem : ∀ x, x ∈ o.distOf ↔ x ∈ o'.distOf
  nodup : (o.distOf.map Prod.fst).Nodup
  nodup' : (o'.distOf.map Prod.fst).Nodup
  known : ∀ x ∈ o.distOf, E x.1

theorem SameOpen.known' {E : Seg → Prop} {o o' : OpenEdges} (h : SameOpen E o o') :
    ∀ x ∈ o'.distOf, E x.1 := fun x hx => h.known x ((h.mem x).2 hx)

theorem SameOpen.add {look look' : Seg → Seg → Bool} {E : Seg → Prop} (hl : LookEq look E)
    (hl' : LookEq look' E) {o o' : OpenEdges} (h : SameOpen E o o') {s : Seg} (hs : E s) (d : ℤ) :
    SameOpen E (o.add look d s) (o'.add look' d s) := by
  have hm := fun x => assign_mem hl hs (d := d) h.known h.nodup x
  have hm' := fun x => assign_mem hl' hs (d := d) h.known' h.nodup' x
  refine ⟨?_, fun x => ?_, assign_nodup hl hs h.known h.nodup,
    assign_nodup hl' hs h.known' h.nodup', fun x hx => ?_⟩
  · simp only [OpenEdges.add, h.dist]
  · simp only [OpenEdges.add]
    rw [hm, hm', h.mem]
  · rcases (hm x).1 hx with rfl | ⟨hx, -⟩
    · exact hs
    · exact h.known x hx

/-- Forgetting a segment. -/
theorem forget_mem {look : Seg → Seg → Bool} {E : Seg → Prop} (hl : LookEq look E)
    {l : List (Seg × ℤ)} (hn : (l.map Prod.fst).Nodup) (hE : ∀ x ∈ l, E x.1) {s : Seg} (hs : E s)
    (x : Seg × ℤ) : x ∈ l.eraseP (fun e => look s e.1) ↔ x ∈ l ∧ x.1 ≠ s := by
  induction l with
  | nil => simp
  | cons y r ih =>
    rw [List.map_cons, List.nodup_cons] at hn
    have ih := ih hn.2 fun z hz => hE z (by simp [hz])
    by_cases hy : s = y.1
    · rw [List.eraseP_cons_of_pos (p := fun e : Seg × ℤ => look s e.1)
        ((hl s y.1 hs (hE y (by simp))).2 hy), List.mem_cons]
      constructor
      · intro hx
        refine ⟨Or.inr hx, fun e => hn.1 ?_⟩
        rw [← hy, ← e]
        exact List.mem_map_of_mem hx
      · rintro ⟨rfl | hx, hne⟩
        · exact absurd hy.symm hne
        · exact hx
    · rw [List.eraseP_cons_of_neg (p := fun e : Seg × ℤ => look s e.1)
        fun h => hy ((hl s y.1 hs (hE y (by simp))).1 h), List.mem_cons, List.mem_cons, ih]
      constructor
      · rintro (rfl | ⟨hx, hne⟩)
        · exact ⟨Or.inl rfl, fun e => hy e.symm⟩
        · exact ⟨Or.inr hx, hne⟩
      · rintro ⟨rfl | hx, hne⟩
        · exact Or.inl rfl
        · exact Or.inr ⟨hx, hne⟩

/-- Looking up a segment. -/
theorem lookup_eq {look : Seg → Seg → Bool} {E : Seg → Prop} (hl : LookEq look E)
    {l : List (Seg × ℤ)} (hE : ∀ x ∈ l, E x.1) {s : Seg} (hs : E s) :
    (l.find? (fun e => look s e.1) = none ↔ ∀ k, (s, k) ∉ l) ∧
      ∀ e, l.find? (fun e => look s e.1) = some e → e ∈ l ∧ e.1 = s := by
  constructor
  · rw [List.find?_eq_none]
    constructor
    · intro h k hk
      exact h (s, k) hk ((hl s s hs hs).2 rfl)
    · intro h x hx hlook
      have := (hl s x.1 hs (hE x hx)).1 hlook
      exact h x.2 (by rw [this]; exact hx)
  · intro e he
    have h1 := List.mem_of_find?_eq_some he
    have h2 := List.find?_some he
    exact ⟨h1, ((hl s e.1 hs (hE e h1)).1 h2).symm⟩

theorem SameOpen.remove {look look' : Seg → Seg → Bool} {E : Seg → Prop} (hl : LookEq look E)
    (hl' : LookEq look' E) {o o' : OpenEdges} (h : SameOpen E o o') {s : Seg} (hs : E s) :
    SameOpen E (o.remove look s) (o'.remove look' s) := by
  obtain ⟨n1, s1⟩ := lookup_eq hl h.known hs
  obtain ⟨n2, s2⟩ := lookup_eq hl' h.known' hs
  unfold OpenEdges.remove
  cases hf : o.distOf.find? fun e => look s e.1 with
  | none =>
    have h0 := n1.1 hf
    rw [n2.2 fun k hk => h0 k ((h.mem _).2 hk)]
    exact h
  | some e =>
    obtain ⟨m1, e1⟩ := s1 e hf
    cases hf' : o'.distOf.find? fun e => look' s e.1 with
    | none =>
      exact absurd ((h.mem _).1 m1) (by
        have := n2.1 hf' e.2
        rw [← e1] at this
        exact this)
    | some e' =>
      obtain ⟨m2, e2⟩ := s2 e' hf'
      have heq : e = e' :=
        List.inj_on_of_nodup_map h.nodup m1 ((h.mem _).2 m2) (by rw [e1, e2])
      subst heq
      have hm := fun x => forget_mem hl h.nodup h.known hs x
      have hm' := fun x => forget_mem hl' h.nodup' h.known' hs x
      refine ⟨by simp only [h.dist], fun x => ?_, h.nodup.sublist (List.eraseP_sublist.map _),
        h.nodup'.sublist (List.eraseP_sublist.map _), fun x hx => h.known x ((hm x).1 hx).1⟩
      simp only
      rw [hm, hm', h.mem]

theorem SameOpen.removes {look look' : Seg → Seg → Bool} {E : Seg → Prop} (hl : LookEq look E)
    (hl' : LookEq look' E) (cs : List Seg) (hcs : ∀ s ∈ cs, E s) {o o' : OpenEdges}
    (h : SameOpen E o o') :
    SameOpen E (cs.foldl (fun o s => o.remove look s) o)
      (cs.foldl (fun o s => o.remove look' s) o') := by
  induction cs generalizing o o' with
  | nil => exact h
  | cons s r ih =>
    exact ih (fun t ht => hcs t (by simp [ht])) (h.remove hl hl' (hcs s (by simp)))

theorem SameOpen.adds {look look' : Seg → Seg → Bool} {E : Seg → Prop} (hl : LookEq look E)
    (hl' : LookEq look' E) (f : Seg → ℤ) (cs : List Seg) (hcs : ∀ s ∈ cs, E s) {o o' : OpenEdges}
    (h : SameOpen E o o') :
    SameOpen E (cs.foldl (fun o s => o.add look (f s) s) o)
      (cs.foldl (fun o s => o.add look' (f s) s) o') := by
  induction cs generalizing o o' with
  | nil => exact h
  | cons s r ih =>
    exact ih (fun t ht => hcs t (by simp [ht])) (h.add hl hl' (hcs s (by simp)) _)

/-! ### The start of the sweep -/

/-- What the loop over the candidate segments files for `s`. -/
def startKey (obs : Coord) (s : Seg) : Option ℤ :=
  if obs = s.p ∨ obs = s.q then none
  else match s.intersect (initialScanline obs) with
    | some x =>
      if !(initialScanline obs).onSegment s.p && !(initialScanline obs).onSegment s.q then
        some (x.sub obs).magSq
      else none
    | none => none

theorem openInitial_key (look : Seg → Seg → Bool) (obs : Coord) (o : OpenEdges) (s : Seg) :
    openInitial look obs o s =
      match startKey obs s with
      | some k => o.add look k s
      | none => o := by
  unfold openInitial startKey
  by_cases h1 : obs = s.p ∨ obs = s.q
  · rw [if_pos h1, if_pos h1]
  · rw [if_neg h1, if_neg h1]
    cases s.intersect (initialScanline obs) with
    | none => rfl
    | some x =>
      simp only
      split_ifs <;> rfl

/-- What the maps hold at the start, if no two segments have the same key. -/
theorem initial_entries {look : Seg → Seg → Bool} {E : Seg → Prop} (hl : LookEq look E)
    {obs : Coord} (hk : ∀ s t k, E s → E t → startKey obs s = some k → startKey obs t = some k → s = t)
    (segs : List Seg) (hs : ∀ s ∈ segs, E s) :
    ∀ (o : OpenEdges) (done : List Seg), (∀ s ∈ done, E s) →
      o.byDist.Pairwise (fun x y => x.1 < y.1) → (o.distOf.map Prod.fst).Nodup →
      (∀ x, x ∈ o.byDist ↔ x.2 ∈ done ∧ startKey obs x.2 = some x.1) →
      (∀ x, x ∈ o.distOf ↔ x.1 ∈ done ∧ startKey obs x.1 = some x.2) →
      let r := segs.foldl (openInitial look obs) o
      r.byDist.Pairwise (fun x y => x.1 < y.1) ∧ (r.distOf.map Prod.fst).Nodup ∧
      (∀ x, x ∈ r.byDist ↔ (x.2 ∈ done ∨ x.2 ∈ segs) ∧ startKey obs x.2 = some x.1) ∧
      (∀ x, x ∈ r.distOf ↔ (x.1 ∈ done ∨ x.1 ∈ segs) ∧ startKey obs x.1 = some x.2) := by
  induction segs with
  | nil =>
    intro o done _ h1 h2 h3 h4
    simp only [List.foldl_nil, List.not_mem_nil, or_false]
    exact ⟨h1, h2, h3, h4⟩
  | cons s r ih =>
    intro o done hd h1 h2 h3 h4
    have hE : E s := hs s (by simp)
    have key := ih (fun t ht => hs t (by simp [ht])) (openInitial look obs o s) (s :: done)
      (by
        intro t ht
        rcases List.mem_cons.1 ht with rfl | ht
        · exact hE
        · exact hd t ht)
    rw [openInitial_key] at key
    have hshuffle : ∀ t : Seg, ((t ∈ s :: done) ∨ t ∈ r) ↔ (t ∈ done ∨ t ∈ s :: r) := by
      intro t
      simp only [List.mem_cons]
      tauto
    simp only [hshuffle] at key
    rw [List.foldl_cons, openInitial_key]
    cases hks : startKey obs s with
    | none =>
      rw [hks] at key
      simp only at key ⊢
      have hskip : ∀ (t : Seg) (k : ℤ), startKey obs t = some k → (t ∈ s :: done ↔ t ∈ done) := by
        intro t k ht
        rw [List.mem_cons]
        constructor
        · rintro (rfl | h)
          · rw [hks] at ht; exact absurd ht (by simp)
          · exact h
        · exact Or.inr
      refine key h1 h2 (fun x => ?_) (fun x => ?_)
      · rw [h3]
        exact ⟨fun ⟨a, b⟩ => ⟨(hskip _ _ b).2 a, b⟩, fun ⟨a, b⟩ => ⟨(hskip _ _ b).1 a, b⟩⟩
      · rw [h4]
        exact ⟨fun ⟨a, b⟩ => ⟨(hskip _ _ b).2 a, b⟩, fun ⟨a, b⟩ => ⟨(hskip _ _ b).1 a, b⟩⟩
    | some k =>
      rw [hks] at key
      simp only at key ⊢
      have hknown : ∀ x ∈ o.distOf, E x.1 := fun x hx => hd _ ((h4 x).1 hx).1
      refine key (emplace_sorted h1) (assign_nodup hl hE hknown h2) (fun x => ?_) (fun x => ?_)
      · simp only [OpenEdges.add]
        constructor
        · intro hx
          rcases emplace_mem hx with rfl | hx
          · exact ⟨by simp, hks⟩
          · obtain ⟨a, b⟩ := (h3 x).1 hx
            exact ⟨List.mem_cons_of_mem _ a, b⟩
        · rintro ⟨hx, hkx⟩
          rcases List.mem_cons.1 hx with hxs | hx
          · have hxk : x = (k, s) := by
              rw [hxs, hks] at hkx
              exact Prod.ext (Option.some.inj hkx).symm hxs
            rw [hxk]
            refine emplace_new fun y hy hyk => ?_
            obtain ⟨a, b⟩ := (h3 y).1 hy
            rw [hyk] at b
            exact hk _ _ _ (hd _ a) hE b hks
          · exact emplace_keeps ((h3 x).2 ⟨hx, hkx⟩)
      · simp only [OpenEdges.add]
        rw [assign_mem hl hE hknown h2, h4]
        constructor
        · rintro (rfl | ⟨⟨a, b⟩, -⟩)
          · exact ⟨by simp, hks⟩
          · exact ⟨List.mem_cons_of_mem _ a, b⟩
        · rintro ⟨hx, hkx⟩
          by_cases hxs : x.1 = s
          · left
            rw [hxs, hks] at hkx
            exact Prod.ext hxs (Option.some.inj hkx).symm
          · right
            rcases List.mem_cons.1 hx with h | h
            · exact absurd h hxs
            · exact ⟨⟨h, hkx⟩, hxs⟩

theorem sorted_unique {l l' : List (ℤ × Seg)} (h : l.Pairwise fun x y => x.1 < y.1)
    (h' : l'.Pairwise fun x y => x.1 < y.1) (hm : ∀ x, x ∈ l ↔ x ∈ l') : l = l' := by
  have hn : l.Nodup := h.imp fun hlt e => by rw [e] at hlt; exact lt_irrefl _ hlt
  have hn' : l'.Nodup := h'.imp fun hlt e => by rw [e] at hlt; exact lt_irrefl _ hlt
  refine ((List.perm_ext_iff_of_nodup hn hn').2 hm).eq_of_pairwise ?_ h h'
  intro a b _ _ h1 h2
  exact absurd h1 (not_lt.2 h2.le)

theorem SameOpen.start {look look' : Seg → Seg → Bool} {E : Seg → Prop} (hl : LookEq look E)
    (hl' : LookEq look' E) {obs : Coord}
    (hk : ∀ s t k, E s → E t → startKey obs s = some k → startKey obs t = some k → s = t)
    {segs segs' : List Seg} (hs : ∀ s ∈ segs, E s) (hm : ∀ s, s ∈ segs ↔ s ∈ segs') :
    SameOpen E (initialOpen look obs segs) (initialOpen look' obs segs') := by
  have hs' : ∀ s ∈ segs', E s := fun s h => hs s ((hm s).2 h)
  have a := initial_entries hl hk segs hs .empty [] (by simp) (by simp [OpenEdges.empty])
    (by simp [OpenEdges.empty]) (by simp [OpenEdges.empty]) (by simp [OpenEdges.empty])
  have b := initial_entries hl' hk segs' hs' .empty [] (by simp) (by simp [OpenEdges.empty])
    (by simp [OpenEdges.empty]) (by simp [OpenEdges.empty]) (by simp [OpenEdges.empty])
  simp only [List.not_mem_nil, false_or] at a b
  obtain ⟨a1, a2, a3, a4⟩ := a
  obtain ⟨b1, b2, b3, b4⟩ := b
  refine ⟨sorted_unique a1 b1 fun x => ?_, fun x => ?_, a2, b2, fun x hx => ?_⟩
  · unfold initialOpen
    rw [a3, b3, hm]
  · unfold initialOpen
    rw [a4, b4, hm]
  · exact hs _ ((a4 x).1 hx).1

/-! ### The loop -/

theorem loop_same {look look' : Seg → Seg → Bool} {E : Seg → Prop} (hl : LookEq look E)
    (hl' : LookEq look' E) {m m' : VisMap} (hm : ∀ v, Assoc.get m v = Assoc.get m' v)
    (hE : ∀ v, ∀ s ∈ incident m v, E s) (obs : Coord) (half : Bool) (vs : List Coord)
    {o o' : OpenEdges} (h : SameOpen E o o') :
    loop look m obs half vs o = loop look' m' obs half vs o' := by
  induction vs generalizing o o' with
  | nil => rfl
  | cons v r ih =>
    have hinc : incident m' v = incident m v := by unfold incident; rw [hm]
    have h1 : SameOpen E (closeAt look m obs v o) (closeAt look' m' obs v o') := by
      unfold closeAt
      rw [hinc]
      exact h.removes hl hl' _ fun s hs => hE v s (List.mem_of_mem_filter hs)
    have h2 : SameOpen E (openAt look m obs v (closeAt look m obs v o))
        (openAt look' m' obs v (closeAt look' m' obs v o')) := by
      unfold openAt
      rw [hinc]
      exact h1.adds hl hl' _ _ fun s hs => hE v s (List.mem_of_mem_filter hs)
    have h3 : isVisible m (closeAt look m obs v o) obs v =
        isVisible m' (closeAt look' m' obs v o') obs v := by
      unfold isVisible barrier unblocked OpenEdges.closest
      rw [hm, h1.dist]
    unfold loop
    simp only
    rw [ih h, ih h2, h3]

end Capi
