import Verif.Model.Objects

/-!
# C96: polygons and coordinates as Python objects
-/

namespace Capi

namespace Objects

/-! ### What is meant -/

/-- The polygon `p` consists of the objects `xs`. -/
def Holds (H : Heap) (p : ℕ) (xs : List ℕ) : Prop :=
  ∃ v, H[p]? = some (.polygon v) ∧ H[v]? = some (.list xs)

/-- The object `c` is a coordinate at this longitude and latitude. -/
def At (H : Heap) (c : ℕ) (q : ℚ × ℚ) : Prop :=
  ∃ a b, H[c]? = some (.coord a b) ∧ H[a]? = some (.num (.fin q.2)) ∧ H[b]? = some (.num (.fin q.1))

/-- The polygon `p` has vertices at these degrees. -/
def Shows (H : Heap) (p : ℕ) (qs : List (ℚ × ℚ)) : Prop :=
  ∃ xs, Holds H p xs ∧ List.Forall₂ (At H) xs qs

/-! ### Constructing and keeping -/

end Objects

open Objects

/-- The constructor raises exactly for fewer than three vertices.  Otherwise the polygon has just the
given objects, in a list that was not there before, and nothing else changes. -/
theorem C96_constructor (H : Heap) (l : ℕ) (xs : List ℕ) (hl : H[l]? = some (.list xs)) :
    (newPolygon H l = .error .exn ↔ xs.length < 3) ∧
      ∀ H' p, newPolygon H l = .ok (H', p) →
        Holds H' p xs ∧ 3 ≤ xs.length ∧ H <+: H' ∧ ∃ v, vertices H' p = .ok v ∧ H.length ≤ v := by
  unfold newPolygon
  rw [hl]
  dsimp only
  split
  · rename_i h
    exact ⟨by simp [h], by simp⟩
  · rename_i h
    refine ⟨by simp [h], ?_⟩
    intro H' p e
    cases e
    refine ⟨⟨H.length, ?_, ?_⟩, by omega, ⟨_, rfl⟩, H.length, ?_, le_refl _⟩
    · rw [List.getElem?_append_right (by omega)]; simp
    · rw [List.getElem?_append_right (by omega)]; simp
    · unfold vertices
      rw [List.getElem?_append_right (by omega)]; simp

namespace Objects

/-- What an act makes of an object that is there. -/
theorem act_old {H : Heap} {a : Act} {i : ℕ} {o : Obj} (h : H[i]? = some o) :
    (act H a)[i]? = some o ∨
      (∃ l m l' m', o = .coord l m ∧ (act H a)[i]? = some (.coord l' m')) ∨
      ∃ xs ys, o = .list xs ∧ a = .edit i ys ∧ (act H a)[i]? = some (.list ys) := by
  have hi : i < H.length := by
    by_contra hh
    rw [List.getElem?_eq_none (by omega)] at h
    cases h
  have happ : ∀ K : Heap, (H ++ K)[i]? = some o := by
    intro K
    rw [List.getElem?_append_left hi, h]
  cases a with
  | num x => exact .inl (happ _)
  | coord l m => exact .inl (happ _)
  | list xs => exact .inl (happ _)
  | polygon l =>
    left
    simp only [act, newPolygon]
    split
    · rename_i r hr
      split at hr
      · split at hr
        · cases hr
        · cases hr; exact happ _
      · cases hr
    · exact h
  | setLat c f =>
    simp only [act]
    split
    · rename_i l m hc
      by_cases hci : c = i
      · subst hci
        rw [h] at hc
        cases hc
        right; left
        exact ⟨_, _, f, m, rfl, by rw [List.getElem?_set_self hi]⟩
      · left; rw [List.getElem?_set_ne hci, h]
    · exact .inl h
  | setLon c f =>
    simp only [act]
    split
    · rename_i l m hc
      by_cases hci : c = i
      · subst hci
        rw [h] at hc
        cases hc
        right; left
        exact ⟨_, _, l, f, rfl, by rw [List.getElem?_set_self hi]⟩
      · left; rw [List.getElem?_set_ne hci, h]
    · exact .inl h
  | edit l ys =>
    simp only [act]
    split
    · rename_i xs hc
      by_cases hci : l = i
      · subst hci
        rw [h] at hc
        cases hc
        right; right
        exact ⟨_, ys, rfl, rfl, by rw [List.getElem?_set_self hi]⟩
      · left; rw [List.getElem?_set_ne hci, h]
    · exact .inl h

theorem act_polygon {H : Heap} {a : Act} {p v : ℕ} (h : H[p]? = some (.polygon v)) :
    (act H a)[p]? = some (.polygon v) := by
  rcases act_old (a := a) h with h | ⟨_, _, _, _, e, _⟩ | ⟨_, _, e, _⟩
  · exact h
  · cases e
  · cases e

theorem act_list {H : Heap} {a : Act} {v : ℕ} {xs : List ℕ} (h : H[v]? = some (.list xs))
    (hn : ∀ ys, a ≠ .edit v ys) : (act H a)[v]? = some (.list xs) := by
  rcases act_old (a := a) h with h | ⟨_, _, _, _, e, _⟩ | ⟨_, ys, _, e, _⟩
  · exact h
  · cases e
  · exact (hn ys e).elim

end Objects

/-- A polygon keeps the objects it has, whatever is done to other lists (also to the one it was
constructed from), as long as its own list, which `vertices` hands out, is not changed. -/
theorem C96_kept (H : Heap) (p v : ℕ) (xs : List ℕ) (h : Holds H p xs) (hv : vertices H p = .ok v)
    (as : List Act) (hn : ∀ ys, Act.edit v ys ∉ as) : Holds (acts H as) p xs := by
  induction as generalizing H with
  | nil => exact h
  | cons a r ih =>
    obtain ⟨w, h1, h2⟩ := h
    unfold vertices at hv
    rw [h1] at hv
    cases hv
    have h1' := act_polygon (a := a) h1
    refine ih (act H a) ⟨_, h1', act_list h2 fun ys e => hn ys (by simp [e])⟩ ?_
      fun ys hm => hn ys (by simp [hm])
    unfold vertices
    rw [h1']

namespace Objects

/-! ### Every polygon has a list of its own -/

def Inv (H : Heap) : Prop :=
  (∀ p v : ℕ, H[p]? = some (Obj.polygon v) → ∃ xs, H[v]? = some (Obj.list xs)) ∧
    ∀ p q v : ℕ, H[p]? = some (Obj.polygon v) → H[q]? = some (Obj.polygon v) → p = q

/-- Where polygons come from. -/
theorem act_new {H : Heap} {a : Act} {p v : ℕ} (h : (act H a)[p]? = some (.polygon v)) :
    H[p]? = some (.polygon v) ∨
      p = H.length + 1 ∧ v = H.length ∧ ∃ xs, (act H a)[v]? = some (.list xs) := by
  have happ : ∀ o : Obj, (∀ w, o ≠ .polygon w) → (H ++ [o])[p]? = some (.polygon v) →
      H[p]? = some (.polygon v) := by
    intro o ho h
    by_cases hp : p < H.length
    · rwa [List.getElem?_append_left hp] at h
    · rw [List.getElem?_append_right (by omega)] at h
      by_cases h0 : p - H.length = 0
      · rw [h0] at h
        simp only [List.getElem?_cons_zero, Option.some.injEq] at h
        exact (ho v h).elim
      · rw [List.getElem?_eq_none (by simp; omega)] at h
        cases h
  have hset : ∀ (c : ℕ) (o : Obj), (∀ w, o ≠ .polygon w) → (H.set c o)[p]? = some (.polygon v) →
      H[p]? = some (.polygon v) := by
    intro c o ho h
    by_cases hc : c = p
    · subst hc
      rw [List.getElem?_set] at h
      simp only [↓reduceIte] at h
      split at h
      · simp only [Option.some.injEq] at h
        exact (ho v h).elim
      · cases h
    · rwa [List.getElem?_set_ne hc] at h
  cases a with
  | num x => exact .inl (happ _ (by simp) h)
  | coord l m => exact .inl (happ _ (by simp) h)
  | list xs => exact .inl (happ _ (by simp) h)
  | setLat c f =>
    simp only [act] at h
    split at h
    · exact .inl (hset _ _ (by simp) h)
    · exact .inl h
  | setLon c f =>
    simp only [act] at h
    split at h
    · exact .inl (hset _ _ (by simp) h)
    · exact .inl h
  | edit c f =>
    simp only [act] at h
    split at h
    · exact .inl (hset _ _ (by simp) h)
    · exact .inl h
  | polygon l =>
    simp only [act, newPolygon] at h ⊢
    cases hl : H[l]? with
    | none => rw [hl] at h; exact .inl h
    | some o =>
      rw [hl] at h
      cases o with
      | num x => exact .inl h
      | coord l m => exact .inl h
      | polygon w => exact .inl h
      | list xs =>
        dsimp only at h ⊢
        by_cases hx : xs.length < 3
        · rw [if_pos hx] at h; exact .inl h
        · rw [if_neg hx] at h
          rw [if_neg hx]
          dsimp only at h ⊢
          by_cases hp : p < H.length
          · rw [List.getElem?_append_left hp] at h; exact .inl h
          · rw [List.getElem?_append_right (by omega)] at h
            obtain h0 | h0 | h0 : p - H.length = 0 ∨ p - H.length = 1 ∨ 2 ≤ p - H.length := by omega
            · rw [h0] at h; simp at h
            · rw [h0] at h
              simp only [List.getElem?_cons_succ, List.getElem?_cons_zero, Option.some.injEq,
                Obj.polygon.injEq] at h
              subst h
              refine .inr ⟨by omega, rfl, xs, ?_⟩
              rw [List.getElem?_append_right (by omega)]; simp
            · rw [List.getElem?_eq_none (by simpa using h0)] at h; cases h

theorem lt_of_get {H : Heap} {i : ℕ} {o : Obj} (h : H[i]? = some o) : i < H.length := by
  by_contra hh
  rw [List.getElem?_eq_none (by omega)] at h
  cases h

theorem Inv.act {H : Heap} (h : Inv H) (a : Act) : Inv (act H a) := by
  constructor
  · intro p v hp
    rcases act_new hp with hp | ⟨_, _, hx⟩
    · obtain ⟨xs, hx⟩ := h.1 p v hp
      rcases act_old (a := a) hx with h | ⟨_, _, _, _, e, _⟩ | ⟨_, ys, _, _, h⟩
      · exact ⟨_, h⟩
      · cases e
      · exact ⟨_, h⟩
    · exact hx
  · intro p q v hp hq
    rcases act_new hp with hp | ⟨rfl, rfl, _⟩ <;> rcases act_new hq with hq | ⟨rfl, e, _⟩
    · exact h.2 p q v hp hq
    · obtain ⟨xs, hx⟩ := h.1 p v hp
      have := lt_of_get hx
      omega
    · obtain ⟨xs, hx⟩ := h.1 q _ hq
      have := lt_of_get hx
      omega
    · rfl

theorem inv_acts {H : Heap} (h : Inv H) (as : List Act) : Inv (acts H as) := by
  induction as generalizing H with
  | nil => exact h
  | cons a r ih => exact ih (h.act a)

theorem inv_nil : Inv [] := ⟨by simp, by simp⟩

end Objects

/-- After any acts two polygons never have the same list: changing the vertices of one by way of
`vertices` leaves the other as it is. -/
theorem C96_own (as : List Act) (p q w : ℕ) (hpq : p ≠ q) (xs : List ℕ)
    (hp : Holds (acts [] as) p xs) (hq : vertices (acts [] as) q = .ok w) (ys : List ℕ) :
    Holds (act (acts [] as) (.edit w ys)) p xs := by
  obtain ⟨v, h1, h2⟩ := hp
  have hw : (acts [] as)[q]? = some (.polygon w) := by
    unfold vertices at hq
    split at hq
    · rename_i h; cases hq; exact h
    · cases hq
  refine ⟨v, act_polygon h1, act_list h2 ?_⟩
  rintro zs e
  cases e
  exact hpq ((inv_acts inv_nil as).2 p q _ h1 hw)

namespace Objects

/-! ### Equality -/

theorem Num.eq_iff (x y : Num) : x.eq y = true ↔ x ≠ .nan ∧ x = y := by
  unfold Num.eq; simp

theorem numEq_iff {H : Heap} {a b : ℕ} : numEq H a b = true ↔
    ∃ x, x ≠ .nan ∧ H[a]? = some (.num x) ∧ H[b]? = some (.num x) := by
  unfold numEq
  constructor
  · intro h
    split at h
    · rename_i x y h1 h2
      obtain ⟨h3, rfl⟩ := (Num.eq_iff _ _).mp h
      exact ⟨x, h3, h1, h2⟩
    · cases h
  · rintro ⟨x, h, h1, h2⟩
    rw [h1, h2]
    exact (Num.eq_iff _ _).mpr ⟨h, rfl⟩

theorem numEq_symm {H : Heap} {a b : ℕ} (h : numEq H a b = true) : numEq H b a = true := by
  obtain ⟨x, h0, h1, h2⟩ := numEq_iff.mp h
  exact numEq_iff.mpr ⟨x, h0, h2, h1⟩

theorem numEq_trans {H : Heap} {a b c : ℕ} (h : numEq H a b = true) (h' : numEq H b c = true) :
    numEq H a c = true := by
  obtain ⟨x, h0, h1, h2⟩ := numEq_iff.mp h
  obtain ⟨y, h0', h1', h2'⟩ := numEq_iff.mp h'
  rw [h2] at h1'
  cases h1'
  exact numEq_iff.mpr ⟨x, h0, h1, h2'⟩

/-- Equal as elements of a list. -/
def Same (f : Bool) (H : Heap) (a b : ℕ) : Prop := a = b ∨ coordEq f H a b = true

theorem coordEq_iff {f : Bool} {H : Heap} {a b : ℕ} : coordEq f H a b = true ↔
    ∃ l o l' o', H[a]? = some (.coord l o) ∧ H[b]? = some (.coord l' o') ∧
      (if f then a = b ∨ (numEq H l l' = true ∧ numEq H o o' = true)
        else (l = l' ∨ numEq H l l' = true) ∧ (o = o' ∨ numEq H o o' = true)) := by
  unfold coordEq
  constructor
  · intro h
    split at h
    · rename_i l o l' o' h1 h2
      refine ⟨l, o, l', o', h1, h2, ?_⟩
      cases f <;> simpa using h
    · cases h
  · rintro ⟨l, o, l', o', h1, h2, h3⟩
    rw [h1, h2]
    cases f <;> simpa using h3

theorem same_symm {f : Bool} {H : Heap} {a b : ℕ} (h : Same f H a b) : Same f H b a := by
  rcases h with rfl | h
  · exact .inl rfl
  · obtain ⟨l, o, l', o', h1, h2, h3⟩ := coordEq_iff.mp h
    refine .inr (coordEq_iff.mpr ⟨l', o', l, o, h2, h1, ?_⟩)
    cases f
    · simp only [Bool.false_eq_true, ↓reduceIte] at h3 ⊢
      exact ⟨h3.1.imp Eq.symm numEq_symm, h3.2.imp Eq.symm numEq_symm⟩
    · simp only [↓reduceIte] at h3 ⊢
      exact h3.imp Eq.symm fun h => ⟨numEq_symm h.1, numEq_symm h.2⟩

theorem same_trans {f : Bool} {H : Heap} {a b c : ℕ} (h : Same f H a b) (h' : Same f H b c) :
    Same f H a c := by
  rcases h with rfl | h
  · exact h'
  rcases h' with rfl | h'
  · exact .inr h
  obtain ⟨l, o, l1, o1, h1, h2, h3⟩ := coordEq_iff.mp h
  obtain ⟨l2, o2, l', o', h4, h5, h6⟩ := coordEq_iff.mp h'
  rw [h2] at h4
  cases h4
  cases f
  · simp only [Bool.false_eq_true, ↓reduceIte] at h3 h6
    refine .inr (coordEq_iff.mpr ⟨l, o, l', o', h1, h5, ?_⟩)
    simp only [Bool.false_eq_true, ↓reduceIte]
    constructor
    · rcases h3.1 with rfl | h
      · exact h6.1
      · rcases h6.1 with rfl | h'
        · exact .inr h
        · exact .inr (numEq_trans h h')
    · rcases h3.2 with rfl | h
      · exact h6.2
      · rcases h6.2 with rfl | h'
        · exact .inr h
        · exact .inr (numEq_trans h h')
  · simp only [↓reduceIte] at h3 h6
    rcases h3 with rfl | h3
    · exact .inr h'
    rcases h6 with rfl | h6
    · exact .inr h
    refine .inr (coordEq_iff.mpr ⟨l, o, l', o', h1, h5, ?_⟩)
    simp only [↓reduceIte]
    exact .inr ⟨numEq_trans h3.1 h6.1, numEq_trans h3.2 h6.2⟩

theorem listEq_iff {f : Bool} {H : Heap} {xs ys : List ℕ} :
    listEq f H xs ys = true ↔ List.Forall₂ (Same f H) xs ys := by
  induction xs generalizing ys with
  | nil => cases ys <;> simp [listEq]
  | cons x r ih =>
    cases ys with
    | nil => simp [listEq]
    | cons y s => simp [listEq, ih, Same]

theorem polygonEq_iff {f : Bool} {H : Heap} {p q : ℕ} : polygonEq f H p q = true ↔
    ∃ xs ys, Holds H p xs ∧ Holds H q ys ∧ List.Forall₂ (Same f H) xs ys := by
  unfold polygonEq
  constructor
  · intro h
    split at h
    · rename_i v w h1 h2
      split at h
      · rename_i xs ys h3 h4
        exact ⟨xs, ys, ⟨v, h1, h3⟩, ⟨w, h2, h4⟩, listEq_iff.mp h⟩
      · cases h
    · cases h
  · rintro ⟨xs, ys, ⟨v, h1, h3⟩, ⟨w, h2, h4⟩, h⟩
    rw [h1, h2]
    dsimp only
    rw [h3, h4]
    exact listEq_iff.mpr h

theorem Holds.unique {H : Heap} {p : ℕ} {xs ys : List ℕ} (h : Holds H p xs) (h' : Holds H p ys) :
    xs = ys := by
  obtain ⟨v, h1, h2⟩ := h
  obtain ⟨w, h3, h4⟩ := h'
  rw [h1] at h3
  cases h3
  rw [h2] at h4
  cases h4
  rfl

end Objects

/-- `==` of polygons is an equivalence relation, with every version of Python and even with numbers
that are not equal to themselves. -/
theorem C96_equality (f : Bool) (as : List Act) :
    (∀ p xs, Holds (acts [] as) p xs → polygonEq f (acts [] as) p p = true) ∧
      (∀ p q, polygonEq f (acts [] as) p q = true → polygonEq f (acts [] as) q p = true) ∧
      ∀ p q r, polygonEq f (acts [] as) p q = true → polygonEq f (acts [] as) q r = true →
        polygonEq f (acts [] as) p r = true := by
  refine ⟨fun p xs h => ?_, fun p q h => ?_, fun p q r h h' => ?_⟩
  · exact polygonEq_iff.mpr ⟨xs, xs, h, h, List.forall₂_same.mpr fun x _ => .inl rfl⟩
  · obtain ⟨xs, ys, h1, h2, h3⟩ := polygonEq_iff.mp h
    exact polygonEq_iff.mpr ⟨ys, xs, h2, h1, h3.flip.imp fun _ _ => same_symm⟩
  · obtain ⟨xs, ys, h1, h2, h3⟩ := polygonEq_iff.mp h
    obtain ⟨ys', zs, h4, h5, h6⟩ := polygonEq_iff.mp h'
    cases h2.unique h4
    refine polygonEq_iff.mpr ⟨xs, zs, h1, h5, ?_⟩
    clear h h' h1 h2 h4 h5
    induction h3 generalizing zs with
    | nil => cases h6; exact .nil
    | cons h _ ih =>
      cases h6 with
      | cons h' h6 => exact .cons (same_trans h h') (ih _ h6)

namespace Objects

theorem At.unique {H : Heap} {c : ℕ} {q r : ℚ × ℚ} (h : At H c q) (h' : At H c r) : q = r := by
  obtain ⟨a, b, h1, h2, h3⟩ := h
  obtain ⟨a', b', h4, h5, h6⟩ := h'
  rw [h1] at h4
  cases h4
  rw [h2] at h5
  rw [h3] at h6
  simp only [Option.some.injEq, Obj.num.injEq, Num.fin.injEq] at h5 h6
  exact Prod.ext h6 h5

theorem same_iff_at {f : Bool} {H : Heap} {a b : ℕ} {q r : ℚ × ℚ} (h : At H a q) (h' : At H b r) :
    Same f H a b ↔ q = r := by
  constructor
  · rintro (rfl | hs)
    · exact h.unique h'
    · obtain ⟨l, o, l', o', h1, h2, h3⟩ := coordEq_iff.mp hs
      obtain ⟨x, y, g1, g2, g3⟩ := h
      obtain ⟨x', y', g4, g5, g6⟩ := h'
      rw [g1] at h1
      cases h1
      rw [g4] at h2
      cases h2
      have key : ∀ {u v : ℕ} {s t : ℚ}, H[u]? = some (.num (.fin s)) → H[v]? = some (.num (.fin t)) →
          (u = v ∨ numEq H u v = true) → s = t := by
        intro u v s t e1 e2 e
        rcases e with rfl | e
        · rw [e1] at e2; simpa using e2
        · obtain ⟨z, _, e3, e4⟩ := numEq_iff.mp e
          rw [e1] at e3
          cases e3
          rw [e2] at e4
          simpa using e4.symm
      cases f
      · simp only [Bool.false_eq_true, ↓reduceIte] at h3
        exact Prod.ext (key g3 g6 h3.2) (key g2 g5 h3.1)
      · simp only [↓reduceIte] at h3
        rcases h3 with rfl | h3
        · rw [g1] at g4
          cases g4
          exact Prod.ext (key g3 g6 (.inl rfl)) (key g2 g5 (.inl rfl))
        · exact Prod.ext (key g3 g6 (.inr h3.2)) (key g2 g5 (.inr h3.1))
  · rintro rfl
    obtain ⟨x, y, g1, g2, g3⟩ := h
    obtain ⟨x', y', g4, g5, g6⟩ := h'
    refine .inr (coordEq_iff.mpr ⟨x, y, x', y', g1, g4, ?_⟩)
    have e1 := numEq_iff.mpr ⟨_, by simp, g2, g5⟩
    have e2 := numEq_iff.mpr ⟨_, by simp, g3, g6⟩
    cases f <;> simp [e1, e2]

end Objects

/-- Polygons with vertices at numbers of degrees are equal exactly if these are the same, in the same
order beginning with the same vertex. -/
theorem C96_values (f : Bool) (H : Heap) (p q : ℕ) (qs rs : List (ℚ × ℚ)) (hp : Shows H p qs)
    (hq : Shows H q rs) : polygonEq f H p q = true ↔ qs = rs := by
  obtain ⟨xs, hx, ha⟩ := hp
  obtain ⟨ys, hy, hb⟩ := hq
  have key : List.Forall₂ (Same f H) xs ys ↔ qs = rs := by
    clear hx hy
    induction ha generalizing ys rs with
    | nil =>
      cases hb with
      | nil => simp
      | cons _ _ => simp
    | cons h _ ih =>
      cases hb with
      | nil => simp
      | cons h' hb => simp [same_iff_at h h', ih _ _ hb]
  rw [polygonEq_iff, ← key]
  constructor
  · rintro ⟨xs', ys', h1, h2, h3⟩
    cases hx.unique h1
    cases hy.unique h2
    exact h3
  · exact fun h => ⟨xs, ys, hx, hy, h⟩

namespace Objects

/-! ### The reader -/

theorem prefix_get {H K : Heap} (h : H <+: K) {i : ℕ} {o : Obj} (hi : H[i]? = some o) :
    K[i]? = some o := by
  obtain ⟨t, rfl⟩ := h
  rw [List.getElem?_append_left (lt_of_get hi), hi]

theorem At.mono {H K : Heap} (h : H <+: K) {c : ℕ} {q : ℚ × ℚ} (hc : At H c q) : At K c q := by
  obtain ⟨a, b, h1, h2, h3⟩ := hc
  exact ⟨a, b, prefix_get h h1, prefix_get h h2, prefix_get h h3⟩

theorem Holds.mono {H K : Heap} (h : H <+: K) {p : ℕ} {xs : List ℕ} (hp : Holds H p xs) :
    Holds K p xs := by
  obtain ⟨v, h1, h2⟩ := hp
  exact ⟨v, prefix_get h h1, prefix_get h h2⟩

theorem newPoints_spec (H : Heap) (ps : List (ℚ × ℚ)) :
    H <+: (newPoints H ps).1 ∧ List.Forall₂ (At (newPoints H ps).1) (newPoints H ps).2 ps ∧
      (newPoints H ps).2.Nodup ∧
      ∀ c ∈ (newPoints H ps).2, H.length ≤ c ∧ c < (newPoints H ps).1.length := by
  induction ps generalizing H with
  | nil => simp [newPoints]
  | cons p r ih =>
    have e : newPoints H (p :: r) =
        ((newPoints (newPoint H p).1 r).1, (newPoint H p).2 :: (newPoints (newPoint H p).1 r).2) := rfl
    obtain ⟨i1, i2, i3, i4⟩ := ih (newPoint H p).1
    have hpre : H <+: (newPoint H p).1 := ⟨_, rfl⟩
    have hlen : (newPoint H p).1.length = H.length + 3 := by simp [newPoint]
    have hat : At (newPoint H p).1 (newPoint H p).2 p := by
      refine ⟨H.length, H.length + 1, ?_, ?_, ?_⟩ <;>
        · unfold newPoint
          rw [List.getElem?_append_right (by omega)]
          simp
    have h2 : (newPoint H p).2 = H.length + 2 := rfl
    have hle := i1.length_le
    rw [e]
    refine ⟨hpre.trans i1, .cons (hat.mono i1) i2, List.nodup_cons.mpr ⟨?_, i3⟩, ?_⟩
    · intro hm
      have := (i4 _ hm).1
      omega
    · intro c hc
      show H.length ≤ c ∧ c < (newPoints (newPoint H p).1 r).1.length
      rcases List.mem_cons.mp hc with rfl | hc
      · constructor <;> omega
      · have := i4 c hc
        constructor <;> omega

/-- The coordinates a polygon consists of. -/
def parts (H : Heap) (p : ℕ) : List ℕ :=
  match H[p]? with
  | some (.polygon v) =>
    match H[v]? with
    | some (.list xs) => xs
    | _ => []
  | _ => []

theorem Holds.parts {H : Heap} {p : ℕ} {xs : List ℕ} (h : Holds H p xs) : parts H p = xs := by
  obtain ⟨v, h1, h2⟩ := h
  unfold Objects.parts
  rw [h1]
  dsimp only
  rw [h2]

theorem readShapes_spec (H : Heap) (S : List Frontend.Shape) :
    ∃ K ps qs, readShapes H S = .ok (K, ps) ∧ Frontend.readShapes S = .ok qs ∧ H <+: K ∧
      List.Forall₂ (Shows K) ps qs ∧ (ps.flatMap (parts K)).Nodup ∧
      ∀ c ∈ ps.flatMap (parts K), H.length ≤ c := by
  induction S generalizing H with
  | nil => exact ⟨H, [], [], rfl, rfl, List.prefix_rfl, .nil, by simp, by simp⟩
  | cons s r ih =>
    unfold readShapes Frontend.readShapes
    by_cases hp : s.isPolygon = false
    · simp only [hp, ↓reduceIte]
      exact ih H
    · rw [if_neg hp, if_neg hp]
      obtain ⟨g1, g2, g3, g4⟩ := newPoints_spec H (Frontend.partLoop s.parts 0 s.points)
      generalize hN : newPoints H (Frontend.partLoop s.parts 0 s.points) = N at g1 g2 g3 g4 ⊢
      obtain ⟨K, cs⟩ := N
      dsimp only at g1 g2 g3 g4 ⊢
      have hl := g2.length_eq
      generalize hP : Frontend.partLoop s.parts 0 s.points = P at g2 hl ⊢
      by_cases h3 : cs.length > 3
      · have h3' : P.length > 3 := by omega
        rw [if_pos h3, if_pos h3']
        have hnp : newPolygon (K ++ [.list cs.dropLast]) K.length =
            .ok (K ++ [.list cs.dropLast] ++ [.list cs.dropLast, .polygon (K.length + 1)],
              K.length + 2) := by
          unfold newPolygon
          rw [List.getElem?_append_right (by omega)]
          simp
          omega
        have hpy : Frontend.pyPolygon P.dropLast = .ok P.dropLast := by
          unfold Frontend.pyPolygon
          rw [if_neg (by simp; omega)]
        rw [hnp, hpy]
        generalize hK : K ++ [Obj.list cs.dropLast] ++
          [.list cs.dropLast, .polygon (K.length + 1)] = K2
        have hK2 : K <+: K2 := ⟨_, by rw [← hK, List.append_assoc]⟩
        have hK2l : K2.length = K.length + 3 := by rw [← hK]; simp
        have hh : Holds K2 (K.length + 2) cs.dropLast := by
          refine ⟨K.length + 1, ?_, ?_⟩ <;>
          · rw [← hK, List.append_assoc, List.getElem?_append_right (by omega)]
            simp
        have hat : List.Forall₂ (At K2) cs.dropLast P.dropLast := by
          have := List.forall₂_take (cs.length - 1) g2
          rw [List.dropLast_eq_take, List.dropLast_eq_take, ← hl]
          exact this.imp fun _ _ => At.mono hK2
        obtain ⟨M, ps, qs, e1, e2, e3, e4, e5, e6⟩ := ih K2
        refine ⟨M, (K.length + 2) :: ps, P.dropLast :: qs, ?_, ?_, ?_, ?_, ?_, ?_⟩
        · show (readShapes K2 r >>= fun x => pure (x.1, (K.length + 2) :: x.2)) = _
          rw [e1]; rfl
        · show (Frontend.readShapes r >>= fun x => pure (P.dropLast :: x)) = _
          rw [e2]; rfl
        · exact g1.trans (hK2.trans e3)
        · exact .cons ⟨_, hh.mono e3, hat.imp fun _ _ => At.mono e3⟩ e4
        · rw [List.flatMap_cons, (hh.mono e3).parts]
          refine List.nodup_append.mpr ⟨g3.sublist (List.dropLast_sublist _), e5, ?_⟩
          rintro c hc _ hc' rfl
          have := g4 c (List.dropLast_subset _ hc)
          have := e6 c hc'
          omega
        · rw [List.flatMap_cons, (hh.mono e3).parts]
          have := g1.length_le
          intro c hc
          rcases List.mem_append.mp hc with hc | hc
          · exact (g4 c (List.dropLast_subset _ hc)).1
          · have := e6 c hc
            omega
      · have h3' : ¬ P.length > 3 := by omega
        rw [if_neg h3, if_neg h3']
        obtain ⟨M, ps, qs, e1, e2, e3, e4, e5, e6⟩ := ih K
        exact ⟨M, ps, qs, e1, e2, g1.trans e3, e4, e5, fun c hc =>
          le_trans g1.length_le (e6 c hc)⟩

end Objects

/-- Reading a shapefile never raises, makes polygons with the vertices the other theorems assume
(`Frontend.readShapes`) and changes no object that was there; no coordinate is in two polygons or twice
in one. -/
theorem C96_reader (H : Heap) (S : List Frontend.Shape) :
    ∃ K ps qs, readShapes H S = .ok (K, ps) ∧ Frontend.readShapes S = .ok qs ∧ H <+: K ∧
      List.Forall₂ (Shows K) ps qs ∧ (ps.flatMap (parts K)).Nodup := by
  obtain ⟨K, ps, qs, e1, e2, e3, e4, e5, _⟩ := readShapes_spec H S
  exact ⟨K, ps, qs, e1, e2, e3, e4, e5⟩

namespace Objects

/-- Two shapes of one triangle each: the second polygon has coordinates of its own. -/
def exShapes : List Frontend.Shape :=
  [⟨true, [(0, 0), (1, 0), (1, 1), (0, 0)], [0]⟩, ⟨false, [(5, 5)], [0]⟩,
    ⟨true, [(0, 0), (1, 0), (1, 1), (0, 0), (2, 2)], [0, 4]⟩]

example : (readShapes [] exShapes).toOption.map (fun r => (r.2, r.2.flatMap (parts r.1))) =
    some ([14, 29], [2, 5, 8, 17, 20, 23]) := by decide +kernel

theorem act_num {H : Heap} {a : Act} {i : ℕ} {x : Num} (h : H[i]? = some (.num x)) :
    (act H a)[i]? = some (.num x) := by
  rcases act_old (a := a) h with h | ⟨_, _, _, _, e, _⟩ | ⟨_, _, e, _⟩
  · exact h
  · cases e
  · cases e

end Objects

/-- Changing attributes of coordinates changes only polygons which consist of them.  Of the polygons
read from a shapefile this is at most one. -/
theorem C96_separate (H : Heap) (p c f : ℕ) (qs : List (ℚ × ℚ)) (hp : Shows H p qs)
    (hc : c ∉ parts H p) :
    Shows (act H (.setLat c f)) p qs ∧ Shows (act H (.setLon c f)) p qs := by
  obtain ⟨xs, hx, ha⟩ := hp
  rw [hx.parts] at hc
  obtain ⟨v, h1, h2⟩ := hx
  have hat : ∀ a : Act, (a = .setLat c f ∨ a = .setLon c f) → Shows (act H a) p qs := by
    intro a e
    refine ⟨xs, ⟨v, act_polygon h1, act_list h2 (by rcases e with rfl | rfl <;> simp)⟩, ?_⟩
    clear h1 h2
    induction ha with
    | nil => exact .nil
    | @cons y q ys qs h _ ih =>
      obtain ⟨a', b', g1, g2, g3⟩ := h
      have hcy : c ≠ y := by rintro rfl; simp at hc
      refine .cons ⟨a', b', ?_, act_num g2, act_num g3⟩ (ih fun hm => hc (by simp [hm]))
      rcases e with rfl | rfl <;>
      · simp only [act]
        split
        · rw [List.getElem?_set_ne hcy, g1]
        · exact g1
  exact ⟨hat _ (.inl rfl), hat _ (.inr rfl)⟩

namespace Objects

/-! ### What is false -/

/-- Three coordinates in a list, a polygon made from it, and another. -/
def exActs : List Act :=
  [.num (.fin 0), .num (.fin 1), .coord 0 0, .coord 0 1, .coord 1 1, .list [2, 3, 4],
    .polygon 5, .polygon 5]

example : acts [] exActs = [.num (.fin 0), .num (.fin 1), .coord 0 0, .coord 0 1, .coord 1 1,
    .list [2, 3, 4], .list [2, 3, 4], .polygon 6, .list [2, 3, 4], .polygon 8] := by
  decide +kernel

/-- They are equal, and changing the list they were made from changes neither. -/
example : polygonEq true (acts [] (exActs ++ [.edit 5 []])) 7 9 = true ∧
    parts (acts [] (exActs ++ [.edit 5 []])) 7 = [2, 3, 4] := by decide +kernel

theorem exActs_shows : Shows (acts [] exActs) 7 [(0, 0), (1, 0), (1, 1)] :=
  ⟨[2, 3, 4], ⟨6, by decide +kernel, by decide +kernel⟩,
    .cons ⟨0, 0, by decide +kernel, by decide +kernel, by decide +kernel⟩
      (.cons ⟨0, 1, by decide +kernel, by decide +kernel, by decide +kernel⟩
        (.cons ⟨1, 1, by decide +kernel, by decide +kernel, by decide +kernel⟩ .nil))⟩

example : Shows (act (acts [] exActs) (.setLat 11 0)) 7 [(0, 0), (1, 0), (1, 1)] :=
  (C96_separate _ 7 11 0 _ exActs_shows (by decide +kernel)).1

example : Holds (act (acts [] exActs) (.edit 8 [])) 7 [2, 3, 4] :=
  C96_own exActs 7 9 8 (by decide) [2, 3, 4] ⟨6, by decide +kernel, by decide +kernel⟩
    (by decide +kernel) []

end Objects

/-- "A polygon has at least three vertices" is false: `p.vertices.clear()` leaves none. -/
theorem C96_three_false :
    ¬ ∀ (as : List Act) (p : ℕ) (xs : List ℕ), Holds (acts [] as) p xs → 3 ≤ xs.length := by
  intro h
  have := h (exActs ++ [.edit 6 []]) 7 [] ⟨6, by decide +kernel, by decide +kernel⟩
  simp at this

/-- "A polygon is where it was made" is false, though coordinates are called frozen: setting an
attribute of a coordinate succeeds and moves every polygon made with it. -/
theorem C96_frozen_false :
    Shows (acts [] exActs) 7 [(0, 0), (1, 0), (1, 1)] ∧
      Shows (act (acts [] exActs) (.setLat 2 1)) 7 [(0, 1), (1, 0), (1, 1)] ∧
      Shows (act (acts [] exActs) (.setLat 2 1)) 9 [(0, 1), (1, 0), (1, 1)] :=
  ⟨exActs_shows,
    ⟨[2, 3, 4], ⟨6, by decide +kernel, by decide +kernel⟩,
      .cons ⟨1, 0, by decide +kernel, by decide +kernel, by decide +kernel⟩
        (.cons ⟨0, 1, by decide +kernel, by decide +kernel, by decide +kernel⟩
          (.cons ⟨1, 1, by decide +kernel, by decide +kernel, by decide +kernel⟩ .nil))⟩,
    ⟨[2, 3, 4], ⟨8, by decide +kernel, by decide +kernel⟩,
      .cons ⟨1, 0, by decide +kernel, by decide +kernel, by decide +kernel⟩
        (.cons ⟨0, 1, by decide +kernel, by decide +kernel, by decide +kernel⟩
          (.cons ⟨1, 1, by decide +kernel, by decide +kernel, by decide +kernel⟩ .nil))⟩⟩

/-- "The same ring is the same polygon" is false: it depends on the vertex to begin with. -/
theorem C96_ring_false (f : Bool) :
    polygonEq f (acts [] (exActs ++ [.list [3, 4, 2], .polygon 10])) 7 12 = false := by
  cases f <;> decide +kernel

/-- "Equal coordinates are equal in every version of Python" is false: coordinates sharing a number
that is not equal to itself are equal up to version 3.12 only. -/
theorem C96_version_false :
    coordEq false (acts [] [.num .nan, .coord 0 0, .coord 0 0]) 1 2 = true ∧
      coordEq true (acts [] [.num .nan, .coord 0 0, .coord 0 0]) 1 2 = false := by
  decide +kernel

namespace Objects

theorem uniqueDraws_coord {H : Heap} {same : ℕ → ℕ → Bool} {seen : List ℕ} {a : ℕ} {r : List ℕ}
    (h : ∃ l o, H[a]? = some (.coord l o)) : uniqueDraws H same seen (a :: r) = .error .exn := by
  obtain ⟨l, o, h⟩ := h
  unfold uniqueDraws hashable
  rw [h]
  rfl

end Objects

/-- "The strategy for tests makes polygons" is false: whatever coordinates are drawn, it raises. -/
theorem C96_strategy_false (H : Heap) (same : ℕ → ℕ → Bool) (draws : List ℕ)
    (h : ∀ c ∈ draws, ∃ l o, H[c]? = some (.coord l o)) :
    polygonStrategy H same draws = .error .exn := by
  unfold polygonStrategy
  cases draws with
  | nil =>
    simp [uniqueDraws, newPolygon, bind, Except.bind]
  | cons a r =>
    rw [uniqueDraws_coord (h a (by simp))]
    rfl

end Capi
