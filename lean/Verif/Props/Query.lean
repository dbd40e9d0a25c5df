import Verif.Model.Batch
import Verif.Props.ShortestPath
import Verif.Lemmas.Arith

/-!
# C48–C51: endpoints on land, batches, symmetry, direct answers
-/

namespace Capi

open ShortestPath

variable {D : Type} [LinearOrder D]

/-! ### C48 -/

/-- **C48** Without correction, an endpoint on land always raises an error. -/
theorem C48_rejected (A : Arith D) (E : Env) (s d ns nd : Coord) (hs : normalizeC s = .ok ns)
    (hd : normalizeC d = .ok nd) (h : E.onLand ns = true ∨ E.onLand nd = true)
    (r : Res (List Coord)) : Query A E s d false r ↔ r = .error .exn := by
  have : prepare E s d false = .error .exn := by
    unfold prepare
    rw [hs, hd]
    have hc : correct E ns nd false = .error .exn := by
      unfold correct
      rw [if_pos]
      rcases h with h | h <;> simp [h]
    simp only [Res.bind_ok, hc]
    rfl
  unfold Query
  rw [this]

theorem correctOne_iff {E : Env} {v : Coord} {a : Coord × Option Seg} :
    correctOne E v = .ok a ↔
      (E.onLand v = false ∧ a = (v, none)) ∨
      (E.onLand v = true ∧ ∃ s, E.closest v = .ok s ∧ E.project s v = .ok a.1 ∧ a.2 = some s) := by
  unfold correctOne
  by_cases hl : E.onLand v = true
  · rw [if_pos hl]
    constructor
    · intro h
      obtain ⟨s, h1, h⟩ := bind_eq_ok h
      obtain ⟨c, h2, h⟩ := bind_eq_ok h
      cases h
      exact Or.inr ⟨hl, s, h1, h2, rfl⟩
    · rintro (⟨h, -⟩ | ⟨-, s, h1, h2, h3⟩)
      · rw [hl] at h; cases h
      · rw [h1, Res.bind_ok, h2, Res.bind_ok]
        obtain ⟨x, y⟩ := a
        cases h3
        rfl
  · rw [if_neg hl]
    have hl' : E.onLand v = false := by simpa using hl
    constructor
    · intro h
      cases h
      exact Or.inl ⟨hl', rfl⟩
    · rintro (⟨-, rfl⟩ | ⟨h, -⟩)
      · rfl
      · exact absurd h hl

/-- An endpoint is where it was if it is not on land, and otherwise projected onto its closest
segment. -/
def Placed (E : Env) (v w : Coord) (edge : Option Seg) : Prop :=
  (E.onLand v = false → w = v ∧ edge = none) ∧
  (E.onLand v = true → ∃ s, E.closest v = .ok s ∧ E.project s v = .ok w ∧ edge = some s)

/-- **C48** The corrections made are exactly these: without correction no endpoint is on land, and
each endpoint is moved if and only if it is on land itself. -/
theorem C48_corrected (E : Env) (s d : Coord) (allow : Bool) (c : Correction) :
    correct E s d allow = .ok c ↔
      (allow = false → E.onLand s = false ∧ E.onLand d = false) ∧
        Placed E s c.src c.srcEdge ∧ Placed E d c.dst c.dstEdge := by
  have key : ∀ v w edge, correctOne E v = .ok (w, edge) ↔ Placed E v w edge := by
    intro v w edge
    rw [correctOne_iff]
    unfold Placed
    cases hv : E.onLand v <;> simp
  unfold correct
  by_cases hc : (!allow && (E.onLand s || E.onLand d)) = true
  · rw [if_pos hc]
    constructor
    · intro h; cases h
    · rintro ⟨h, -⟩
      exfalso
      cases allow with
      | true => simp at hc
      | false =>
        obtain ⟨h1, h2⟩ := h rfl
        simp [h1, h2] at hc
  · rw [if_neg hc]
    have hok : allow = false → E.onLand s = false ∧ E.onLand d = false := by
      intro ha
      subst ha
      simpa using hc
    constructor
    · intro h
      obtain ⟨a, h1, h⟩ := bind_eq_ok h
      obtain ⟨b, h2, h⟩ := bind_eq_ok h
      cases h
      exact ⟨hok, (key _ _ _).1 h1, (key _ _ _).1 h2⟩
    · rintro ⟨-, h1, h2⟩
      rw [(key _ _ _).2 h1, Res.bind_ok, (key _ _ _).2 h2, Res.bind_ok]
      rfl

/-- **C48** If no endpoint is on land, a returned path starts and ends at the normalised inputs,
whether correction is allowed or not. -/
theorem C48_unmoved (A : Arith D) (hA : A.Sound) (E : Env) (hg : UserGraph E.graph)
    (hord : ∀ l, (E.ord l).Perm l) (s d ns nd : Coord) (hs : normalizeC s = .ok ns)
    (hd : normalizeC d = .ok nd) (h1 : E.onLand ns = false) (h2 : E.onLand nd = false)
    (allow : Bool) (path : List Coord) (h : Query A E s d allow (.ok path)) :
    path.head? = some ns ∧ path.getLast? = some nd := by
  obtain ⟨ns', nd', c, g1, g2, g3, g4⟩ := C42_paths A hA E hg hord s d allow path h
  rw [hs] at g1
  rw [hd] at g2
  cases g1
  cases g2
  obtain ⟨-, p1, p2⟩ := (C48_corrected E ns nd allow c).1 g3
  rw [← (p1.1 h1).1, ← (p2.1 h2).1]
  rcases g4 with ⟨-, rfl⟩ | ⟨-, g4⟩
  · exact ⟨rfl, rfl⟩
  · exact ⟨g4.1, g4.2.1⟩

/-- Only the source is on land. -/
def exLand : Env := { exEnv with
  onLand := fun c => decide (c = exS)
  closest := fun _ => .ok ⟨exA, exB⟩
  project := fun _ _ => .ok ⟨1, 2⟩ }

example : correct exLand exS exT true = .ok ⟨⟨1, 2⟩, exT, some ⟨exA, exB⟩, none⟩ := by rfl
example : correct exLand exS exT false = .error .exn := by rfl
example : normalizeC exS = .ok exS ∧ exLand.onLand exS = true :=
  ⟨C01_normalize_id exS (by decide) (by decide), rfl⟩

/-! ### C49 -/

theorem runBatch_length {outs : ℕ → Res (List Coord)} {order : List ℕ} {acc rs : List BatchResult}
    (h : runBatch outs order acc = .ok rs) : rs.length = acc.length := by
  induction order generalizing acc with
  | nil => cases h; rfl
  | cons i r ih =>
    unfold runBatch at h
    obtain ⟨b, -, h⟩ := bind_eq_ok h
    rw [ih h, List.length_set]

theorem runBatch_other {outs : ℕ → Res (List Coord)} {order : List ℕ} {acc rs : List BatchResult}
    (h : runBatch outs order acc = .ok rs) (j : ℕ) (hj : j ∉ order) : rs[j]? = acc[j]? := by
  induction order generalizing acc with
  | nil => cases h; rfl
  | cons i r ih =>
    unfold runBatch at h
    obtain ⟨b, -, h⟩ := bind_eq_ok h
    rw [List.mem_cons, not_or] at hj
    rw [ih h hj.2, List.getElem?_set_ne (fun e => hj.1 e.symm)]

theorem runBatch_slot {outs : ℕ → Res (List Coord)} {order : List ℕ} {acc rs : List BatchResult}
    (hn : order.Nodup) (h : runBatch outs order acc = .ok rs) (j : ℕ) (hj : j ∈ order)
    (hl : j < acc.length) : ∃ b, slot (outs j) = .ok b ∧ rs[j]? = some b := by
  induction order generalizing acc with
  | nil => cases hj
  | cons i r ih =>
    unfold runBatch at h
    obtain ⟨b, hb, h⟩ := bind_eq_ok h
    rw [List.nodup_cons] at hn
    rcases List.mem_cons.1 hj with rfl | hj
    · refine ⟨b, hb, ?_⟩
      rw [runBatch_other h j hn.1, List.getElem?_set_self hl]
    · exact ih hn.2 h hj (by rwa [List.length_set])

theorem runBatch_ok {outs : ℕ → Res (List Coord)} {order : List ℕ}
    (h : ∀ i ∈ order, outs i ≠ .error .ub) (acc : List BatchResult) :
    ∃ rs, runBatch outs order acc = .ok rs := by
  induction order generalizing acc with
  | nil => exact ⟨acc, rfl⟩
  | cons i r ih =>
    have : ∃ b, slot (outs i) = .ok b := by
      have := h i List.mem_cons_self
      cases ho : outs i with
      | ok p => exact ⟨_, rfl⟩
      | error f =>
        cases f with
        | ub => exact absurd ho this
        | exn => exact ⟨_, rfl⟩
    obtain ⟨b, hb⟩ := this
    obtain ⟨rs, hrs⟩ := ih (fun j hj => h j (List.mem_cons_of_mem _ hj)) (acc.set i b)
    refine ⟨rs, ?_⟩
    unfold runBatch
    rw [hb]
    exact hrs

/-- The stored result reports the outcome of a single query. -/
def Reports (b : BatchResult) (out : Res (List Coord)) : Prop :=
  (∃ p, out = .ok p ∧ b.path = some p ∧ b.error = none) ∨
    (out = .error .exn ∧ b.path = none ∧ b.error = some ())

theorem slot_reports {out : Res (List Coord)} {b : BatchResult} (h : slot out = .ok b) :
    Reports b out := by
  cases out with
  | ok p => cases h; exact Or.inl ⟨p, rfl, rfl, rfl⟩
  | error f =>
    cases f with
    | ub => cases h
    | exn => cases h; exact Or.inr ⟨rfl, rfl, rfl⟩

/-- **C49** A finished batch has one result per query, and the `i`-th reports an outcome of the
`i`-th query, in whatever order the slots are filled. -/
theorem C49_batch (A : Arith D) (E : Env) (qs : List (Coord × Coord)) (allow : Bool)
    (rs : List BatchResult) (h : Batch A E qs allow (.ok rs)) :
    rs.length = qs.length ∧
    ∀ (i : ℕ) (q : Coord × Coord), qs[i]? = some q → ∃ out b, Query A E q.1 q.2 allow out ∧ rs[i]? = some b ∧
      Reports b out := by
  obtain ⟨order, outs, hp, hq, hr⟩ := h
  refine ⟨by rw [runBatch_length hr.symm, List.length_replicate], fun i q hi => ?_⟩
  have hlt : i < qs.length := (List.getElem?_eq_some_iff.1 hi).1
  obtain ⟨b, hb, hrs⟩ := runBatch_slot ((hp.nodup_iff).2 List.nodup_range) hr.symm i
    (hp.mem_iff.2 (List.mem_range.2 hlt)) (by rwa [List.length_replicate])
  exact ⟨outs i, b, hq i q hi, hrs, slot_reports hb⟩

/-- **C49** Exactly one of path and error is present in every result. -/
theorem C49_exactly_one (A : Arith D) (E : Env) (qs : List (Coord × Coord)) (allow : Bool)
    (rs : List BatchResult) (h : Batch A E qs allow (.ok rs)) (b : BatchResult) (hb : b ∈ rs) :
    (b.path.isSome ∧ b.error = none) ∨ (b.path = none ∧ b.error.isSome) := by
  obtain ⟨hl, hall⟩ := C49_batch A E qs allow rs h
  obtain ⟨i, hi, rfl⟩ := List.getElem_of_mem hb
  obtain ⟨out, b', -, h2, h3⟩ := hall i (qs[i]'(hl ▸ hi)) (List.getElem?_eq_getElem _)
  rw [List.getElem?_eq_getElem hi] at h2
  rw [Option.some.inj h2]
  rcases h3 with ⟨p, -, h4, h5⟩ | ⟨-, h4, h5⟩
  · exact Or.inl ⟨by rw [h4]; rfl, h5⟩
  · exact Or.inr ⟨h4, by rw [h5]; rfl⟩

/-- **C49** The schedule does not matter: whatever the order, the same outcomes of the single
queries give the same batch, and a batch finishes if no query has undefined behaviour. -/
theorem C49_schedules (outs : ℕ → Res (List Coord)) (n : ℕ) (o1 o2 : List ℕ)
    (h1 : o1.Perm (List.range n)) (h2 : o2.Perm (List.range n))
    (hub : ∀ i < n, outs i ≠ .error .ub) :
    ∃ rs, runBatch outs o1 (List.replicate n ⟨none, none⟩) = .ok rs ∧
      runBatch outs o2 (List.replicate n ⟨none, none⟩) = .ok rs ∧
      ∀ i < n, ∃ b, rs[i]? = some b ∧ Reports b (outs i) := by
  obtain ⟨r1, e1⟩ := runBatch_ok (outs := outs) (order := o1)
    (fun i hi => hub i (List.mem_range.1 (h1.mem_iff.1 hi))) (List.replicate n ⟨none, none⟩)
  obtain ⟨r2, e2⟩ := runBatch_ok (outs := outs) (order := o2)
    (fun i hi => hub i (List.mem_range.1 (h2.mem_iff.1 hi))) (List.replicate n ⟨none, none⟩)
  have hs1 : ∀ i < n, ∃ b, slot (outs i) = .ok b ∧ r1[i]? = some b := fun i hi =>
    runBatch_slot ((h1.nodup_iff).2 List.nodup_range) e1 i
      (h1.mem_iff.2 (List.mem_range.2 hi)) (by rwa [List.length_replicate])
  have hs2 : ∀ i < n, ∃ b, slot (outs i) = .ok b ∧ r2[i]? = some b := fun i hi =>
    runBatch_slot ((h2.nodup_iff).2 List.nodup_range) e2 i
      (h2.mem_iff.2 (List.mem_range.2 hi)) (by rwa [List.length_replicate])
  have hl1 := runBatch_length e1
  have hl2 := runBatch_length e2
  rw [List.length_replicate] at hl1 hl2
  have : r1 = r2 := by
    apply List.ext_getElem?
    intro i
    by_cases hi : i < n
    · obtain ⟨b, g1, g2⟩ := hs1 i hi
      obtain ⟨b', g3, g4⟩ := hs2 i hi
      rw [g1] at g3
      rw [g2, g4, Except.ok.inj g3]
    · rw [List.getElem?_eq_none (by omega), List.getElem?_eq_none (by omega)]
  refine ⟨r1, e1, this ▸ e2, fun i hi => ?_⟩
  obtain ⟨b, g1, g2⟩ := hs1 i hi
  exact ⟨b, g2, slot_reports g1⟩

/-- A batch of three, filled out of order, the second query failing. -/
example : runBatch (fun i => if i = 1 then .error .exn else .ok [⟨i, 0⟩]) [2, 0, 1]
    (List.replicate 3 ⟨none, none⟩) =
    .ok [⟨some [⟨0, 0⟩], none⟩, ⟨none, some ()⟩, ⟨some [⟨2, 0⟩], none⟩] := by rfl

example : ∃ rs, Batch (exactArith 1 none) exLand [(exS, exT), (exT, exS)] false (.ok rs) := by
  have h1 := C01_normalize_id exS (by decide) (by decide)
  have h2 := C01_normalize_id exT (by decide) (by decide)
  refine ⟨_, [1, 0], fun _ => .error .exn, by decide, ?_, rfl⟩
  intro i q hi
  match i, hi with
  | 0, hi => cases hi; exact (C48_rejected _ _ _ _ _ _ h1 h2 (Or.inl rfl) _).2 rfl
  | 1, hi => cases hi; exact (C48_rejected _ _ _ _ _ _ h2 h1 (Or.inr rfl) _).2 rfl
  | n + 2, hi => simp at hi

/-! ### C50 -/

/-- **C50** The length of an edge is the same in both directions, direct or crossing the meridian,
if the magnitude of a vector equals that of its opposite. -/
theorem C50_distance (A : Arith D) (hA : ∀ c, A.mag c.neg = A.mag c) (a b : Coord) (span : Bool) :
    distance A a b span = distance A b a span := by
  have key : ∀ (k : ℤ), A.mag ((⟨a.lon + k, a.lat⟩ : Coord).sub b) =
      A.mag ((⟨b.lon - k, b.lat⟩ : Coord).sub a) := by
    intro k
    rw [← hA ((⟨a.lon + k, a.lat⟩ : Coord).sub b)]
    congr 1
    simp only [Coord.sub, Coord.add, Coord.neg, Coord.mk.injEq]
    omega
  cases span with
  | false =>
    have := key 0
    simpa [distance] using this
  | true =>
    have h1 := key period
    have h2 := key (-period)
    rw [sub_neg_eq_add, ← sub_eq_add_neg] at h2
    simp only [distance, periodicCopies, if_true, List.getD_cons_succ, List.getD_cons_zero]
    rw [h1, h2, min_comm]

/-- **C50** Exact and rounded magnitudes are those of the opposite vector. -/
theorem C50_magnitudes (sq : ℚ → Dbl) (w : Dbl) (limit : Option Dbl) (w' : ℝ) (limit' : Option ℝ)
    (c : Coord) : (doubleArith sq w limit).mag c.neg = (doubleArith sq w limit).mag c ∧
      (exactArith w' limit').mag c.neg = (exactArith w' limit').mag c := by
  constructor
  · have h : ∀ k : ℤ, Coord.degOfMicro (-k) = - Coord.degOfMicro k := by
      intro k
      unfold Coord.degOfMicro
      rw [← fl_neg]
      congr 1
      push_cast
      ring
    change sq c.neg.magSqDeg = sq c.magSqDeg
    congr 1
    unfold Coord.magSqDeg Coord.lonDeg Coord.latDeg Coord.neg
    rw [h, h, neg_mul_neg, neg_mul_neg]
  · change Real.sqrt ((c.neg.magSq : ℤ) : ℝ) / 1000000 = Real.sqrt ((c.magSq : ℤ) : ℝ) / 1000000
    have : c.neg.magSq = c.magSq := by
      unfold Coord.magSq Coord.neg
      ring
    rw [this]

/-- **C50** No overflow occurs in computing the distance of geographic coordinates. -/
theorem C50_safe (A : Arith D) (a b : Coord) (ha : a.Geo) (hb : b.Geo) (span : Bool) :
    distanceC A a b span = .ok (distance A a b span) := by
  have h0 := ha
  obtain ⟨a1, a2, a3, a4⟩ := ha
  cases span with
  | false =>
    simp only [distanceC, distance, Bool.false_eq_true, if_false]
    rw [Coord.subC_ok h0.per hb.per, Res.bind_ok]
    rfl
  | true =>
    have hx : (⟨a.lon + period, a.lat⟩ : Coord).Per := by
      unfold Coord.Per period; dsimp only; omega
    have hy : (⟨a.lon - period, a.lat⟩ : Coord).Per := by
      unfold Coord.Per period; dsimp only; omega
    have hc : periodicCopiesC a = .ok (periodicCopies a) := by
      unfold periodicCopiesC
      rw [chk32_ok hx.wf.1, Res.bind_ok, chk32_ok hy.wf.1, Res.bind_ok]
      rfl
    simp only [distanceC, distance, if_true]
    rw [hc, Res.bind_ok]
    simp only [periodicCopies, List.getD_cons_succ, List.getD_cons_zero]
    rw [Coord.subC_ok hx hb.per, Res.bind_ok, Coord.subC_ok hy hb.per, Res.bind_ok]
    rfl

example : (⟨179999999, 5⟩ : Coord).Geo ∧ (⟨-180000000, 5⟩ : Coord).Geo := by decide

/-- The endpoints exchanged. -/
def Correction.swap (c : Correction) : Correction := ⟨c.dst, c.src, c.dstEdge, c.srcEdge⟩

theorem routeEdge_swap (E : Env) (c : Correction) (u v : Coord) :
    RouteEdge E (Correction.swap c) u v ↔ RouteEdge E c u v := by
  unfold RouteEdge Correction.swap
  dsimp only
  constructor
  · rintro (h | h | h | h | h)
    · exact Or.inl h
    · exact Or.inr (Or.inr (Or.inr (Or.inl h)))
    · exact Or.inr (Or.inr (Or.inr (Or.inr h)))
    · exact Or.inr (Or.inl h)
    · exact Or.inr (Or.inr (Or.inl h))
  · rintro (h | h | h | h | h)
    · exact Or.inl h
    · exact Or.inr (Or.inr (Or.inr (Or.inl h)))
    · exact Or.inr (Or.inr (Or.inr (Or.inr h)))
    · exact Or.inr (Or.inl h)
    · exact Or.inr (Or.inr (Or.inl h))

theorem walkLength_append {V : Type} (len : V → V → ℝ) (l : List V) (a b : V) :
    walkLength len (l ++ [a, b]) = walkLength len (l ++ [a]) + len a b := by
  induction l with
  | nil => simp [walkLength]
  | cons x t ih =>
    cases t with
    | nil => simp [walkLength]
    | cons y u =>
      simp only [List.cons_append, walkLength] at ih ⊢
      rw [ih]; ring

theorem walkLength_reverse {V : Type} {len : V → V → ℝ} (h : ∀ a b, len a b = len b a)
    (l : List V) : walkLength len l.reverse = walkLength len l := by
  induction l with
  | nil => rfl
  | cons a t ih =>
    cases t with
    | nil => rfl
    | cons b u =>
      have : (a :: b :: u).reverse = u.reverse ++ [b, a] := by simp
      have h2 : (b :: u).reverse = u.reverse ++ [b] := by simp
      rw [this, walkLength_append, ← h2, ih, h b a]
      simp only [walkLength]
      ring

/-- **C50** Reversing a route gives a route of the query in the opposite direction, of the same
length. -/
theorem C50_routes (E : Env) (hg : UserGraph E.graph) (c : Correction) (a b : Coord)
    (route : List Coord) (h : IsWalk (RouteEdge E c) a b route) :
    IsWalk (RouteEdge E (Correction.swap c)) b a route.reverse ∧
      walkLength (legLength E) route.reverse = walkLength (legLength E) route := by
  refine ⟨⟨?_, ?_, ?_⟩, walkLength_reverse (legLength_symm hg) route⟩
  · rw [List.head?_reverse]; exact h.2.1
  · rw [List.getLast?_reverse]; exact h.1
  · rw [List.isChain_reverse]
    exact h.2.2.imp fun u v huv => (routeEdge_swap E c v u).2 (huv.symm hg)

/-- **C50** With a weighting of at most 1 and no limit, a search and the search in the opposite
direction find paths of the same length (in exact arithmetic). -/
theorem C50_queries (E : Env) (hg : UserGraph E.graph) (hord : ∀ l, (E.ord l).Perm l)
    (s d : Coord) (allow : Bool) (N N' : Net) (c c' : Correction)
    (hp : prepare E s d allow = .ok (.inr (N, c))) (hp' : prepare E d s allow = .ok (.inr (N', c')))
    (hr : InRange E c) (w : ℝ) (h0 : 0 ≤ w) (h1 : w ≤ 1) (p p' : List Coord)
    (h : Query (exactArith w none) E s d allow (.ok p))
    (h' : Query (exactArith w none) E d s allow (.ok p')) :
    walkLength (legLength E) p = walkLength (legLength E) p' := by
  have hc : c' = Correction.swap c := by
    obtain ⟨ns, nd, g1, g2, g3, -⟩ := prepare_inr hp
    obtain ⟨ns', nd', g1', g2', g3', -⟩ := prepare_inr hp'
    rw [g1] at g2'
    rw [g2] at g1'
    cases g1'
    cases g2'
    obtain ⟨l1, l2, l3⟩ := (C48_corrected _ _ _ _ _).1 g3
    have : correct E nd ns allow = .ok (Correction.swap c) :=
      (C48_corrected _ _ _ _ _).2 ⟨fun h => (l1 h).symm, l3, l2⟩
    rw [this] at g3'
    exact (Except.ok.inj g3').symm
  subst hc
  have hr' : InRange E (Correction.swap c) := ⟨hr.1, hr.2.2.1, hr.2.1, fun e he => hr.2.2.2 e he.symm⟩
  have walk : ∀ {s d : Coord} {N : Net} {c : Correction} {p : List Coord},
      prepare E s d allow = .ok (.inr (N, c)) → Query (exactArith w none) E s d allow (.ok p) →
      IsWalk (RouteEdge E c) c.src c.dst p := by
    intro s d N c p hp h
    obtain ⟨ns, nd, g1, g2, g3, g4, -⟩ := prepare_inr hp
    obtain ⟨ns', nd', c', g1', g2', g3', g5⟩ :=
      C42_paths _ (exact_sound w none) E hg hord s d allow p h
    rw [g1] at g1'
    rw [g2] at g2'
    cases g1'
    cases g2'
    rw [g3] at g3'
    cases g3'
    rcases g5 with ⟨g5, -⟩ | ⟨-, g5⟩
    · exact absurd g5 g4
    · exact g5
  have w1 := C50_routes E hg c _ _ _ (walk hp h)
  have w2 := C50_routes E hg (Correction.swap c) _ _ _ (walk hp' h')
  apply le_antisymm
  · rw [← w2.2]
    exact C44_shortest E hg hord s d allow N c hp hr w h0 h1 p h _ w2.1
  · rw [← w1.2]
    exact C44_shortest E hg hord d s allow N' _ hp' hr' w h0 h1 p' h' _ w1.1

/-- The query of the example in the opposite direction is searched as well. -/
example : prepare exEnv exT exS false = .ok (.inr (.base exGraph, Correction.swap exFix)) := by
  have h1 : normalizeC exS = .ok exS := C01_normalize_id exS (by decide) (by decide)
  have h2 : normalizeC exT = .ok exT := C01_normalize_id exT (by decide) (by decide)
  unfold prepare
  rw [h1, h2]
  rfl

/-! ### C51 -/

/-- **C51** If nothing blocks the line between the corrected endpoints, the answer is exactly the
two endpoints. -/
theorem C51_direct (A : Arith D) (E : Env) (s d ns nd : Coord) (allow : Bool) (c : Correction)
    (hs : normalizeC s = .ok ns) (hd : normalizeC d = .ok nd) (hc : correct E ns nd allow = .ok c)
    (hb : ∀ x ∈ E.crossings ⟨c.src, c.dst⟩,
      (∃ e, c.srcEdge = some e ∧ x.sameAs e) ∨ (∃ e, c.dstEdge = some e ∧ x.sameAs e))
    (r : Res (List Coord)) : Query A E s d allow r ↔ r = .ok [c.src, c.dst] := by
  have hbl : blocking E c = [] := by
    unfold blocking
    rw [List.filter_eq_nil_iff]
    intro x hx
    rcases hb x hx with ⟨e, he, h⟩ | ⟨e, he, h⟩ <;> simp [he, notEdge, h]
  have : prepare E s d allow = .ok (.inl [c.src, c.dst]) := by
    unfold prepare
    rw [hs, Res.bind_ok, hd, Res.bind_ok, hc, Res.bind_ok, if_pos (by rw [hbl]; rfl)]
    rfl
  unfold Query
  rw [this]

/-- **C51** If something blocks it, the answer is never given without a search. -/
theorem C51_blocked (E : Env) (s d ns nd : Coord) (allow : Bool) (c : Correction)
    (hs : normalizeC s = .ok ns) (hd : normalizeC d = .ok nd) (hc : correct E ns nd allow = .ok c)
    (x : Seg) (hx : x ∈ E.crossings ⟨c.src, c.dst⟩) (h1 : ∀ e, c.srcEdge = some e → ¬ x.sameAs e)
    (h2 : ∀ e, c.dstEdge = some e → ¬ x.sameAs e) (p : List Coord) :
    prepare E s d allow ≠ .ok (.inl p) := by
  intro h
  obtain ⟨ns', nd', c', g1, g2, g3, g4, -⟩ := prepare_inl h
  rw [hs] at g1
  rw [hd] at g2
  cases g1
  cases g2
  rw [hc] at g3
  cases g3
  have : x ∈ blocking E c := by
    unfold blocking
    rw [List.mem_filter]
    refine ⟨hx, ?_⟩
    have key : ∀ o : Option Seg, (∀ e, o = some e → ¬ x.sameAs e) → notEdge x o = true := by
      intro o ho
      cases o with
      | none => rfl
      | some e => simpa [notEdge] using ho e rfl
    rw [key _ h1, key _ h2]
    rfl
  rw [g4] at this
  cases this

/-- Nothing is on land and nothing is in the way. -/
def exOpen : Env := { exEnv with crossings := fun _ => [] }

example : normalizeC exS = .ok exS ∧ normalizeC exT = .ok exT ∧
    correct exOpen exS exT false = .ok exFix ∧ exOpen.crossings ⟨exS, exT⟩ = [] :=
  ⟨C01_normalize_id exS (by decide) (by decide), C01_normalize_id exT (by decide) (by decide),
    rfl, rfl⟩

/-- **C44** The direct answer, taken the shorter way round, is no longer than any route. -/
theorem C44_direct (E : Env) (hg : UserGraph E.graph) (c : Correction) (hr : InRange E c)
    (route : List Coord) (h : IsWalk (RouteEdge E c) c.src c.dst route) :
    wrapDist c.src c.dst ≤ walkLength (legLength E) route :=
  (C52_admissible 1 none E hg c hr c.src route h).2.2

/-- **C47** The limit does not apply to direct answers: with a limit of 1° the code returns a
destination 4° away. -/
theorem C47_direct_false :
    ¬ ∀ (E : Env) (s d : Coord) (allow : Bool) (limit : ℝ) (path : List Coord),
      UserGraph E.graph → (∀ l, (E.ord l).Perm l) →
      Query (exactArith 1 (some limit)) E s d allow (.ok path) →
      ∀ v ∈ path.tail, ∀ u, path.head? = some u → wrapDist u v ≤ limit := by
  intro hall
  have h1 : normalizeC exS = .ok exS := C01_normalize_id exS (by decide) (by decide)
  have h2 : normalizeC exT = .ok exT := C01_normalize_id exT (by decide) (by decide)
  have hq : Query (exactArith 1 (some 1)) exOpen exS exT false (.ok [exS, exT]) :=
    (C51_direct _ exOpen exS exT exS exT false exFix h1 h2 rfl (fun x hx => by cases hx) _).2 rfl
  have := hall exOpen exS exT false 1 _ exGraph_user (fun l => List.Perm.refl l) hq exT
    (List.mem_singleton.2 rfl) exS rfl
  rw [wrapDist_val exS exT 4 (by decide) (by decide)] at this
  norm_num at this

/-- With a limit of 5° the search of the example still succeeds, with one of 3.5° it fails. -/
example : (∃ path, Query (exactArith 1 (some 5)) exEnv exS exT false (.ok path)) ∧
    ∀ r, Query (exactArith 1 (some 3.5)) exEnv exS exT false r → r = .error .exn := by
  have hord : ∀ l, (exEnv.ord l).Perm l := fun l => List.Perm.refl l
  constructor
  · have hA := exact_sound 1 (some 5)
    obtain ⟨⟨r, hq⟩, -⟩ := C43_outcome _ hA exEnv exGraph_user hord exS exT false
    obtain ⟨p, rfl⟩ := (C46_failure _ hA exEnv exGraph_user hord _ _ _ _ _ exPrepare).1
      ⟨_, exRoute exA rfl rfl, fun v hv => by
        rw [exact_heuristic]
        simp only [List.tail_cons, List.mem_cons, List.not_mem_nil, or_false] at hv
        rcases hv with rfl | rfl
        · change exceeds (some 5) (wrapDist exS exA) = false
          rw [wrapDist_val exS exA 3 (by decide) (by decide)]
          simp only [exceeds, decide_eq_false_iff_not]
          norm_num
        · change exceeds (some 5) (wrapDist exS exT) = false
          rw [wrapDist_val exS exT 4 (by decide) (by decide)]
          simp only [exceeds, decide_eq_false_iff_not]
          norm_num⟩ r hq
    exact ⟨p, hq⟩
  · refine (C46_failure _ (exact_sound 1 (some 3.5)) exEnv exGraph_user hord _ _ _ _ _
      exPrepare).2 ?_
    rintro ⟨route, hw, hfar⟩
    have hmem : exT ∈ route.tail := by
      obtain ⟨rest, rfl, hl, -⟩ := isWalk_cons.1 hw
      cases rest with
      | nil => exact absurd hl (by decide)
      | cons a t =>
        have hl' : (a :: t).getLast (List.cons_ne_nil _ _) = exT := by
          have hl : (a :: t).getLastD exFix.src = exT := hl
          rw [← hl, List.getLastD_eq_getLast?, List.getLast?_eq_some_getLast (List.cons_ne_nil _ _)]
          rfl
        rw [List.tail_cons, ← hl']
        exact List.getLast_mem _
    have := hfar exT hmem
    rw [exact_heuristic] at this
    change exceeds (some 3.5) (wrapDist exS exT) = false at this
    rw [wrapDist_val exS exT 4 (by decide) (by decide)] at this
    simp only [exceeds, decide_eq_false_iff_not] at this
    norm_num at this

/-! ### Real scans -/

theorem addDirected_plain (M : Modified) (a b : Coord) :
    ∃ M', M.addDirected a b false = .ok M' := by
  unfold Modified.addDirected
  by_cases h : a = b
  · exact ⟨_, if_pos h⟩
  · rw [if_neg h]
    dsimp only
    cases (M.ensure a).entry a b with
    | none => exact ⟨_, rfl⟩
    | some i => exact ⟨_, rfl⟩

theorem attach_ok (v : Coord) (edge : Option Seg) (he : ∀ e, edge = some e → e.p.Per ∧ e.q.Per)
    (vis : List (Coord × Bool)) (hv : ∀ x ∈ vis, x.1.Per ∧ x.2 = false) (M : Modified) :
    ∃ M', attach M v edge vis = .ok M' := by
  induction vis generalizing M with
  | nil => exact ⟨M, rfl⟩
  | cons x r ih =>
    have hr := ih fun y hy => hv y (List.mem_cons_of_mem _ hy)
    obtain ⟨hx1, hx2⟩ := hv x List.mem_cons_self
    have hm : ∃ b, mayLinkC edge x.1 = .ok b := by
      cases edge with
      | none => exact ⟨true, rfl⟩
      | some e =>
        obtain ⟨h1, h2⟩ := he e rfl
        refine ⟨e.orientPt x.1 != .counterClockwise, ?_⟩
        change (e.orientPtC x.1 >>= fun o => pure (o != .counterClockwise)) = _
        rw [Seg.orientPtC_ok h1 h2 hx1]
        rfl
    obtain ⟨b, hb⟩ := hm
    unfold attach
    rw [hb, Res.bind_ok]
    cases b with
    | false => exact hr M
    | true =>
      rw [if_pos rfl, hx2]
      unfold Modified.addEdge
      obtain ⟨M1, h1⟩ := addDirected_plain M v x.1
      obtain ⟨M2, h2⟩ := addDirected_plain M1 x.1 v
      rw [h1, Res.bind_ok, h2, Res.bind_ok]
      exact hr M2

/-- What a real scan of geographic polygons reports: their vertices, never across the meridian. -/
theorem reach_geo {ps : List (List Coord)} (hps : ∀ v ∈ ps.flatten, v.Geo)
    {reach : Coord → Res (List (Coord × Bool))} (h : IsReach ps reach) {e : Coord} (he : e.Per) :
    ∃ vis, reach e = .ok vis ∧ ∀ x ∈ vis, x.1 ∈ ps.flatten ∧ x.2 = false := by
  obtain ⟨m, segs, look, h1, h2, h3, h4⟩ := h e
  have hs : Setup ps m segs look := ⟨h1, h2, h3, fun v hv => (hps v hv).per⟩
  rw [C37_safe ps m segs look hs e he false] at h4
  refine ⟨_, h4, fun x hx => ?_⟩
  obtain ⟨raw, -, r2, r3⟩ := C33_reported ps m segs look hs e false
  obtain ⟨v, hv, hvx⟩ : ∃ v ∈ raw, ReportOf v x := by
    clear r2 h4
    generalize Vistree.visible look m segs e false = l at r3 hx
    induction r3 with
    | nil => cases hx
    | cons h _ ih =>
      rcases List.mem_cons.1 hx with rfl | hx
      · exact ⟨_, List.mem_cons_self, h⟩
      · obtain ⟨v, hv, h⟩ := ih hx
        exact ⟨v, List.mem_cons_of_mem _ hv, h⟩
  have hvp := (r2 v hv).1
  obtain ⟨g1, g2, -, -⟩ := hps v hvp
  obtain ⟨⟨q1, k, q2⟩, q3, q4, q5⟩ := hvx
  have hk : k = 0 := by omega
  subst hk
  have : x.1 = v := by
    cases hx1 : x.1 with
    | mk lon lat =>
      cases v with
      | mk lon' lat' =>
        rw [hx1] at q1 q2
        simp only at q1 q2
        rw [q1, q2]
        simp
  refine ⟨this ▸ hvp, ?_⟩
  cases hx2 : x.2 with
  | false => rfl
  | true =>
    have := q5.1 hx2
    omega

/-- **C42** With geographic polygons, the real visibility scan and in-range endpoints, the search
graph is always built: no exception, no overflow.  The range hypothesis of C44, C45, C47, C50 and
C52 is then met. -/
theorem C42_ready (E : Env) (ps : List (List Coord)) (hps : ∀ v ∈ ps.flatten, v.Geo)
    (hv : E.graph.verts = ps.flatten) (hr : IsReach ps E.reach) (c : Correction)
    (h1 : c.src.Geo) (h2 : c.dst.Geo) (h3 : ∀ e, c.srcEdge = some e → e.p.Per ∧ e.q.Per)
    (h4 : ∀ e, c.dstEdge = some e → e.p.Per ∧ e.q.Per) :
    (∃ N, net E c = .ok N) ∧ InRange E c := by
  have hend : ∀ (M : Modified) (v : Coord) (edge : Option Seg), v.Geo →
      (∀ e, edge = some e → e.p.Per ∧ e.q.Per) → ∃ M', addEndpoint E M v edge = .ok M' := by
    intro M v edge hvg he
    unfold addEndpoint
    by_cases hh : E.graph.hasVertex v = true
    · exact ⟨M, if_pos hh⟩
    · rw [if_neg hh]
      obtain ⟨vis, g1, g2⟩ := reach_geo hps hr hvg.per
      rw [g1, Res.bind_ok]
      exact attach_ok v edge he vis (fun x hx => ⟨(hps _ (g2 x hx).1).per, (g2 x hx).2⟩) _
  have near : ∀ v : Coord, v.Geo → Near v := by
    intro v ⟨g1, g2, _, _⟩
    exact ⟨by omega, by omega⟩
  refine ⟨?_, ?_, near _ h1, near _ h2, ?_⟩
  · unfold net
    by_cases hh : (E.graph.hasVertex c.src && E.graph.hasVertex c.dst) = true
    · exact ⟨_, if_pos hh⟩
    · rw [if_neg hh]
      obtain ⟨M1, g1⟩ := hend (Modified.ofGraph E.graph) c.src c.srcEdge h1 h3
      obtain ⟨M2, g2⟩ := hend M1 c.dst c.dstEdge h2 h4
      rw [g1, Res.bind_ok, g2, Res.bind_ok]
      exact ⟨_, rfl⟩
  · intro v hvv
    exact near v (hps v (hv ▸ hvv))
  · intro e he vis hvis x hx
    have heg : e.Geo := by rcases he with rfl | rfl <;> assumption
    obtain ⟨vis', g1, g2⟩ := reach_geo hps hr heg.per
    rw [hvis] at g1
    cases g1
    exact near _ (hps _ (g2 x hx).1)

/-- A square island, scanned for real; the line past it is blocked and neither endpoint is a vertex
of the stored graph, which holds the four sides. -/
def exIsland : Env where
  graph := ((Graph.ofPolygons [exSquare]).run
    [.add ⟨0, 0⟩ ⟨10, 0⟩ false, .add ⟨10, 0⟩ ⟨10, 10⟩ false, .add ⟨10, 10⟩ ⟨0, 10⟩ false,
      .add ⟨0, 10⟩ ⟨0, 0⟩ false]).toOption.getD Graph.empty
  onLand _ := false
  closest _ := .error .exn
  project _ c := .ok c
  crossings _ := [⟨⟨0, 0⟩, ⟨0, 10⟩⟩]
  reach obs := Vistree.scanC exLook (Vistree.ofPolygons [exSquare]) obs
    (Vistree.vertices (Vistree.ofPolygons [exSquare]))
    (Vistree.segments (Vistree.ofPolygons [exSquare])) false
  ord l := l

example : IsReach [exSquare] exIsland.reach ∧ exIsland.graph.verts = [exSquare].flatten ∧
    (∀ v ∈ [exSquare].flatten, v.Geo) ∧ (⟨-5, 5⟩ : Coord).Geo ∧ (⟨15, 5⟩ : Coord).Geo ∧
    exIsland.graph.hasVertex ⟨-5, 5⟩ = false :=
  ⟨fun _ => ⟨_, _, _, List.Perm.refl _, List.Perm.refl _, exLook_ok, rfl⟩, rfl, by decide,
    by decide, by decide, rfl⟩

end Capi
