import Verif.Lemmas.Comb
import Verif.Lemmas.Fused
import Verif.Props.ShortestPath
import Verif.Props.Graph

/-!
# C79: how much work the search does

The search keeps no list of finished vertices: a vertex goes back into the queue whenever a shorter
way to it is found.  With a weighting of at most 1 every edge still causes at most one insertion.
With a larger weighting this is wrong.
-/

namespace Capi

open ShortestPath

/-- **C79** With a weighting between 0 and 1, the number of insertions into the queue, which is the
number of iterations plus what is still queued, is at most one more than the number of legs, each
leg counted in both directions (in exact arithmetic, with any limit). -/
theorem C79_effort (E : Env) (hg : UserGraph E.graph) (hord : ∀ l, (E.ord l).Perm l)
    (s d : Coord) (allow : Bool) (N : Net) (c : Correction)
    (hp : prepare E s d allow = .ok (.inr (N, c))) (hr : InRange E c) (w : ℝ) (h0 : 0 ≤ w)
    (h1 : w ≤ 1) (limit : Option ℝ) (legs : Finset (Coord × Coord))
    (hlegs : ∀ u v, RouteEdge E c u v → (u, v) ∈ legs) (k : ℕ) (st : AStar.State Coord ℝ)
    (h : AStar.Exec (problem (exactArith w limit) E.ord N c.src c.dst) k st) :
    k + st.pq.length ≤ 1 + legs.card := by
  obtain ⟨-, -, -, -, -, -, h5⟩ := prepare_inr hp
  obtain ⟨vs, hvs⟩ := net_ok hg hord h5
  have hP := problem_real (N := N) E.ord c.src c.dst w limit
  obtain ⟨f, T, hT⟩ := AStar.exec_counted hP h0 h1 (hvs.within _)
    (fun u hu v hv => by
      have he := (hvs.mem_nbrs _ hu v).1 hv
      rw [problem_len hg hvs w limit he]
      exact C52_consistent E u v c.dst (route_near hg hr he) hr.2.2.1) h
  rw [hT.count]
  refine Nat.add_le_add_left (Finset.card_le_card fun p hp => ?_) 1
  obtain ⟨hp1, hp2⟩ := hT.edges p hp
  exact hlegs p.1 p.2 ((hvs.mem_nbrs _ hp1 p.2).1 hp2)

/-- **C79** With weighting 0 the bound holds for the rounded distances of the code as well, however
the compiler fuses the operations and whatever the square root returns, as long as it is not
negative. -/
theorem C79_plain (E : Env) (hg : UserGraph E.graph) (hord : ∀ l, (E.ord l).Perm l)
    (s d : Coord) (allow : Bool) (N : Net) (c : Correction)
    (hp : prepare E s d allow = .ok (.inr (N, c))) (sq : ℚ → Dbl) (hsq : ∀ x, 0 ≤ (sq x).1)
    (m : Contract) (fw : Bool) (w : Dbl) (hw : w.1 = 0) (limit : Option Dbl)
    (legs : Finset (Coord × Coord)) (hlegs : ∀ u v, RouteEdge E c u v → (u, v) ∈ legs) (k : ℕ)
    (st : AStar.State Coord Dbl)
    (h : AStar.Exec (problem (fusedArith sq m fw w limit) E.ord N c.src c.dst) k st) :
    k + st.pq.length ≤ 1 + legs.card := by
  obtain ⟨-, -, -, -, -, -, h5⟩ := prepare_inr hp
  obtain ⟨vs, hvs⟩ := net_ok hg hord h5
  have hA : (fusedArith sq m fw w limit).Sound := by
    constructor
    · intro d c
      change d.1 ≤ fl (d.1 + (sq _).1)
      have := fl_mono (show d.1 ≤ d.1 + (sq (c.magSqDegFused m)).1 by
        linarith [hsq (c.magSqDegFused m)])
      rwa [d.2] at this
    · intro d d' c hd
      change fl (d.1 + (sq _).1) ≤ fl (d'.1 + (sq _).1)
      have hd' : d.1 ≤ d'.1 := hd
      exact fl_mono (by linarith)
  have hz : ∀ d h : Dbl, (fusedArith sq m fw w limit).weigh d h = d := by
    intro d h
    apply Subtype.ext
    change (if fw then Dbl.round (d.1 + h.1 * w.1)
      else Dbl.round (d.1 + (Dbl.round (h.1 * w.1)).1)).1 = d.1
    rw [hw, mul_zero]
    have h0 : (Dbl.round 0).1 = 0 := fl_zero
    rw [h0, add_zero, ite_self]
    exact d.2
  obtain ⟨f, T, hT⟩ := AStar.exec_countedPlain (problem_monotone hA E.ord N c.src c.dst)
    (fun d d' u v => by simp only [problem, hz]) (hvs.within _) h
  rw [hT.count]
  refine Nat.add_le_add_left (Finset.card_le_card fun p hp => ?_) 1
  obtain ⟨hp1, hp2⟩ := hT.edges p hp
  exact hlegs p.1 p.2 ((hvs.mem_nbrs _ hp1 p.2).1 hp2)

/-- **C79** The search that always takes the first element of least priority is one of those
described by `Ends`, and it comes to an end within one iteration more than any bound on the
iterations. -/
theorem C79_runs {V D : Type} [DecidableEq V] [LinearOrder D] (P : AStar.Problem V D) :
    (∀ k st, AStar.searchFor P k (AStar.init P) = some st → AStar.Ends P st) ∧
      ∀ bound, (∀ k st, AStar.Exec P k st → k ≤ bound) →
        ∃ st, AStar.searchFor P (bound + 1) (AStar.init P) = some st := by
  have key : ∀ k j st, AStar.Exec P j st →
      (∀ st', AStar.searchFor P k st = some st' → AStar.Ends P st') ∧
        (AStar.searchFor P k st = none → ∃ st', AStar.Exec P (j + k) st') := by
    intro k
    induction k with
    | zero => exact fun j st h => ⟨fun _ h => (by cases h), fun _ => ⟨st, h⟩⟩
    | succ k ih =>
      intro j st h
      unfold AStar.searchFor
      cases hp : AStar.pick P st.pq with
      | none =>
        refine ⟨fun st' h' => ?_, fun h' => (by cases h')⟩
        cases h'
        refine .empty h ?_
        cases hq : st.pq with
        | nil => rfl
        | cons a r =>
          rw [hq] at hp
          unfold AStar.pick at hp
          cases hr : AStar.pick P r <;> rw [hr] at hp <;> simp only at hp
          · cases hp
          · split at hp <;> cases hp
      | some e =>
        have ht := AStar.pick_top P st.pq e hp
        simp only
        by_cases hd : e.node = P.dst
        · rw [if_pos hd]
          refine ⟨fun st' h' => ?_, fun h' => (by cases h')⟩
          cases h'
          exact .found h ht hd
        · rw [if_neg hd]
          have := ih (j + 1) _ (.step h ht hd)
          rwa [show j + 1 + k = j + (k + 1) by omega] at this
  refine ⟨fun k st h => (key k 0 _ .init).1 st h, fun bound hb => ?_⟩
  cases h : AStar.searchFor P (bound + 1) (AStar.init P) with
  | some st => exact ⟨st, rfl⟩
  | none =>
    obtain ⟨st, hst⟩ := (key (bound + 1) 0 _ .init).2 h
    have := hb _ st hst
    omega

/-- A triangle with a long side. -/
example :
    let P : AStar.Problem (Fin 3) ℕ :=
      ⟨fun v => [0, 1, 2].filter (· ≠ v), fun u v => if u.1 + v.1 = 2 then 9 else 2, (· + ·), 0,
        fun d _ => d, fun _ => false, 0, 2⟩
    ((AStar.searchFor P 4 (AStar.init P)).bind fun st => AStar.follow P.src st.prev 4 P.dst) =
      some (.ok [2, 1, 0]) := by decide

/-! ### Graphs on which the greedy search repeats its work

All vertices are on the equator.  From each vertex `a i` there are two ways to the next vertex
`a (i + 1)`: straight on by `q i`, and past the next vertex to `p i` and back.  The second way looks
better to a greedy search and is explored first, with everything behind it.  The destination can
only be reached by a vertex west of the source. -/

open AStar (aAt qAt pAt)

/-- The point of the equator at `x` microdegrees. -/
def onEq (x : ℤ) : Coord := ⟨x, 0⟩

/-- The destination. -/
def combEnd (n : ℕ) : ℤ := 9 * 2 ^ n + 1

/-- The legs of the graph with `n` stages. -/
def combLegs (n : ℕ) : List (ℤ × ℤ) :=
  (-1, 0) :: (-1, -2) :: (-2, combEnd n) :: (List.range n).flatMap fun i =>
    [(aAt n i, qAt n i), (qAt n i, aAt n (i + 1)), (aAt n i, pAt n i), (pAt n i, aAt n (i + 1))]

/-- The vertices of the graph with `n` stages. -/
def combVerts (n : ℕ) : List Coord :=
  (-1 :: -2 :: combEnd n :: ((List.range (n + 1)).map (aAt n) ++ (List.range n).map (qAt n) ++
    (List.range n).map (pAt n))).map onEq

def combOps (n : ℕ) : List Graph.Op :=
  (combLegs n).map fun p => .add (onEq p.1) (onEq p.2) false

theorem mem_combLegs {n : ℕ} {u v : ℤ} : (u, v) ∈ combLegs n ↔
    u = -1 ∧ v = 0 ∨ u = -1 ∧ v = -2 ∨ u = -2 ∧ v = combEnd n ∨ ∃ i < n,
      u = aAt n i ∧ v = qAt n i ∨ u = qAt n i ∧ v = aAt n (i + 1) ∨
        u = aAt n i ∧ v = pAt n i ∨ u = pAt n i ∧ v = aAt n (i + 1) := by
  simp only [combLegs, List.mem_cons, Prod.mk.injEq, List.mem_flatMap, List.mem_range,
    List.not_mem_nil, or_false]

theorem mem_combVerts {n : ℕ} {v : Coord} : v ∈ combVerts n ↔ ∃ x, v = onEq x ∧
    (x = -1 ∨ x = -2 ∨ x = combEnd n ∨ (∃ i ≤ n, x = aAt n i) ∨ (∃ i < n, x = qAt n i) ∨
      ∃ i < n, x = pAt n i) := by
  simp only [combVerts, List.mem_map, List.mem_cons, List.mem_append, List.mem_range,
    Nat.lt_succ_iff]
  constructor
  · rintro ⟨x, h, rfl⟩
    refine ⟨x, rfl, ?_⟩
    rcases h with h | h | h | (⟨i, h1, h2⟩ | ⟨i, h1, h2⟩) | ⟨i, h1, h2⟩
    · exact Or.inl h
    · exact Or.inr (Or.inl h)
    · exact Or.inr (Or.inr (Or.inl h))
    · exact Or.inr (Or.inr (Or.inr (Or.inl ⟨i, h1, h2.symm⟩)))
    · exact Or.inr (Or.inr (Or.inr (Or.inr (Or.inl ⟨i, h1, h2.symm⟩))))
    · exact Or.inr (Or.inr (Or.inr (Or.inr (Or.inr ⟨i, h1, h2.symm⟩))))
  · rintro ⟨x, rfl, h⟩
    refine ⟨x, ?_, rfl⟩
    rcases h with h | h | h | ⟨i, h1, h2⟩ | ⟨i, h1, h2⟩ | ⟨i, h1, h2⟩
    · exact Or.inl h
    · exact Or.inr (Or.inl h)
    · exact Or.inr (Or.inr (Or.inl h))
    · exact Or.inr (Or.inr (Or.inr (Or.inl (Or.inl ⟨i, h1, h2.symm⟩))))
    · exact Or.inr (Or.inr (Or.inr (Or.inl (Or.inr ⟨i, h1, h2.symm⟩))))
    · exact Or.inr (Or.inr (Or.inr (Or.inr ⟨i, h1, h2.symm⟩)))

theorem combLegs_verts {n : ℕ} {u v : ℤ} (h : (u, v) ∈ combLegs n) :
    onEq u ∈ combVerts n ∧ onEq v ∈ combVerts n := by
  have h0 : (0 : ℤ) = aAt n 0 := by unfold aAt; simp
  have A : ∀ i ≤ n, onEq (aAt n i) ∈ combVerts n := fun i hi =>
    mem_combVerts.2 ⟨_, rfl, Or.inr (Or.inr (Or.inr (Or.inl ⟨i, hi, rfl⟩)))⟩
  have Q : ∀ i < n, onEq (qAt n i) ∈ combVerts n := fun i hi =>
    mem_combVerts.2 ⟨_, rfl, Or.inr (Or.inr (Or.inr (Or.inr (Or.inl ⟨i, hi, rfl⟩))))⟩
  have B : ∀ i < n, onEq (pAt n i) ∈ combVerts n := fun i hi =>
    mem_combVerts.2 ⟨_, rfl, Or.inr (Or.inr (Or.inr (Or.inr (Or.inr ⟨i, hi, rfl⟩))))⟩
  have S : onEq (-1) ∈ combVerts n := mem_combVerts.2 ⟨_, rfl, Or.inl rfl⟩
  have Z : onEq (-2) ∈ combVerts n := mem_combVerts.2 ⟨_, rfl, Or.inr (Or.inl rfl)⟩
  have T : onEq (combEnd n) ∈ combVerts n :=
    mem_combVerts.2 ⟨_, rfl, Or.inr (Or.inr (Or.inl rfl))⟩
  rcases mem_combLegs.1 h with ⟨rfl, rfl⟩ | ⟨rfl, rfl⟩ | ⟨rfl, rfl⟩ | ⟨i, hi, h⟩
  · exact ⟨S, h0 ▸ A 0 (Nat.zero_le n)⟩
  · exact ⟨S, Z⟩
  · exact ⟨Z, T⟩
  · rcases h with ⟨rfl, rfl⟩ | ⟨rfl, rfl⟩ | ⟨rfl, rfl⟩ | ⟨rfl, rfl⟩
    · exact ⟨A i hi.le, Q i hi⟩
    · exact ⟨Q i hi, A (i + 1) hi⟩
    · exact ⟨A i hi.le, B i hi⟩
    · exact ⟨B i hi, A (i + 1) hi⟩

theorem combOps_on (n : ℕ) : OpsOn [combVerts n].flatten (combOps n) := by
  intro o ho c hc
  obtain ⟨⟨u, v⟩, hp, rfl⟩ := List.mem_map.1 ho
  obtain ⟨h1, h2⟩ := combLegs_verts hp
  simp only [opCoords, List.mem_cons, List.not_mem_nil, or_false] at hc
  simp only [List.flatten_cons, List.flatten_nil, List.append_nil]
  rcases hc with rfl | rfl
  · exact h1
  · exact h2

theorem live_adds (legs : List (ℤ × ℤ)) (u v : ℤ) (m : Bool) :
    Live (history (legs.map fun p => .add (onEq p.1) (onEq p.2) false)) (onEq u) (onEq v) m ↔
      m = false ∧ ((u, v) ∈ legs ∨ (v, u) ∈ legs) := by
  have hmem : ∀ e, e ∈ history (legs.map fun p => .add (onEq p.1) (onEq p.2) false) ↔
      ∃ p ∈ legs, e = .added (onEq p.1) (onEq p.2) false ∨
        e = .added (onEq p.2) (onEq p.1) false := by
    intro e
    simp only [history, List.mem_flatMap, List.mem_map, exists_exists_and_eq_and, eventsOf,
      List.mem_cons, List.not_mem_nil, or_false]
  constructor
  · rintro ⟨pre, post, h, -⟩
    have : Event.added (onEq u) (onEq v) m ∈
        history (legs.map fun p => .add (onEq p.1) (onEq p.2) false) := by
      rw [h]; simp
    obtain ⟨⟨a, b⟩, hp, he | he⟩ := (hmem _).1 this
    · simp only [onEq, Event.added.injEq, Coord.mk.injEq, and_true] at he
      obtain ⟨rfl, rfl, rfl⟩ := he
      exact ⟨rfl, Or.inl hp⟩
    · simp only [onEq, Event.added.injEq, Coord.mk.injEq, and_true] at he
      obtain ⟨rfl, rfl, rfl⟩ := he
      exact ⟨rfl, Or.inr hp⟩
  · rintro ⟨rfl, h⟩
    have : Event.added (onEq u) (onEq v) false ∈
        history (legs.map fun p => .add (onEq p.1) (onEq p.2) false) := by
      rcases h with h | h
      · exact (hmem _).2 ⟨_, h, Or.inl rfl⟩
      · exact (hmem _).2 ⟨_, h, Or.inr rfl⟩
    obtain ⟨pre, post, h2⟩ := List.append_of_mem this
    refine ⟨pre, post, h2, fun hr => ?_⟩
    have : Event.removed (onEq u) (onEq v) ∈
        history (legs.map fun p => .add (onEq p.1) (onEq p.2) false) := by
      rw [h2]; simp [hr]
    obtain ⟨p, -, he | he⟩ := (hmem _).1 this <;> cases he

theorem planeDist_flat (a b : Coord) (ha : a.lat = 0) (hb : b.lat = 0) :
    planeDist a b 0 = ((|a.lon - b.lon| : ℤ) : ℝ) / 1000000 := by
  unfold planeDist
  rw [ha, hb]
  simp only [zero_mul, add_zero, sub_self, Int.cast_zero, ne_eq, OfNat.ofNat_ne_zero,
    not_false_eq_true, zero_pow, Real.sqrt_sq_eq_abs, Int.cast_abs]

theorem wrapDist_flat (a b : Coord) (ha : a.lat = 0) (hb : b.lat = 0)
    (hl : |a.lon - b.lon| ≤ 180000000) :
    wrapDist a b = ((|a.lon - b.lon| : ℤ) : ℝ) / 1000000 := by
  have hb' := abs_le.1 hl
  have far : ∀ k : ℤ, k = 1 ∨ k = -1 → planeDist a b 0 ≤ planeDist a b k := by
    intro k hk
    unfold planeDist
    apply div_le_div_of_nonneg_right _ (by norm_num)
    apply Real.sqrt_le_sqrt
    have : (a.lon + 0 * 360000001 - b.lon) ^ 2 ≤ (a.lon + k * 360000001 - b.lon) ^ 2 := by
      rcases hk with rfl | rfl <;> nlinarith
    have h2 : ((a.lon + 0 * 360000001 - b.lon : ℤ) : ℝ) ^ 2 ≤
        ((a.lon + k * 360000001 - b.lon : ℤ) : ℝ) ^ 2 := by exact_mod_cast this
    linarith
  unfold wrapDist
  rw [min_eq_left (le_min (far 1 (Or.inl rfl)) (far (-1) (Or.inr rfl)))]
  exact planeDist_flat a b ha hb

theorem combLegs_ne {n : ℕ} {u v : ℤ} (h : (u, v) ∈ combLegs n) : u ≠ v := by
  have hp : (0 : ℤ) < 2 ^ n := by positivity
  rcases mem_combLegs.1 h with ⟨rfl, rfl⟩ | ⟨rfl, rfl⟩ | ⟨rfl, rfl⟩ | ⟨i, hi, h⟩
  · decide
  · decide
  · unfold combEnd; omega
  · rcases h with ⟨rfl, rfl⟩ | ⟨rfl, rfl⟩ | ⟨rfl, rfl⟩ | ⟨rfl, rfl⟩
    · exact AStar.aAt_ne_qAt n i i
    · exact (AStar.aAt_ne_qAt n (i + 1) i).symm
    · exact AStar.aAt_ne_pAt i hi
    · exact (AStar.aAt_ne_pAt (i + 1) hi).symm

/-- The graph with `n` stages. -/
structure IsComb (n : ℕ) (g : Graph) : Prop where
  user : UserGraph g
  verts : g.verts = combVerts n
  edge : ∀ u v, g.hasEdge u v = .ok true ↔
    ∃ x y, u = onEq x ∧ v = onEq y ∧ ((x, y) ∈ combLegs n ∨ (y, x) ∈ combLegs n)
  plain : ∀ u v, g.hasEdge u v = .ok true → g.isCrossing u v = .ok false
  nbrs : ∀ u ∈ combVerts n, ∃ ns, g.neighbors u = .ok ns ∧ ∀ v, v ∈ ns ↔ g.hasEdge u v = .ok true

theorem comb_graph (n : ℕ) : ∃ g, IsComb n g := by
  obtain ⟨g, h1, h2⟩ := C17_history [combVerts n] (combOps n) (combOps_on n)
  obtain ⟨g', h1', -, h3⟩ := (Graph.ok_fresh [combVerts n]).run (combOps n) (combOps_on n)
  have : g' = g := by rw [h1] at h1'; exact (Except.ok.inj h1').symm
  subst this
  have hv : g'.verts = combVerts n := by
    have := h3.verts
    simpa using this
  have hu : UserGraph g' := by
    refine ⟨[combVerts n], combOps n, fun o ho => ?_, combOps_on n, h1⟩
    obtain ⟨p, -, rfl⟩ := List.mem_map.1 ho
    trivial
  have hflat : [combVerts n].flatten = combVerts n := by simp
  rw [hflat] at h2
  have hin : ∀ u ∈ combVerts n, ∃ x, u = onEq x := fun u h => by
    obtain ⟨x, rfl, -⟩ := mem_combVerts.1 h
    exact ⟨x, rfl⟩
  refine ⟨g', hu, hv, fun u v => ⟨fun h => ?_, ?_⟩, fun u v h => ?_, fun u hm => ?_⟩
  · obtain ⟨hne, hu1, hv1⟩ := hasEdge_verts hu.regular.built.shape h
    rw [hv] at hu1 hv1
    obtain ⟨m, hl⟩ := (h2 u v hu1 hv1 hne).1.1 h
    obtain ⟨x, rfl⟩ := hin u hu1
    obtain ⟨y, rfl⟩ := hin v hv1
    exact ⟨x, y, rfl, rfl, ((live_adds _ x y m).1 hl).2⟩
  · rintro ⟨x, y, rfl, rfl, h⟩
    have hxy : x ≠ y ∧ onEq x ∈ combVerts n ∧ onEq y ∈ combVerts n := by
      rcases h with h | h
      · exact ⟨combLegs_ne h, combLegs_verts h⟩
      · exact ⟨(combLegs_ne h).symm, (combLegs_verts h).symm⟩
    refine (h2 _ _ hxy.2.1 hxy.2.2 fun he => hxy.1 (congrArg Coord.lon he)).1.2 ⟨false, ?_⟩
    exact (live_adds _ x y false).2 ⟨rfl, h⟩
  · obtain ⟨hne, hu1, hv1⟩ := hasEdge_verts hu.regular.built.shape h
    rw [hv] at hu1 hv1
    refine (h2 u v hu1 hv1 hne).2.2.2.2 ?_
    rintro ⟨⟨m, hl⟩, hall⟩
    have hm := hall m hl
    obtain ⟨x, rfl⟩ := hin u hu1
    obtain ⟨y, rfl⟩ := hin v hv1
    rw [((live_adds _ x y m).1 hl).1] at hm
    cases hm
  · obtain ⟨g'', ns, h4, h5, -, h6⟩ := C19_neighbors [combVerts n] (combOps n)
      (fun o ho => by obtain ⟨p, -, rfl⟩ := List.mem_map.1 ho; trivial) (combOps_on n) u
      (by rw [hflat]; exact hm)
    have : g'' = g' := by rw [h1] at h4; exact (Except.ok.inj h4).symm
    subst this
    exact ⟨ns, h5, h6⟩

/-- Nothing is on land and the direct line is blocked. -/
def combEnv (g : Graph) : Env where
  graph := g
  onLand _ := false
  closest _ := .error .exn
  project _ c := .ok c
  crossings _ := [⟨⟨1, 1⟩, ⟨1, -1⟩⟩]
  reach _ := .ok []
  ord l := l

def combFix (n : ℕ) : Correction := ⟨onEq (-1), onEq (combEnd n), none, none⟩

theorem combEnd_le {n : ℕ} (hn : n ≤ 24) : combEnd n ≤ 150994945 := by
  have : (2 : ℤ) ^ n ≤ 2 ^ 24 := pow_le_pow_right₀ (by norm_num) hn
  unfold combEnd
  norm_num at this ⊢
  omega

theorem combVerts_flat {n : ℕ} {v : Coord} (h : v ∈ combVerts n) :
    v.lat = 0 ∧ -2 ≤ v.lon ∧ v.lon ≤ combEnd n := by
  have hp : (0 : ℤ) < 2 ^ n := by positivity
  obtain ⟨x, rfl, hx⟩ := mem_combVerts.1 h
  refine ⟨rfl, ?_⟩
  change -2 ≤ x ∧ x ≤ combEnd n
  have hT : combEnd n = 9 * 2 ^ n + 1 := rfl
  rcases hx with rfl | rfl | rfl | ⟨i, hi, rfl⟩ | ⟨i, hi, rfl⟩ | ⟨i, hi, rfl⟩
  · omega
  · omega
  · omega
  · have := (AStar.at_bounds (n := n) (i := i)).1; omega
  · have := (AStar.at_bounds (n := n) (i := i)).2.1; omega
  · have := (AStar.at_bounds (n := n) (i := i)).2.2 hi; omega

section

variable {n : ℕ} {g : Graph}

theorem comb_prepare (hn : n ≤ 24) (hG : IsComb n g) :
    prepare (combEnv g) (onEq (-1)) (onEq (combEnd n)) false =
      .ok (.inr (.base g, combFix n)) := by
  have hp : (0 : ℤ) < 2 ^ n := by positivity
  have hT := combEnd_le hn
  have hT0 : 0 < combEnd n := by unfold combEnd; omega
  have h1 : normalizeC (onEq (-1)) = .ok (onEq (-1)) :=
    C01_normalize_id _ (by decide) (by decide)
  have h2 : normalizeC (onEq (combEnd n)) = .ok (onEq (combEnd n)) :=
    C01_normalize_id _ (by change -180000000 ≤ combEnd n; omega)
      (by change combEnd n ≤ 180000000; omega)
  have hvx : ∀ x, onEq x ∈ combVerts n → g.hasVertex (onEq x) = true := by
    intro x hx
    obtain ⟨i, hi, -⟩ := hG.user.regular.built.shape.known (hG.verts ▸ hx)
    unfold Graph.hasVertex
    rw [hi]
    rfl
  have v1 := hvx (-1) (mem_combVerts.2 ⟨_, rfl, Or.inl rfl⟩)
  have v2 := hvx (combEnd n) (mem_combVerts.2 ⟨_, rfl, Or.inr (Or.inr (Or.inl rfl))⟩)
  have hnet : net (combEnv g) (combFix n) = .ok (.base g) := by
    unfold net
    have : ((combEnv g).graph.hasVertex (combFix n).src &&
        (combEnv g).graph.hasVertex (combFix n).dst) = true := by
      change (g.hasVertex (onEq (-1)) && g.hasVertex (onEq (combEnd n))) = true
      rw [v1, v2]
      rfl
    rw [if_pos this]
    rfl
  unfold prepare
  rw [h1, h2]
  change (do let N ← net (combEnv g) (combFix n); pure (Sum.inr (N, combFix n))) = _
  rw [hnet]
  rfl

theorem comb_range (hn : n ≤ 24) (hG : IsComb n g) :
    InRange (combEnv g) (combFix n) := by
  have hT := combEnd_le hn
  have hnear : ∀ v ∈ combVerts n, Near v := by
    intro v h
    obtain ⟨-, h1, h2⟩ := combVerts_flat h
    unfold Near
    omega
  refine ⟨fun v h => hnear v (hG.verts ▸ h), hnear _ (mem_combVerts.2 ⟨_, rfl, Or.inl rfl⟩),
    hnear _ (mem_combVerts.2 ⟨_, rfl, Or.inr (Or.inr (Or.inl rfl))⟩), ?_⟩
  intro e _ vis h x hx
  cases h
  cases hx

/-- The search in whole microdegrees. -/
def combWhole (n : ℕ) (g : Graph) : AStar.Problem Coord ℤ where
  nbrs v := ((Net.base g).neighbors (combEnv g).ord v).toOption.getD []
  len u v := |v.lon - u.lon|
  add x y := x + y
  zero := 0
  prio d v := d + |v.lon - combEnd n| * 2
  tooFar _ := false
  src := onEq (-1)
  dst := onEq (combEnd n)

/-- The legs of the search are the legs of the graph. -/
theorem comb_route (hG : IsComb n g) (u v : Coord) :
    RouteEdge (combEnv g) (combFix n) u v ↔ g.hasEdge u v = .ok true := by
  have hno : ∀ x edge, onEq x ∈ combVerts n → ∀ t, ¬ Linked (combEnv g) (onEq x) edge t := by
    intro x edge hx t h
    obtain ⟨i, hi, -⟩ := hG.user.regular.built.shape.known (hG.verts ▸ hx)
    have h1 : g.hasVertex (onEq x) = false := h.1
    unfold Graph.hasVertex at h1
    rw [hi] at h1
    cases h1
  have v1 : onEq (-1) ∈ combVerts n := mem_combVerts.2 ⟨_, rfl, Or.inl rfl⟩
  have v2 : onEq (combEnd n) ∈ combVerts n :=
    mem_combVerts.2 ⟨_, rfl, Or.inr (Or.inr (Or.inl rfl))⟩
  constructor
  · rintro (h | h | h | h | h)
    · exact h
    · exact absurd h.2 (hno _ _ v1 _)
    · exact absurd h.2 (hno _ _ v1 _)
    · exact absurd h.2 (hno _ _ v2 _)
    · exact absurd h.2 (hno _ _ v2 _)
  · exact Or.inl

theorem comb_nbrs (hG : IsComb n g) {x : ℤ} (hx : onEq x ∈ combVerts n) (v : Coord) :
    v ∈ (combWhole n g).nbrs (onEq x) ↔
      ∃ y, v = onEq y ∧ ((x, y) ∈ combLegs n ∨ (y, x) ∈ combLegs n) := by
  obtain ⟨ns, h1, h2⟩ := hG.nbrs _ hx
  have : (combWhole n g).nbrs (onEq x) = ns := by
    change (g.neighbors (onEq x)).toOption.getD [] = ns
    rw [h1]
    rfl
  rw [this, h2, hG.edge]
  constructor
  · rintro ⟨x', y, h3, rfl, h4⟩
    have : x = x' := congrArg Coord.lon h3
    subst this
    exact ⟨y, rfl, h4⟩
  · rintro ⟨y, rfl, h⟩
    exact ⟨x, y, rfl, rfl, h⟩

/-- The search in whole microdegrees is the search in degrees. -/
theorem comb_same (hn : n ≤ 24) (hG : IsComb n g) : AStar.Same (combWhole n g)
    (problem (exactArith 2 none) (combEnv g).ord (.base g) (onEq (-1)) (onEq (combEnd n)))
    (fun z : ℤ => (z : ℝ) / 1000000) (· ∈ combVerts n) where
  src := rfl
  dst := rfl
  start := mem_combVerts.2 ⟨_, rfl, Or.inl rfl⟩
  nbrs u hu := by
    refine ⟨rfl, fun m hm => ?_⟩
    obtain ⟨x, rfl, -⟩ := mem_combVerts.1 hu
    obtain ⟨y, rfl, h | h⟩ := (comb_nbrs hG hu m).1 hm
    · exact (combLegs_verts h).2
    · exact (combLegs_verts h).1
  len u hu m hm := by
    obtain ⟨x, rfl, -⟩ := mem_combVerts.1 hu
    obtain ⟨y, rfl, h⟩ := (comb_nbrs hG hu m).1 hm
    have h2 := hG.plain _ _ ((hG.edge _ _).2 ⟨x, y, rfl, rfl, h⟩)
    change distance (exactArith 2 none) (onEq y) (onEq x)
      ((g.isCrossing (onEq x) (onEq y)).toOption.getD false) = _
    rw [h2, exact_distance]
    exact planeDist_flat (onEq y) (onEq x) rfl rfl
  add x y := by
    change (x : ℝ) / 1000000 + (y : ℝ) / 1000000 = ((x + y : ℤ) : ℝ) / 1000000
    push_cast
    ring
  zero := by
    change (0 : ℝ) = ((0 : ℤ) : ℝ) / 1000000
    simp
  le x y := by
    rw [div_le_div_iff_of_pos_right (by norm_num)]
    exact Int.cast_le
  prio x u y v hu hv := by
    have hT := combEnd_le hn
    have hh : ∀ t ∈ combVerts n, ∀ z : ℤ,
        (problem (exactArith 2 none) (combEnv g).ord (.base g) (onEq (-1))
          (onEq (combEnd n))).prio ((z : ℝ) / 1000000) t =
          ((z + |t.lon - combEnd n| * 2 : ℤ) : ℝ) / 1000000 := by
      intro t ht z
      obtain ⟨h1, h2, h3⟩ := combVerts_flat ht
      change (z : ℝ) / 1000000 + heuristic (exactArith 2 none) t (onEq (combEnd n)) * 2 = _
      have hl : |t.lon - (onEq (combEnd n)).lon| ≤ 180000000 := by
        change |t.lon - combEnd n| ≤ 180000000
        rw [abs_le]
        omega
      rw [exact_heuristic, wrapDist_flat t (onEq (combEnd n)) h1 rfl hl]
      have : (onEq (combEnd n)).lon = combEnd n := rfl
      rw [this]
      push_cast
      ring
    rw [hh u hu, hh v hv, div_lt_div_iff_of_pos_right (by norm_num), Int.cast_lt]
    rfl
  tooFar m _ := rfl

theorem adj_q {i : ℕ} (hi : i < n) (y : ℤ) :
    ((qAt n i, y) ∈ combLegs n ∨ (y, qAt n i) ∈ combLegs n) ↔
      y = aAt n i ∨ y = aAt n (i + 1) := by
  obtain ⟨-, ⟨b1, b2⟩, -⟩ := AStar.at_bounds (n := n) (i := i)
  have hT : combEnd n = 9 * 2 ^ n + 1 := rfl
  have h0 : qAt n i ≠ 0 := by
    unfold qAt aAt; omega
  rw [mem_combLegs, mem_combLegs]
  constructor
  · rintro ((⟨h, -⟩ | ⟨h, -⟩ | ⟨h, -⟩ | ⟨j, hj, h⟩) | (⟨-, h⟩ | ⟨-, h⟩ | ⟨-, h⟩ | ⟨j, hj, h⟩))
    · omega
    · omega
    · omega
    · rcases h with ⟨h, -⟩ | ⟨h, h'⟩ | ⟨h, -⟩ | ⟨h, -⟩
      · exact absurd h.symm (AStar.aAt_ne_qAt n j i)
      · rw [AStar.qAt_inj hi.le hj.le h]; exact Or.inr h'
      · exact absurd h.symm (AStar.aAt_ne_qAt n j i)
      · exact absurd h (AStar.qAt_ne_pAt i hj)
    · exact absurd h h0
    · omega
    · omega
    · rcases h with ⟨h', h⟩ | ⟨-, h⟩ | ⟨-, h⟩ | ⟨-, h⟩
      · rw [AStar.qAt_inj hi.le hj.le h]; exact Or.inl h'
      · exact absurd h.symm (AStar.aAt_ne_qAt n (j + 1) i)
      · exact absurd h (AStar.qAt_ne_pAt i hj)
      · exact absurd h.symm (AStar.aAt_ne_qAt n (j + 1) i)
  · rintro (rfl | rfl)
    · exact Or.inr (Or.inr (Or.inr (Or.inr ⟨i, hi, Or.inl ⟨rfl, rfl⟩⟩)))
    · exact Or.inl (Or.inr (Or.inr (Or.inr ⟨i, hi, Or.inr (Or.inl ⟨rfl, rfl⟩)⟩)))

theorem adj_p {i : ℕ} (hi : i < n) (y : ℤ) :
    ((pAt n i, y) ∈ combLegs n ∨ (y, pAt n i) ∈ combLegs n) ↔
      y = aAt n i ∨ y = aAt n (i + 1) := by
  obtain ⟨b1, b2⟩ := (AStar.at_bounds (n := n) (i := i)).2.2 hi
  have hT : combEnd n = 9 * 2 ^ n + 1 := rfl
  have h00 : aAt n 0 = 0 := by unfold aAt; simp
  have h0 : pAt n i ≠ 0 := by
    rw [← h00]
    exact (AStar.aAt_ne_pAt 0 hi).symm
  rw [mem_combLegs, mem_combLegs]
  constructor
  · rintro ((⟨h, -⟩ | ⟨h, -⟩ | ⟨h, -⟩ | ⟨j, hj, h⟩) | (⟨-, h⟩ | ⟨-, h⟩ | ⟨-, h⟩ | ⟨j, hj, h⟩))
    · omega
    · omega
    · omega
    · rcases h with ⟨h, -⟩ | ⟨h, -⟩ | ⟨h, -⟩ | ⟨h, h'⟩
      · exact absurd h.symm (AStar.aAt_ne_pAt j hi)
      · exact absurd h.symm (AStar.qAt_ne_pAt j hi)
      · exact absurd h.symm (AStar.aAt_ne_pAt j hi)
      · rw [AStar.pAt_inj hi hj h]; exact Or.inr h'
    · exact absurd h h0
    · omega
    · omega
    · rcases h with ⟨-, h⟩ | ⟨-, h⟩ | ⟨h', h⟩ | ⟨-, h⟩
      · exact absurd h.symm (AStar.qAt_ne_pAt j hi)
      · exact absurd h.symm (AStar.aAt_ne_pAt (j + 1) hi)
      · rw [AStar.pAt_inj hi hj h]; exact Or.inl h'
      · exact absurd h.symm (AStar.aAt_ne_pAt (j + 1) hi)
  · rintro (rfl | rfl)
    · exact Or.inr (Or.inr (Or.inr (Or.inr ⟨i, hi, Or.inr (Or.inr (Or.inl ⟨rfl, rfl⟩))⟩)))
    · exact Or.inl (Or.inr (Or.inr (Or.inr ⟨i, hi, Or.inr (Or.inr (Or.inr ⟨rfl, rfl⟩))⟩)))

theorem adj_a {i : ℕ} (hi : i ≤ n) (y : ℤ) :
    ((aAt n i, y) ∈ combLegs n ∨ (y, aAt n i) ∈ combLegs n) ↔
      i = 0 ∧ y = -1 ∨ (∃ j, i = j + 1 ∧ (y = qAt n j ∨ y = pAt n j)) ∨
        i < n ∧ (y = qAt n i ∨ y = pAt n i) := by
  obtain ⟨⟨b1, b2⟩, -⟩ := AStar.at_bounds (n := n) (i := i)
  have hT : combEnd n = 9 * 2 ^ n + 1 := rfl
  have h00 : aAt n 0 = 0 := by unfold aAt; simp
  rw [mem_combLegs, mem_combLegs]
  constructor
  · rintro ((⟨h, -⟩ | ⟨h, -⟩ | ⟨h, -⟩ | ⟨j, hj, h⟩) | (⟨h', h⟩ | ⟨-, h⟩ | ⟨-, h⟩ | ⟨j, hj, h⟩))
    · omega
    · omega
    · omega
    · rcases h with ⟨h, h'⟩ | ⟨h, -⟩ | ⟨h, h'⟩ | ⟨h, -⟩
      · rw [AStar.aAt_inj hi hj.le h]; exact Or.inr (Or.inr ⟨hj, Or.inl h'⟩)
      · exact absurd h (AStar.aAt_ne_qAt n i j)
      · rw [AStar.aAt_inj hi hj.le h]; exact Or.inr (Or.inr ⟨hj, Or.inr h'⟩)
      · exact absurd h (AStar.aAt_ne_pAt i hj)
    · exact Or.inl ⟨AStar.aAt_inj hi (Nat.zero_le n) (by rw [h, h00]), h'⟩
    · omega
    · omega
    · rcases h with ⟨-, h⟩ | ⟨h', h⟩ | ⟨-, h⟩ | ⟨h', h⟩
      · exact absurd h (AStar.aAt_ne_qAt n i j)
      · exact Or.inr (Or.inl ⟨j, AStar.aAt_inj hi hj h, Or.inl h'⟩)
      · exact absurd h (AStar.aAt_ne_pAt i hj)
      · exact Or.inr (Or.inl ⟨j, AStar.aAt_inj hi hj h, Or.inr h'⟩)
  · rintro (⟨rfl, rfl⟩ | ⟨j, rfl, rfl | rfl⟩ | ⟨h, rfl | rfl⟩)
    · exact Or.inr (Or.inl ⟨rfl, h00⟩)
    · exact Or.inr (Or.inr (Or.inr (Or.inr ⟨j, hi, Or.inr (Or.inl ⟨rfl, rfl⟩)⟩)))
    · exact Or.inr (Or.inr (Or.inr (Or.inr ⟨j, hi, Or.inr (Or.inr (Or.inr ⟨rfl, rfl⟩))⟩)))
    · exact Or.inl (Or.inr (Or.inr (Or.inr ⟨i, h, Or.inl ⟨rfl, rfl⟩⟩)))
    · exact Or.inl (Or.inr (Or.inr (Or.inr ⟨i, h, Or.inr (Or.inr (Or.inl ⟨rfl, rfl⟩))⟩)))

theorem adj_s (y : ℤ) :
    ((-1, y) ∈ combLegs n ∨ (y, -1) ∈ combLegs n) ↔ y = 0 ∨ y = -2 := by
  have hT : combEnd n = 9 * 2 ^ n + 1 := rfl
  have hp : (0 : ℤ) < 2 ^ n := by positivity
  have hb := fun j => AStar.at_bounds (n := n) (i := j)
  rw [mem_combLegs, mem_combLegs]
  constructor
  · rintro ((⟨-, h⟩ | ⟨-, h⟩ | ⟨h, -⟩ | ⟨j, hj, h⟩) | (⟨-, h⟩ | ⟨-, h⟩ | ⟨-, h⟩ | ⟨j, hj, h⟩))
    · exact Or.inl h
    · exact Or.inr h
    · omega
    · have h1 := (hb j).1; have h2 := (hb j).2.1; have h3 := (hb j).2.2 hj
      rcases h with ⟨h, -⟩ | ⟨h, -⟩ | ⟨h, -⟩ | ⟨h, -⟩ <;> omega
    · omega
    · omega
    · omega
    · have h1 := (hb (j + 1)).1; have h2 := (hb j).2.1; have h3 := (hb j).2.2 hj
      rcases h with ⟨-, h⟩ | ⟨-, h⟩ | ⟨-, h⟩ | ⟨-, h⟩ <;> omega
  · rintro (rfl | rfl)
    · exact Or.inl (Or.inl ⟨rfl, rfl⟩)
    · exact Or.inl (Or.inr (Or.inl ⟨rfl, rfl⟩))

theorem onEq_inj {x y : ℤ} : onEq x = onEq y ↔ x = y :=
  ⟨fun h => congrArg Coord.lon h, fun h => by rw [h]⟩

theorem comb_is (h0 : 0 < n) (hG : IsComb n g) : AStar.Comb (combWhole n g) n (combEnd n)
    Coord.lon (fun i => onEq (aAt n i)) (fun i => onEq (qAt n i)) (fun i => onEq (pAt n i))
    (onEq (-2)) where
  add _ _ := rfl
  zero := rfl
  len _ _ := rfl
  prio _ _ := rfl
  near _ := rfl
  xa _ _ := rfl
  xq _ _ := rfl
  xp _ _ := rfl
  xs := rfl
  xz := rfl
  xt := rfl
  big := by unfold combEnd; omega
  pos := h0
  nq i hi m := by
    rw [comb_nbrs hG (mem_combVerts.2
      ⟨_, rfl, Or.inr (Or.inr (Or.inr (Or.inr (Or.inl ⟨i, hi, rfl⟩))))⟩)]
    simp only [adj_q hi]
    constructor
    · rintro ⟨y, rfl, rfl | rfl⟩
      · exact Or.inl rfl
      · exact Or.inr rfl
    · rintro (rfl | rfl)
      · exact ⟨_, rfl, Or.inl rfl⟩
      · exact ⟨_, rfl, Or.inr rfl⟩
  np i hi m := by
    rw [comb_nbrs hG (mem_combVerts.2
      ⟨_, rfl, Or.inr (Or.inr (Or.inr (Or.inr (Or.inr ⟨i, hi, rfl⟩))))⟩)]
    simp only [adj_p hi]
    constructor
    · rintro ⟨y, rfl, rfl | rfl⟩
      · exact Or.inl rfl
      · exact Or.inr rfl
    · rintro (rfl | rfl)
      · exact ⟨_, rfl, Or.inl rfl⟩
      · exact ⟨_, rfl, Or.inr rfl⟩
  na i hi m := by
    rw [comb_nbrs hG (mem_combVerts.2
      ⟨_, rfl, Or.inr (Or.inr (Or.inr (Or.inl ⟨i + 1, hi, rfl⟩)))⟩)]
    simp only [adj_a (show i + 1 ≤ n from hi)]
    constructor
    · rintro ⟨y, rfl, ⟨h, -⟩ | ⟨j, hj, h⟩ | ⟨hi1, h⟩⟩
      · omega
      · have : i = j := by omega
        subst this
        rcases h with rfl | rfl
        · exact Or.inl rfl
        · exact Or.inr (Or.inl rfl)
      · rcases h with rfl | rfl
        · exact Or.inr (Or.inr ⟨hi1, Or.inl rfl⟩)
        · exact Or.inr (Or.inr ⟨hi1, Or.inr rfl⟩)
    · rintro (rfl | rfl | ⟨hi1, rfl | rfl⟩)
      · exact ⟨_, rfl, Or.inr (Or.inl ⟨i, rfl, Or.inl rfl⟩)⟩
      · exact ⟨_, rfl, Or.inr (Or.inl ⟨i, rfl, Or.inr rfl⟩)⟩
      · exact ⟨_, rfl, Or.inr (Or.inr ⟨hi1, Or.inl rfl⟩)⟩
      · exact ⟨_, rfl, Or.inr (Or.inr ⟨hi1, Or.inr rfl⟩)⟩
  n0 m := by
    rw [comb_nbrs hG (mem_combVerts.2
      ⟨_, rfl, Or.inr (Or.inr (Or.inr (Or.inl ⟨0, Nat.zero_le n, rfl⟩)))⟩)]
    simp only [adj_a (Nat.zero_le n)]
    constructor
    · rintro ⟨y, rfl, ⟨-, rfl⟩ | ⟨j, hj, -⟩ | ⟨-, rfl | rfl⟩⟩
      · exact Or.inl rfl
      · omega
      · exact Or.inr (Or.inl rfl)
      · exact Or.inr (Or.inr rfl)
    · rintro (rfl | rfl | rfl)
      · exact ⟨_, rfl, Or.inl ⟨trivial, rfl⟩⟩
      · exact ⟨_, rfl, Or.inr (Or.inr ⟨h0, Or.inl rfl⟩)⟩
      · exact ⟨_, rfl, Or.inr (Or.inr ⟨h0, Or.inr rfl⟩)⟩
  ns m := by
    have h00 : aAt n 0 = 0 := by unfold aAt; simp
    change m ∈ (combWhole n g).nbrs (onEq (-1)) ↔ m = onEq (aAt n 0) ∨ m = onEq (-2)
    rw [comb_nbrs hG (mem_combVerts.2 ⟨_, rfl, Or.inl rfl⟩), h00]
    simp only [adj_s]
    constructor
    · rintro ⟨y, rfl, rfl | rfl⟩
      · exact Or.inl rfl
      · exact Or.inr rfl
    · rintro (rfl | rfl)
      · exact ⟨_, rfl, Or.inl rfl⟩
      · exact ⟨_, rfl, Or.inr rfl⟩

end

/-- All ordered pairs of vertices joined by a leg. -/
def combAll (n : ℕ) : List (Coord × Coord) :=
  (combLegs n).map (fun p => (onEq p.1, onEq p.2)) ++
    (combLegs n).map fun p => (onEq p.2, onEq p.1)

theorem combAll_length (n : ℕ) : (combAll n).length = 8 * n + 6 := by
  simp only [combAll, combLegs, List.length_append, List.length_map, List.length_cons,
    List.length_flatMap, List.length_nil, List.map_const', List.length_range, List.sum_replicate,
    smul_eq_mul]
  omega

/-- **C79** With a weighting of 2 the work may double with every three vertices: for every `n` up to
24 there is a graph with `3 n + 4` vertices and at most `4 n + 3` edges and a query on it for which
the search goes through at least `4 * 2 ^ n - 2` iterations. -/
theorem C79_exponential (n : ℕ) (h0 : 0 < n) (hn : n ≤ 24) :
    ∃ (E : Env) (s d : Coord) (N : Net) (c : Correction) (legs : Finset (Coord × Coord)),
      UserGraph E.graph ∧ (∀ l, (E.ord l).Perm l) ∧ prepare E s d false = .ok (.inr (N, c)) ∧
      InRange E c ∧ E.graph.verts.length = 3 * n + 4 ∧
      (∀ u v, RouteEdge E c u v → (u, v) ∈ legs) ∧ legs.card ≤ 8 * n + 6 ∧
      ∃ st, AStar.Exec (problem (exactArith 2 none) E.ord N c.src c.dst) (4 * 2 ^ n - 2) st := by
  obtain ⟨g, hG⟩ := comb_graph n
  obtain ⟨t, ht⟩ := (comb_is h0 hG).exec
  refine ⟨combEnv g, onEq (-1), onEq (combEnd n), .base g, combFix n, (combAll n).toFinset,
    hG.user, fun l => List.Perm.refl l, comb_prepare hn hG, comb_range hn hG, ?_, ?_, ?_, _,
    ((comb_same hn hG).exec ht).2⟩
  · change g.verts.length = _
    rw [hG.verts]
    simp only [combVerts, List.length_map, List.length_cons, List.length_append, List.length_range]
    omega
  · intro u v h
    obtain ⟨x, y, rfl, rfl, hl⟩ := (hG.edge u v).1 ((comb_route hG u v).1 h)
    rw [List.mem_toFinset, combAll, List.mem_append, List.mem_map, List.mem_map]
    rcases hl with h | h
    · exact Or.inl ⟨(x, y), h, rfl⟩
    · exact Or.inr ⟨(y, x), h, rfl⟩
  · exact (List.toFinset_card_le _).trans (combAll_length n).le

/-- With 24 stages: 76 vertices, and more than 67 million iterations. -/
example : ∃ (E : Env) (N : Net) (c : Correction), E.graph.verts.length = 76 ∧
    ∃ st, AStar.Exec (problem (exactArith 2 none) E.ord N c.src c.dst) 67108862 st := by
  obtain ⟨E, -, -, N, c, -, -, -, -, -, h1, -, -, h2⟩ :=
    C79_exponential 24 (by norm_num) le_rfl
  exact ⟨E, N, c, h1, h2⟩

/-- **C79** The bound of `C79_effort` is wrong for larger weightings. -/
theorem C79_greedy_false :
    ¬ ∀ (E : Env) (s d : Coord) (allow : Bool) (N : Net) (c : Correction) (w : ℝ)
        (legs : Finset (Coord × Coord)) (k : ℕ) (st : AStar.State Coord ℝ),
      UserGraph E.graph → (∀ l, (E.ord l).Perm l) → prepare E s d allow = .ok (.inr (N, c)) →
      InRange E c → 0 ≤ w → (∀ u v, RouteEdge E c u v → (u, v) ∈ legs) →
      AStar.Exec (problem (exactArith w none) E.ord N c.src c.dst) k st →
      k + st.pq.length ≤ 1 + legs.card := by
  intro hall
  obtain ⟨E, s, d, N, c, legs, h1, h2, h3, h4, -, h5, h6, st, h7⟩ :=
    C79_exponential 5 (by norm_num) (by norm_num)
  have := hall E s d false N c 2 legs _ st h1 h2 h3 h4 (by norm_num) h5 h7
  omega

/-- The graph with three stages meets the hypotheses of `C79_effort`: with weighting 1 there are at
most 31 insertions. -/
example : ∃ (E : Env) (N : Net) (c : Correction), E.graph.verts.length = 13 ∧
    ∀ k st, AStar.Exec (problem (exactArith 1 none) E.ord N c.src c.dst) k st →
      k + st.pq.length ≤ 31 := by
  obtain ⟨E, s, d, N, c, legs, h1, h2, h3, h4, hv, h5, h6, -⟩ :=
    C79_exponential 3 (by norm_num) (by norm_num)
  refine ⟨E, N, c, hv, fun k st h => ?_⟩
  have := C79_effort E h1 h2 s d false N c h3 h4 1 (by norm_num) le_rfl none legs h5 k st h
  omega

/-- The same graph meets the hypotheses of `C79_plain`, whatever the limit. -/
example : ∃ (E : Env) (N : Net) (c : Correction), E.graph.verts.length = 13 ∧
    ∀ (limit : Option Dbl) (k : ℕ) st,
      AStar.Exec (problem (fusedArith (fun x => Dbl.round (max x 0)) .none false (Dbl.round 0) limit)
        E.ord N c.src c.dst) k st → k + st.pq.length ≤ 31 := by
  obtain ⟨E, s, d, N, c, legs, h1, h2, h3, h4, hv, h5, h6, -⟩ :=
    C79_exponential 3 (by norm_num) (by norm_num)
  refine ⟨E, N, c, hv, fun limit k st h => ?_⟩
  have := C79_plain E h1 h2 s d false N c h3 _
    (fun x => by
      have := fl_mono (le_max_right x 0)
      rwa [fl_zero] at this) .none false _ fl_zero limit legs h5 k st h
  omega

end Capi
