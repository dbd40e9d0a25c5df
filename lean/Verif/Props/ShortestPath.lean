import Verif.Lemmas.ShortestPath
import Verif.Lemmas.Periodicity
import Verif.Lemmas.Coordinate
import Verif.Props.Vistree

/-!
# C42–C52: shortest paths

`E` holds the stored graph and arbitrary answers of the spatial index, the projection and the
visibility scan; `A` is the arithmetic of distances.  `exactArith` uses real numbers, `doubleArith`
rounds like the code.  Ties in the priority queue are broken arbitrarily (`AStar.IsTop`).
-/

namespace Capi

open ShortestPath

variable {D : Type} [LinearOrder D]

theorem prepare_inr {E : Env} {s d : Coord} {allow : Bool} {N : Net} {c : Correction}
    (h : prepare E s d allow = .ok (.inr (N, c))) :
    ∃ ns nd, normalizeC s = .ok ns ∧ normalizeC d = .ok nd ∧ correct E ns nd allow = .ok c ∧
      blocking E c ≠ [] ∧ net E c = .ok N := by
  unfold prepare at h
  obtain ⟨ns, h1, h⟩ := bind_eq_ok h
  obtain ⟨nd, h2, h⟩ := bind_eq_ok h
  obtain ⟨c', h3, h⟩ := bind_eq_ok h
  by_cases hb : (blocking E c').length = 0
  · rw [if_pos hb] at h
    cases h
  · rw [if_neg hb] at h
    obtain ⟨N', h4, h⟩ := bind_eq_ok h
    rw [Res.pure_eq] at h
    have := Except.ok.inj h
    simp only [Sum.inr.injEq, Prod.mk.injEq] at this
    obtain ⟨rfl, rfl⟩ := this
    exact ⟨ns, nd, h1, h2, h3, fun h => hb (by rw [h]; rfl), h4⟩

theorem prepare_inl {E : Env} {s d : Coord} {allow : Bool} {p : List Coord}
    (h : prepare E s d allow = .ok (.inl p)) :
    ∃ ns nd c, normalizeC s = .ok ns ∧ normalizeC d = .ok nd ∧ correct E ns nd allow = .ok c ∧
      blocking E c = [] ∧ p = [c.src, c.dst] := by
  unfold prepare at h
  obtain ⟨ns, h1, h⟩ := bind_eq_ok h
  obtain ⟨nd, h2, h⟩ := bind_eq_ok h
  obtain ⟨c', h3, h⟩ := bind_eq_ok h
  by_cases hb : (blocking E c').length = 0
  · rw [if_pos hb, Res.pure_eq] at h
    have := Except.ok.inj h
    simp only [Sum.inl.injEq] at this
    exact ⟨ns, nd, c', h1, h2, h3, List.length_eq_zero_iff.1 hb, this.symm⟩
  · rw [if_neg hb] at h
    obtain ⟨N', h4, h⟩ := bind_eq_ok h
    cases h

theorem query_inr {A : Arith D} {E : Env} {s d : Coord} {allow : Bool} {N : Net} {c : Correction}
    (h : prepare E s d allow = .ok (.inr (N, c))) (r : Res (List Coord)) :
    Query A E s d allow r ↔ AStar.Outcome (problem A E.ord N c.src c.dst) r := by
  unfold Query
  rw [h]

/-! ### C42 -/

/-- **C42** A returned path leads from the corrected source to the corrected destination, and is
either the direct line or made of legs that are edges of the stored graph or connect an endpoint
with a vertex visible from it.  For every arithmetic in which adding a length is monotone and never
decreases a distance. -/
theorem C42_paths (A : Arith D) (hA : A.Sound) (E : Env) (hg : UserGraph E.graph)
    (hord : ∀ l, (E.ord l).Perm l) (s d : Coord) (allow : Bool) (path : List Coord)
    (h : Query A E s d allow (.ok path)) :
    ∃ ns nd c, normalizeC s = .ok ns ∧ normalizeC d = .ok nd ∧ correct E ns nd allow = .ok c ∧
      ((blocking E c = [] ∧ path = [c.src, c.dst]) ∨
        (blocking E c ≠ [] ∧ IsWalk (RouteEdge E c) c.src c.dst path)) := by
  unfold Query at h
  cases hp : prepare E s d allow with
  | error f => rw [hp] at h; cases h
  | ok x =>
    rw [hp] at h
    rcases x with p | ⟨N, c⟩
    · obtain ⟨ns, nd, c, h1, h2, h3, h4, h5⟩ := prepare_inl hp
      have : path = p := Except.ok.inj h
      exact ⟨ns, nd, c, h1, h2, h3, Or.inl ⟨h4, by rw [this, h5]⟩⟩
    · obtain ⟨ns, nd, h1, h2, h3, h4, h5⟩ := prepare_inr hp
      obtain ⟨vs, hvs⟩ := net_ok hg hord h5
      obtain ⟨-, h6, h7, h8⟩ := AStar.outcome_ok (problem_monotone hA _ _ _ _) (hvs.within A) h
      refine ⟨ns, nd, c, h1, h2, h3, Or.inr ⟨h4, h6, h7, ?_⟩⟩
      cases path with
      | nil => exact List.isChain_nil
      | cons a r =>
        have ha : a = c.src := Option.some.inj h6
        subst ha
        exact (hvs.chain A r c.src hvs.src).1 (h8.imp fun _ _ h => h.1)

/-- **C42** The rounded arithmetic of the code is covered, for every square root function with
non-negative results. -/
theorem C42_rounded (sq : ℚ → Dbl) (hsq : ∀ x, 0 ≤ (sq x).1) (w : Dbl) (limit : Option Dbl)
    (E : Env) (hg : UserGraph E.graph) (hord : ∀ l, (E.ord l).Perm l) (s d : Coord) (allow : Bool)
    (path : List Coord) (h : Query (doubleArith sq w limit) E s d allow (.ok path)) :
    ∃ ns nd c, normalizeC s = .ok ns ∧ normalizeC d = .ok nd ∧ correct E ns nd allow = .ok c ∧
      ((blocking E c = [] ∧ path = [c.src, c.dst]) ∨
        (blocking E c ≠ [] ∧ IsWalk (RouteEdge E c) c.src c.dst path)) :=
  C42_paths _ (double_sound sq hsq w limit) E hg hord s d allow path h

/-- **C42** During the search the graph never throws: for every entry that is ever in the queue the
neighbours are listed and every neighbour's crossing flag is known. -/
theorem C42_never_throws (A : Arith D) (hA : A.Sound) (E : Env) (hg : UserGraph E.graph)
    (hord : ∀ l, (E.ord l).Perm l) (s d : Coord) (allow : Bool) (N : Net) (c : Correction)
    (h : prepare E s d allow = .ok (.inr (N, c))) (k : ℕ) (st : AStar.State Coord D)
    (hst : AStar.Exec (problem A E.ord N c.src c.dst) k st) (e : AStar.Entry Coord D)
    (he : e ∈ st.pq) :
    ∃ ns, N.neighbors E.ord e.node = .ok ns ∧
      ∀ n ∈ ns, ∃ m, N.isCrossing e.node n = .ok m := by
  obtain ⟨-, -, -, -, -, -, h5⟩ := prepare_inr h
  obtain ⟨vs, hvs⟩ := net_ok hg hord h5
  have hH := AStar.exec_inv (problem_monotone hA _ _ _ _) (hvs.within A) hst
  obtain ⟨ns, h1, h2⟩ := hvs.nbrs e.node (hH.inv.nodes e he)
  refine ⟨ns, h1, fun n hn => ?_⟩
  obtain ⟨m, hm, -⟩ := hvs.crossing _ _ ((h2 n).1 hn)
  exact ⟨m, hm⟩

/-! ### C43 -/

/-- **C43** The search loop ends: there is a bound on the number of iterations of every execution,
and at every loop head the loop is left or goes on. -/
theorem C43_terminates (A : Arith D) (hA : A.Sound) (E : Env) (hg : UserGraph E.graph)
    (hord : ∀ l, (E.ord l).Perm l) (s d : Coord) (allow : Bool) (N : Net) (c : Correction)
    (h : prepare E s d allow = .ok (.inr (N, c))) :
    (∃ bound, ∀ k st, AStar.Exec (problem A E.ord N c.src c.dst) k st → k ≤ bound) ∧
    (∀ k st, AStar.Exec (problem A E.ord N c.src c.dst) k st → st.pq ≠ [] →
      ∃ e, AStar.IsTop (problem A E.ord N c.src c.dst) st.pq e) ∧
    (∀ st, AStar.Ends (problem A E.ord N c.src c.dst) st →
      ∃ k r, AStar.follow c.src st.prev k c.dst = some r) := by
  obtain ⟨-, -, -, -, -, -, h5⟩ := prepare_inr h
  obtain ⟨vs, hvs⟩ := net_ok hg hord h5
  have hM := problem_monotone hA E.ord N c.src c.dst
  exact ⟨AStar.exec_bound hM (hvs.within A), fun k st _ hq => AStar.exists_top _ _ hq,
    fun st hst => AStar.follow_ends hM (hvs.within A) hst⟩

/-- **C43** Every query has an outcome, and a path found by the search visits no vertex twice. -/
theorem C43_outcome (A : Arith D) (hA : A.Sound) (E : Env) (hg : UserGraph E.graph)
    (hord : ∀ l, (E.ord l).Perm l) (s d : Coord) (allow : Bool) :
    (∃ r, Query A E s d allow r) ∧
    ∀ N c path, prepare E s d allow = .ok (.inr (N, c)) → Query A E s d allow (.ok path) →
      path.Nodup := by
  constructor
  · unfold Query
    cases hp : prepare E s d allow with
    | error f => exact ⟨_, rfl⟩
    | ok x =>
      rcases x with p | ⟨N, c⟩
      · exact ⟨_, rfl⟩
      · obtain ⟨-, -, -, -, -, -, h5⟩ := prepare_inr hp
        obtain ⟨vs, hvs⟩ := net_ok hg hord h5
        exact AStar.outcome_exists (problem_monotone hA _ _ _ _) (hvs.within A)
  · intro N c path hp h
    obtain ⟨-, -, -, -, -, -, h5⟩ := prepare_inr hp
    obtain ⟨vs, hvs⟩ := net_ok hg hord h5
    rw [query_inr hp] at h
    exact (AStar.outcome_ok (problem_monotone hA _ _ _ _) (hvs.within A) h).1

/-! ### C44, C45, C47 -/

/-- All coordinates involved have longitudes within ±270°. -/
def InRange (E : Env) (c : Correction) : Prop :=
  (∀ v ∈ E.graph.verts, Near v) ∧ Near c.src ∧ Near c.dst ∧
    ∀ e, e = c.src ∨ e = c.dst → ∀ vis, E.reach e = .ok vis → ∀ x ∈ vis, Near x.1

theorem linked_near {E : Env} {e x : Coord} {edge : Option Seg} (h : Linked E e edge x)
    (hr : ∀ vis, E.reach e = .ok vis → ∀ x ∈ vis, Near x.1) : Near x := by
  obtain ⟨-, -, ⟨vis, m, h1, h2⟩, -⟩ := h
  exact hr vis h1 _ h2

theorem route_near {E : Env} (hg : UserGraph E.graph) {c : Correction} (hr : InRange E c)
    {u v : Coord} (h : RouteEdge E c u v) : Near u := by
  obtain ⟨r1, r2, r3, r4⟩ := hr
  rcases h with h | ⟨rfl, h⟩ | ⟨_, h⟩ | ⟨rfl, h⟩ | ⟨_, h⟩
  · exact r1 u (hasEdge_verts hg.regular.built.shape h).2.1
  · exact r2
  · exact linked_near h (r4 _ (Or.inl rfl))
  · exact r3
  · exact linked_near h (r4 _ (Or.inr rfl))

/-- **C52** The heuristic obeys the triangle inequality against every leg. -/
theorem C52_consistent (E : Env) (u v t : Coord) (hu : Near u) (ht : Near t) :
    wrapDist u t ≤ legLength E u v + wrapDist v t := by
  obtain ⟨j, hj, h1⟩ := legLength_eq E u v
  obtain ⟨k, hk, h2⟩ := wrapDist_eq v t
  rw [h1, h2]
  exact (wrapDist_two u t hu ht (j + k) (by omega)).trans (planeDist_triangle u v t j k)

/-- **C52** The heuristic of the code in exact arithmetic is `wrapDist`, is zero at the destination
and never exceeds the length of a route to the destination. -/
theorem C52_admissible (w : ℝ) (limit : Option ℝ) (E : Env) (hg : UserGraph E.graph)
    (c : Correction) (hr : InRange E c) (u : Coord) (route : List Coord)
    (h : IsWalk (RouteEdge E c) u c.dst route) :
    heuristic (exactArith w limit) u c.dst = wrapDist u c.dst ∧
      wrapDist c.dst c.dst = 0 ∧ wrapDist u c.dst ≤ walkLength (legLength E) route := by
  have hz : wrapDist c.dst c.dst = 0 := by
    apply le_antisymm
    · refine (wrapDist_le _ _ 0 (Or.inl rfl)).trans (le_of_eq ?_)
      simp [planeDist]
    · obtain ⟨k, -, hk⟩ := wrapDist_eq c.dst c.dst
      rw [hk]; exact planeDist_nonneg _ _ _
  refine ⟨exact_heuristic w limit u c.dst, hz, ?_⟩
  obtain ⟨r, rfl, hl, hc⟩ := isWalk_cons.1 h
  clear h
  induction r generalizing u with
  | nil =>
    have : u = c.dst := hl
    rw [this, hz]
    simp [walkLength]
  | cons v t ih =>
    rw [List.isChain_cons_cons] at hc
    rw [List.getLastD_cons] at hl
    have h1 := C52_consistent E u v c.dst (route_near hg hr hc.1) hr.2.2.1
    have h2 := ih v hl hc.2
    simp only [walkLength]
    linarith

/-- The search of the code in exact arithmetic returns a path at most `max 1 w` times as long as any
route within the limit. -/
theorem search_length {E : Env} (hg : UserGraph E.graph)
    (hord : ∀ l, (E.ord l).Perm l) {s d : Coord} {allow : Bool} {N : Net} {c : Correction}
    (hp : prepare E s d allow = .ok (.inr (N, c))) (hr : InRange E c) (w : ℝ) (hw : 0 ≤ w)
    (limit : Option ℝ) (path : List Coord)
    (h : Query (exactArith w limit) E s d allow (.ok path)) (route : List Coord)
    (hroute : IsWalk (RouteEdge E c) c.src c.dst route)
    (hfar : ∀ v ∈ route.tail, exceeds limit (wrapDist c.src v) = false) :
    walkLength (legLength E) path ≤ max 1 w * walkLength (legLength E) route := by
  obtain ⟨-, -, -, -, -, -, h5⟩ := prepare_inr hp
  obtain ⟨vs, hvs⟩ := net_ok hg hord h5
  have hA := exact_sound w limit
  have hW := hvs.within (exactArith w limit)
  have hP := problem_real (N := N) E.ord c.src c.dst w limit
  rw [query_inr hp] at h
  obtain ⟨r, rfl, hl, hc⟩ := isWalk_cons.1 hroute
  have hlen : ∀ u v, RouteEdge E c u v →
      (problem (exactArith w limit) E.ord N c.src c.dst).len u v = legLength E u v :=
    fun u v => problem_len hg hvs w limit
  obtain ⟨-, hh, -, hch⟩ := AStar.outcome_ok (problem_monotone hA _ _ _ _) hW h
  have hpath : path.IsChain (RouteEdge E c) := by
    cases path with
    | nil => exact List.isChain_nil
    | cons a t =>
      have ha : a = c.src := Option.some.inj hh
      subst ha
      exact (hvs.chain _ t c.src hvs.src).1 (hch.imp fun _ _ h => h.1)
  have key := AStar.outcome_length hP hw hW
    (fun u hu v hv => by
      have he := (hvs.mem_nbrs _ hu v).1 hv
      rw [hlen u v he]
      exact C52_consistent E u v c.dst (route_near hg hr he) hr.2.2.1)
    (C52_admissible w limit E hg c hr c.dst [c.dst]
      ⟨rfl, rfl, List.isChain_singleton _⟩).2.1
    h r ((hvs.chain _ r c.src hvs.src).2 hc) hl
    (fun v hv => by
      have := hfar v hv
      simp only [problem, exact_heuristic]
      exact this)
  rw [walkLength_congr hlen _ hpath] at key
  have h6 : walkLength (problem (exactArith w limit) E.ord N c.src c.dst).len (c.src :: r) =
      walkLength (legLength E) (c.src :: r) := walkLength_congr hlen _ hc
  change walkLength (legLength E) path ≤ max 1 w *
    walkLength (problem (exactArith w limit) E.ord N c.src c.dst).len (c.src :: r) at key
  rw [h6] at key
  exact key

/-- **C44** With a weighting between 0 and 1 and no limit, the path found by the search is at most
as long as every route between the endpoints (in exact arithmetic). -/
theorem C44_shortest (E : Env) (hg : UserGraph E.graph) (hord : ∀ l, (E.ord l).Perm l)
    (s d : Coord) (allow : Bool) (N : Net) (c : Correction)
    (hp : prepare E s d allow = .ok (.inr (N, c))) (hr : InRange E c) (w : ℝ) (h0 : 0 ≤ w)
    (h1 : w ≤ 1) (path : List Coord) (h : Query (exactArith w none) E s d allow (.ok path))
    (route : List Coord) (hroute : IsWalk (RouteEdge E c) c.src c.dst route) :
    walkLength (legLength E) path ≤ walkLength (legLength E) route := by
  have := search_length hg hord hp hr w h0 none path h route hroute fun _ _ => rfl
  rwa [max_eq_left h1, one_mul] at this

/-- **C45** With a weighting of at least 1 and no limit, the path found is at most that many times
as long as every route between the endpoints (in exact arithmetic). -/
theorem C45_bounded (E : Env) (hg : UserGraph E.graph) (hord : ∀ l, (E.ord l).Perm l)
    (s d : Coord) (allow : Bool) (N : Net) (c : Correction)
    (hp : prepare E s d allow = .ok (.inr (N, c))) (hr : InRange E c) (w : ℝ) (h1 : 1 ≤ w)
    (path : List Coord) (h : Query (exactArith w none) E s d allow (.ok path))
    (route : List Coord) (hroute : IsWalk (RouteEdge E c) c.src c.dst route) :
    walkLength (legLength E) path ≤ w * walkLength (legLength E) route := by
  have := search_length hg hord hp hr w (by linarith) none path h route hroute fun _ _ => rfl
  rwa [max_eq_right h1] at this

/-- **C47** Every vertex after the first on a path found by the search is within the limit of the
source, in any arithmetic. -/
theorem C47_within (A : Arith D) (hA : A.Sound) (E : Env) (hg : UserGraph E.graph)
    (hord : ∀ l, (E.ord l).Perm l) (s d : Coord) (allow : Bool) (N : Net) (c : Correction)
    (hp : prepare E s d allow = .ok (.inr (N, c))) (path : List Coord)
    (h : Query A E s d allow (.ok path)) :
    ∀ v ∈ path.tail, A.over (heuristic A c.src v) = false := by
  obtain ⟨-, -, -, -, -, -, h5⟩ := prepare_inr hp
  obtain ⟨vs, hvs⟩ := net_ok hg hord h5
  rw [query_inr hp] at h
  obtain ⟨-, -, -, hch⟩ := AStar.outcome_ok (problem_monotone hA _ _ _ _) (hvs.within A) h
  have key : ∀ l : List Coord, (l.IsChain fun a b =>
      b ∈ (problem A E.ord N c.src c.dst).nbrs a ∧
        (problem A E.ord N c.src c.dst).tooFar b = false) →
      ∀ v ∈ l.tail, A.over (heuristic A c.src v) = false := by
    intro l
    induction l with
    | nil => intro _ v hv; cases hv
    | cons a r ih =>
      cases r with
      | nil => intro _ v hv; cases hv
      | cons b t =>
        intro hl v hv
        rw [List.isChain_cons_cons] at hl
        rcases List.mem_cons.1 hv with rfl | hv
        · exact hl.1.2
        · exact ih hl.2 v hv
  exact key path hch

/-- **C47** With a weighting between 0 and 1, the path is at most as long as every route whose
vertices are within the limit of the source (in exact arithmetic). -/
theorem C47_shortest (E : Env) (hg : UserGraph E.graph) (hord : ∀ l, (E.ord l).Perm l)
    (s d : Coord) (allow : Bool) (N : Net) (c : Correction)
    (hp : prepare E s d allow = .ok (.inr (N, c))) (hr : InRange E c) (w : ℝ) (h0 : 0 ≤ w)
    (h1 : w ≤ 1) (limit : ℝ) (path : List Coord)
    (h : Query (exactArith w (some limit)) E s d allow (.ok path)) :
    (∀ v ∈ path.tail, wrapDist c.src v ≤ limit) ∧
    ∀ route, IsWalk (RouteEdge E c) c.src c.dst route →
      (∀ v ∈ route.tail, wrapDist c.src v ≤ limit) →
      walkLength (legLength E) path ≤ walkLength (legLength E) route := by
  constructor
  · intro v hv
    have := C47_within _ (exact_sound w (some limit)) E hg hord s d allow N c hp path h v hv
    rw [exact_heuristic] at this
    simp only [exactArith, exceeds, decide_eq_false_iff_not, not_lt] at this
    exact this
  · intro route hroute hfar
    have := search_length hg hord hp hr w h0 (some limit) path h route hroute fun v hv => by
      simp only [exceeds, decide_eq_false_iff_not, not_lt]
      exact hfar v hv
    rwa [max_eq_left h1, one_mul] at this

/-! ### C46 -/

/-- **C46** The search raises the error exactly if there is no route between the endpoints whose
vertices after the first are within the limit; otherwise it returns a path.  In any arithmetic. -/
theorem C46_failure (A : Arith D) (hA : A.Sound) (E : Env) (hg : UserGraph E.graph)
    (hord : ∀ l, (E.ord l).Perm l) (s d : Coord) (allow : Bool) (N : Net) (c : Correction)
    (hp : prepare E s d allow = .ok (.inr (N, c))) :
    ((∃ route, IsWalk (RouteEdge E c) c.src c.dst route ∧
        ∀ v ∈ route.tail, A.over (heuristic A c.src v) = false) →
      ∀ r, Query A E s d allow r → ∃ path, r = .ok path) ∧
    ((¬ ∃ route, IsWalk (RouteEdge E c) c.src c.dst route ∧
        ∀ v ∈ route.tail, A.over (heuristic A c.src v) = false) →
      ∀ r, Query A E s d allow r → r = .error .exn) := by
  obtain ⟨-, -, -, -, -, -, h5⟩ := prepare_inr hp
  obtain ⟨vs, hvs⟩ := net_ok hg hord h5
  have hM := problem_monotone hA E.ord N c.src c.dst
  have hW := hvs.within A
  constructor
  · rintro ⟨route, hroute, hfar⟩ r hq
    rw [query_inr hp] at hq
    cases r with
    | ok p => exact ⟨p, rfl⟩
    | error f =>
      exfalso
      obtain ⟨rest, rfl, hl, hc⟩ := isWalk_cons.1 hroute
      exact (AStar.outcome_error hM hW hq).2
        ⟨rest, (hvs.chain A rest c.src hvs.src).2 hc, hl, hfar⟩
  · intro hno r hq
    cases r with
    | error f =>
      rw [query_inr hp] at hq
      rw [(AStar.outcome_error hM hW hq).1]
    | ok p =>
      exfalso
      apply hno
      have hfar := C47_within A hA E hg hord s d allow N c hp p hq
      obtain ⟨ns, nd, c', h1, h2, h3, h4⟩ := C42_paths A hA E hg hord s d allow p hq
      obtain ⟨ns', nd', g1, g2, g3, g4, -⟩ := prepare_inr hp
      rw [h1] at g1
      rw [h2] at g2
      cases g1
      cases g2
      rw [h3] at g3
      cases g3
      rcases h4 with ⟨h4, -⟩ | ⟨-, h4⟩
      · exact absurd h4 g4
      · exact ⟨p, h4, hfar⟩

/-- **C46** Without a limit: the error is raised exactly if there is no route at all. -/
theorem C46_unlimited (A : Arith D) (hA : A.Sound) (hno : ∀ d, A.over d = false) (E : Env)
    (hg : UserGraph E.graph) (hord : ∀ l, (E.ord l).Perm l) (s d : Coord) (allow : Bool) (N : Net)
    (c : Correction) (hp : prepare E s d allow = .ok (.inr (N, c))) (r : Res (List Coord))
    (h : Query A E s d allow r) :
    r = .error .exn ↔ ¬ ∃ route, IsWalk (RouteEdge E c) c.src c.dst route := by
  obtain ⟨h1, h2⟩ := C46_failure A hA E hg hord s d allow N c hp
  constructor
  · rintro rfl ⟨route, hroute⟩
    obtain ⟨p, hp⟩ := h1 ⟨route, hroute, fun v _ => hno _⟩ _ h
    cases hp
  · intro hn
    exact h2 (fun ⟨route, hr, _⟩ => hn ⟨route, hr⟩) r h


/-! ### A concrete query

The stored graph has the vertices `exS`, `exA`, `exT`, `exB` and the two routes `exS – exA – exT` (3° and 5°) and
`exS – exB – exT` (8° and 4°). -/

def exS : Coord := ⟨0, 0⟩
def exA : Coord := ⟨0, 3000000⟩
def exT : Coord := ⟨4000000, 0⟩
def exB : Coord := ⟨8000000, 0⟩

def exOps : List Graph.Op :=
  [.add exS exA false, .add exA exT false, .add exS exB false, .add exB exT false]

def exGraph : Graph :=
  ((Graph.ofPolygons [[exS, exA, exT, exB]]).run exOps).toOption.getD Graph.empty

theorem exGraph_user : UserGraph exGraph := by
  refine ⟨[[exS, exA, exT, exB]], exOps, ?_, ?_, rfl⟩
  · intro o ho
    simp only [exOps, List.mem_cons, List.not_mem_nil, or_false] at ho
    rcases ho with rfl | rfl | rfl | rfl <;> trivial
  · unfold OpsOn; decide

/-- Nothing is on land and the direct line is blocked. -/
def exEnv : Env where
  graph := exGraph
  onLand _ := false
  closest _ := .error .exn
  project _ c := .ok c
  crossings _ := [⟨exA, exB⟩]
  reach _ := .ok []
  ord l := l

def exFix : Correction := ⟨exS, exT, none, none⟩

theorem exPrepare : prepare exEnv exS exT false = .ok (.inr (.base exGraph, exFix)) := by
  have h1 : normalizeC exS = .ok exS := C01_normalize_id exS (by decide) (by decide)
  have h2 : normalizeC exT = .ok exT := C01_normalize_id exT (by decide) (by decide)
  unfold prepare
  rw [h1, h2]
  rfl

theorem exRange : InRange exEnv exFix := by
  refine ⟨?_, by unfold Near; decide, by unfold Near; decide, ?_⟩
  · have : exEnv.graph.verts = [exS, exA, exT, exB] := rfl
    rw [this]
    unfold Near
    decide
  · intro e _ vis h x hx
    cases h
    cases hx

theorem exRoute (v : Coord) (h1 : exGraph.hasEdge exS v = .ok true)
    (h2 : exGraph.hasEdge v exT = .ok true) :
    IsWalk (RouteEdge exEnv exFix) exS exT [exS, v, exT] :=
  ⟨rfl, rfl, by
    simp only [List.isChain_cons_cons, List.isChain_singleton, and_true]
    exact ⟨Or.inl h1, Or.inl h2⟩⟩

theorem planeDist_val (a b : Coord) (k : ℤ) (n : ℕ)
    (h : (a.lon + k * 360000001 - b.lon) ^ 2 + (a.lat - b.lat) ^ 2 = ((n : ℤ) * 1000000) ^ 2) :
    planeDist a b k = n := by
  unfold planeDist
  have h1 : (((a.lon + k * 360000001 - b.lon : ℤ) : ℝ) ^ 2 + ((a.lat - b.lat : ℤ) : ℝ) ^ 2) =
      ((n : ℝ) * 1000000) ^ 2 := by exact_mod_cast h
  rw [h1, Real.sqrt_sq (by positivity)]
  field_simp

theorem exLeg (a b : Coord) (n : ℕ) (h : exGraph.isCrossing a b = .ok false)
    (hd : (a.lon + 0 * 360000001 - b.lon) ^ 2 + (a.lat - b.lat) ^ 2 = ((n : ℤ) * 1000000) ^ 2) :
    legLength exEnv a b = n := by
  unfold legLength
  rw [if_neg (by unfold CrossesMeridian; change exGraph.isCrossing a b ≠ _; rw [h]; decide)]
  exact planeDist_val a b 0 n hd

theorem exLength_a : walkLength (legLength exEnv) [exS, exA, exT] = 8 := by
  simp only [walkLength]
  rw [exLeg exS exA 3 rfl (by decide), exLeg exA exT 5 rfl (by decide)]
  norm_num

theorem exLength_b : walkLength (legLength exEnv) [exS, exB, exT] = 12 := by
  simp only [walkLength]
  rw [exLeg exS exB 8 rfl (by decide), exLeg exB exT 4 rfl (by decide)]
  norm_num

/-- The hypotheses of C42–C44, C46 and C52 are met and the search succeeds with a path of at most
8°, although there is a route of 12°. -/
example : ∃ path, Query (exactArith 1 none) exEnv exS exT false (.ok path) ∧
    walkLength (legLength exEnv) path ≤ 8 ∧ path.Nodup := by
  have hA := exact_sound 1 none
  have hord : ∀ l, (exEnv.ord l).Perm l := fun l => List.Perm.refl l
  have hr := exRoute exA rfl rfl
  obtain ⟨⟨r, hq⟩, hn⟩ := C43_outcome _ hA exEnv exGraph_user hord exS exT false
  obtain ⟨p, rfl⟩ := (C46_failure _ hA exEnv exGraph_user hord _ _ _ _ _ exPrepare).1
    ⟨_, hr, fun _ _ => rfl⟩ r hq
  refine ⟨p, hq, ?_, hn _ _ p exPrepare hq⟩
  have := C44_shortest exEnv exGraph_user hord _ _ _ _ _ exPrepare exRange 1 (by norm_num)
    (by norm_num) p hq _ hr
  rwa [exLength_a] at this

theorem wrapDist_val (a b : Coord) (n : ℕ) (hl : |a.lon - b.lon| ≤ 180000000)
    (h : (a.lon + 0 * 360000001 - b.lon) ^ 2 + (a.lat - b.lat) ^ 2 = ((n : ℤ) * 1000000) ^ 2) :
    wrapDist a b = n := by
  have hb := abs_le.1 hl
  have far : ∀ k : ℤ, k = 1 ∨ k = -1 → planeDist a b 0 ≤ planeDist a b k := by
    intro k hk
    unfold planeDist
    apply div_le_div_of_nonneg_right _ (by norm_num)
    apply Real.sqrt_le_sqrt
    have : (a.lon + 0 * 360000001 - b.lon) ^ 2 ≤ (a.lon + k * 360000001 - b.lon) ^ 2 := by
      rcases hk with rfl | rfl <;> nlinarith
    have h2 : ((a.lon + 0 * 360000001 - b.lon : ℤ) : ℝ) ^ 2 ≤
        ((a.lon + k * 360000001 - b.lon : ℤ) : ℝ) ^ 2 := by exact_mod_cast this
    linarith
  unfold wrapDist
  rw [min_eq_left (le_min (far 1 (Or.inl rfl)) (far (-1) (Or.inr rfl)))]
  exact planeDist_val a b 0 n h

/-- The search of the example with weighting 6. -/
noncomputable def exGreedy : AStar.Problem Coord ℝ :=
  problem (exactArith 6 none) exEnv.ord (.base exGraph) exS exT

theorem exGreedy_len (a b : Coord) (n : ℕ) (h : exGraph.isCrossing a b = .ok false)
    (hd : (b.lon + 0 * 360000001 - a.lon) ^ 2 + (b.lat - a.lat) ^ 2 = ((n : ℤ) * 1000000) ^ 2) :
    exGreedy.len a b = n := by
  change distance (exactArith 6 none) b a ((exGraph.isCrossing a b).toOption.getD false) = n
  rw [h, exact_distance]
  exact planeDist_val b a 0 n hd

theorem exGreedy_prio (d : ℝ) (a : Coord) (n : ℕ) (hl : |a.lon - exT.lon| ≤ 180000000)
    (hd : (a.lon + 0 * 360000001 - exT.lon) ^ 2 + (a.lat - exT.lat) ^ 2 =
      ((n : ℤ) * 1000000) ^ 2) : exGreedy.prio d a = d + n * 6 := by
  change d + heuristic (exactArith 6 none) a exT * 6 = _
  rw [exact_heuristic, wrapDist_val a exT n hl hd]

theorem exGreedy_new (e : AStar.Entry Coord ℝ) (s : AStar.State Coord ℝ) (n : Coord) (l : ℝ)
    (hs : s.dist n = none) (hl : exGreedy.len e.node n = l) :
    AStar.relaxOne exGreedy e s n =
      { pq := ⟨n, e.dist + l⟩ :: s.pq
        prev := fun x => if x = n then some e.node else s.prev x
        dist := fun x => if x = n then some (e.dist + l) else s.dist x } := by
  unfold AStar.relaxOne AStar.known
  rw [hs, hl]
  rfl

/-- **C45** The bound is not 1: with weighting 6 the code may return a path of 12° although there is
a route of 8°. -/
theorem C45_not_shortest_false :
    ¬ ∀ (E : Env) (s d : Coord) (allow : Bool) (N : Net) (c : Correction) (w : ℝ)
        (path route : List Coord), UserGraph E.graph → (∀ l, (E.ord l).Perm l) →
      prepare E s d allow = .ok (.inr (N, c)) → InRange E c → 1 ≤ w →
      Query (exactArith w none) E s d allow (.ok path) →
      IsWalk (RouteEdge E c) c.src c.dst route →
      walkLength (legLength E) path ≤ walkLength (legLength E) route := by
  intro hall
  have hq : Query (exactArith 6 none) exEnv exS exT false (.ok [exS, exB, exT]) := by
    rw [query_inr exPrepare]
    change AStar.Outcome exGreedy _
    have e0 : AStar.Exec exGreedy 0 (AStar.init exGreedy) := .init
    have t0 : AStar.IsTop exGreedy (AStar.init exGreedy).pq ⟨exS, 0⟩ :=
      ⟨List.mem_singleton.2 rfl, fun x hx => by rw [List.mem_singleton.1 hx]; exact lt_irrefl _⟩
    have e1 := AStar.Exec.step e0 t0 (by decide : exS ≠ exT)
    -- the neighbours of the source are queued
    have h1 : AStar.relax exGreedy ⟨exS, 0⟩ (AStar.pop (AStar.init exGreedy) ⟨exS, 0⟩) =
        { pq := [⟨exB, 8⟩, ⟨exA, 3⟩]
          prev := fun x => if x = exB then some exS else if x = exA then some exS else none
          dist := fun x => if x = exB then some 8 else if x = exA then some 3 else none } := by
      have hn : exGreedy.nbrs exS = [exA, exB] := rfl
      have hp : (AStar.pop (AStar.init exGreedy) ⟨exS, 0⟩).pq = [] := by
        change List.erase [(⟨exS, 0⟩ : AStar.Entry Coord ℝ)] ⟨exS, 0⟩ = []
        rw [List.erase_cons_head]
      unfold AStar.relax
      rw [hn, List.foldl_cons, List.foldl_cons, List.foldl_nil,
        exGreedy_new ⟨exS, 0⟩ _ exA (3 : ℕ) rfl (exGreedy_len exS exA 3 rfl (by decide)),
        exGreedy_new ⟨exS, 0⟩ _ exB (8 : ℕ) rfl (exGreedy_len exS exB 8 rfl (by decide)), hp]
      norm_num
      exact ⟨rfl, rfl⟩
    rw [h1] at e1
    -- the detour looks better
    have t1 : AStar.IsTop exGreedy [⟨exB, 8⟩, ⟨exA, 3⟩] ⟨exB, 8⟩ := by
      refine ⟨List.mem_cons_self, fun x hx => ?_⟩
      simp only [List.mem_cons, List.not_mem_nil, or_false] at hx
      rcases hx with rfl | rfl
      · exact lt_irrefl _
      · rw [exGreedy_prio 3 exA 5 (by decide) (by decide),
          exGreedy_prio 8 exB 4 (by decide) (by decide)]
        norm_num
    have e2 := AStar.Exec.step e1 t1 (by decide : exB ≠ exT)
    have h2 : AStar.relax exGreedy ⟨exB, 8⟩ (AStar.pop
        { pq := [⟨exB, 8⟩, ⟨exA, 3⟩]
          prev := fun x => if x = exB then some exS else if x = exA then some exS else none
          dist := fun x => if x = exB then some 8 else if x = exA then some 3 else none }
        ⟨exB, 8⟩) =
        { pq := [⟨exT, 12⟩, ⟨exS, 16⟩, ⟨exA, 3⟩]
          prev := fun x => if x = exT then some exB else if x = exS then some exB else
            if x = exB then some exS else if x = exA then some exS else none
          dist := fun x => if x = exT then some 12 else if x = exS then some 16 else
            if x = exB then some 8 else if x = exA then some 3 else none } := by
      have hn : exGreedy.nbrs exB = [exS, exT] := rfl
      unfold AStar.relax AStar.pop
      rw [hn, List.foldl_cons, List.foldl_cons, List.foldl_nil,
        exGreedy_new ⟨exB, 8⟩ _ exS (8 : ℕ) rfl (exGreedy_len exB exS 8 rfl (by decide)),
        exGreedy_new ⟨exB, 8⟩ _ exT (4 : ℕ) rfl (exGreedy_len exB exT 4 rfl (by decide))]
      rw [List.erase_cons_head]
      norm_num
    rw [h2] at e2
    have t2 : AStar.IsTop exGreedy [⟨exT, 12⟩, ⟨exS, 16⟩, ⟨exA, 3⟩] ⟨exT, 12⟩ := by
      refine ⟨List.mem_cons_self, fun x hx => ?_⟩
      simp only [List.mem_cons, List.not_mem_nil, or_false] at hx
      rcases hx with rfl | rfl | rfl
      · exact lt_irrefl _
      · rw [exGreedy_prio 16 exS 4 (by decide) (by decide),
          exGreedy_prio 12 exT 0 (by decide) (by decide)]
        norm_num
      · rw [exGreedy_prio 3 exA 5 (by decide) (by decide),
          exGreedy_prio 12 exT 0 (by decide) (by decide)]
        norm_num
    exact ⟨_, 3, .ok [exT, exB, exS], AStar.Ends.found e2 t2 rfl, rfl, rfl⟩
  have := hall exEnv exS exT false _ _ 6 _ _ exGraph_user (fun l => List.Perm.refl l) exPrepare
    exRange (by norm_num) hq (exRoute exA rfl rfl)
  rw [exLength_a, exLength_b] at this
  norm_num at this

/-- C47 on the example: with a limit of 4.5° the search finds a path within it. -/
example : ∃ path, Query (exactArith 1 (some 4.5)) exEnv exS exT false (.ok path) ∧
    (∀ v ∈ path.tail, wrapDist exS v ≤ 4.5) ∧ walkLength (legLength exEnv) path ≤ 8 := by
  have hA := exact_sound 1 (some 4.5)
  have hord : ∀ l, (exEnv.ord l).Perm l := fun l => List.Perm.refl l
  have hr := exRoute exA rfl rfl
  have near : ∀ v ∈ [exS, exA, exT].tail, wrapDist exS v ≤ 4.5 := by
    intro v hv
    simp only [List.tail_cons, List.mem_cons, List.not_mem_nil, or_false] at hv
    rcases hv with rfl | rfl
    · rw [wrapDist_val exS exA 3 (by decide) (by decide)]; norm_num
    · rw [wrapDist_val exS exT 4 (by decide) (by decide)]; norm_num
  obtain ⟨⟨r, hq⟩, -⟩ := C43_outcome _ hA exEnv exGraph_user hord exS exT false
  obtain ⟨p, rfl⟩ := (C46_failure _ hA exEnv exGraph_user hord _ _ _ _ _ exPrepare).1
    ⟨_, hr, fun v hv => by
      have := near v hv
      change decide (heuristic (exactArith 1 (some 4.5)) exS v > 4.5) = false
      rw [exact_heuristic]
      exact decide_eq_false (not_lt.2 this)⟩ r hq
  obtain ⟨k1, k2⟩ := C47_shortest exEnv exGraph_user hord _ _ _ _ _ exPrepare exRange 1
    (by norm_num) (by norm_num) 4.5 p hq
  refine ⟨p, hq, k1, ?_⟩
  have := k2 _ hr near
  rwa [exLength_a] at this

/-- C45 and C52 on the example. -/
example : (∀ path, Query (exactArith 6 none) exEnv exS exT false (.ok path) →
    walkLength (legLength exEnv) path ≤ 48) ∧ wrapDist exS exT ≤ 8 := by
  have hr := exRoute exA rfl rfl
  constructor
  · intro p hq
    have := C45_bounded exEnv exGraph_user (fun l => List.Perm.refl l) _ _ _ _ _ exPrepare exRange 6
      (by norm_num) p hq _ hr
    change _ ≤ 6 * walkLength (legLength exEnv) [exS, exA, exT] at this
    rw [exLength_a] at this
    linarith
  · have := (C52_admissible 1 none exEnv exGraph_user exFix exRange exS _ hr).2.2
    rw [exLength_a] at this
    exact this

end Capi
