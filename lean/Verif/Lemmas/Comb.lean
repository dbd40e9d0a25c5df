import Verif.Lemmas.Effort
import Mathlib.Tactic.Linarith
import Mathlib.Tactic.Ring

/-!
# Lemmas for C79: a family of graphs on which the greedy search repeats its work

The vertices are points of a line with whole coordinates.  From each vertex `a i` there are two ways
to `a (i + 1)`: straight on by `q i`, and by `p i`, which lies behind `a (i + 1)`.  The second way
looks better to a greedy search and is explored first, with everything behind it.
-/

namespace Capi

namespace AStar

variable {V D : Type} [DecidableEq V] [LinearOrder D]

/-- The neighbour is inserted. -/
def improved (P : Problem V D) (e : Entry V D) (s : State V D) (m : V) : Prop :=
  P.tooFar m = false ∧ known s m (P.add e.dist (P.len e.node m)) = false

/-- What a list of neighbours does. -/
theorem relaxList_effect (P : Problem V D) (e : Entry V D) (l : List V) (s : State V D) :
    ∃ new : List V, new.Nodup ∧ (∀ m, m ∈ new ↔ m ∈ l ∧ improved P e s m) ∧
      (l.foldl (relaxOne P e) s).pq.Perm
        (new.map (fun m => ⟨m, P.add e.dist (P.len e.node m)⟩) ++ s.pq) ∧
      ∀ m, (l.foldl (relaxOne P e) s).dist m =
        if m ∈ new then some (P.add e.dist (P.len e.node m)) else s.dist m := by
  induction l generalizing s with
  | nil =>
    refine ⟨[], List.nodup_nil, fun m => ?_, List.Perm.refl _, fun m => ?_⟩
    · simp
    · rw [if_neg List.not_mem_nil]; rfl
  | cons n r ih =>
    rw [List.foldl_cons]
    by_cases hi : improved P e s n
    · have hs : relaxOne P e s n =
          { pq := ⟨n, P.add e.dist (P.len e.node n)⟩ :: s.pq
            prev := fun x => if x = n then some e.node else s.prev x
            dist := fun x => if x = n then some (P.add e.dist (P.len e.node n)) else s.dist x } := by
        unfold relaxOne
        simp only
        rw [hi.1, hi.2]
        rfl
      obtain ⟨new, h1, h2, h3, h4⟩ := ih (relaxOne P e s n)
      have hother : ∀ m, m ≠ n → (improved P e (relaxOne P e s n) m ↔ improved P e s m) := by
        intro m hm
        unfold improved known
        rw [hs]
        simp only [if_neg hm]
      have hself : ¬ improved P e (relaxOne P e s n) n := by
        intro h
        have := h.2
        rw [hs] at this
        unfold known at this
        simp at this
      have hn : n ∉ new := fun h => hself ((h2 n).1 h).2
      refine ⟨n :: new, List.nodup_cons.2 ⟨hn, h1⟩, fun m => ?_, ?_, fun m => ?_⟩
      · rw [List.mem_cons, List.mem_cons, h2]
        by_cases hm : m = n
        · subst hm
          exact ⟨fun _ => ⟨Or.inl rfl, hi⟩, fun _ => Or.inl rfl⟩
        · rw [hother m hm]
          simp only [hm, false_or]
      · refine h3.trans ?_
        rw [hs, List.map_cons, List.cons_append]
        exact List.perm_middle
      · rw [h4, hs]
        simp only [List.mem_cons]
        by_cases hm : m = n
        · subst hm
          simp [hn]
        · simp [hm]
    · have hs : relaxOne P e s n = s := by
        unfold relaxOne
        simp only
        refine if_pos ?_
        unfold improved at hi
        cases h : P.tooFar n
        · rw [h] at hi
          cases h' : known s n (P.add e.dist (P.len e.node n))
          · exact absurd ⟨rfl, h'⟩ hi
          · rfl
        · rfl
      rw [hs]
      obtain ⟨new, h1, h2, h3, h4⟩ := ih s
      refine ⟨new, h1, fun m => ?_, h3, h4⟩
      rw [h2, List.mem_cons]
      constructor
      · rintro ⟨h5, h6⟩; exact ⟨Or.inr h5, h6⟩
      · rintro ⟨rfl | h5, h6⟩
        · exact absurd h6 hi
        · exact ⟨h5, h6⟩

/-- One iteration: `e` is popped and exactly the neighbours in `new` are inserted. -/
theorem step_effect {P : Problem V D} {k : ℕ} {s : State V D} (hs : Exec P k s) {e : Entry V D}
    {R : List (Entry V D)} (hpq : s.pq.Perm (e :: R))
    (htop : ∀ x ∈ R, ¬ P.prio x.dist x.node < P.prio e.dist e.node) (hd : e.node ≠ P.dst)
    (new : List V) (hnew : new.Nodup)
    (hmem : ∀ m, m ∈ new ↔ m ∈ P.nbrs e.node ∧ improved P e s m) :
    ∃ t, Exec P (k + 1) t ∧
      t.pq.Perm (new.map (fun m => ⟨m, P.add e.dist (P.len e.node m)⟩) ++ R) ∧
      ∀ m, t.dist m = if m ∈ new then some (P.add e.dist (P.len e.node m)) else s.dist m := by
  have he : e ∈ s.pq := hpq.mem_iff.2 List.mem_cons_self
  have ht : IsTop P s.pq e := by
    refine ⟨he, fun x hx => ?_⟩
    rcases List.mem_cons.1 (hpq.mem_iff.1 hx) with rfl | hx
    · exact lt_irrefl _
    · exact htop x hx
  refine ⟨_, Exec.step hs ht hd, ?_, ?_⟩
  all_goals
    obtain ⟨new', h1, h2, h3, h4⟩ := relaxList_effect P e (P.nbrs e.node) (pop s e)
    have hp : new'.Perm new := (List.perm_ext_iff_of_nodup h1 hnew).2 fun m => by
      rw [h2, hmem]
      rfl
  · refine h3.trans (List.Perm.append (hp.map _) ?_)
    have := hpq.erase e
    rw [List.erase_cons_head] at this
    exact this
  · intro m
    have : (relax P e (pop s e)).dist m = _ := h4 m
    rw [this]
    by_cases hm : m ∈ new
    · rw [if_pos hm, if_pos (hp.mem_iff.2 hm)]
    · rw [if_neg hm, if_neg fun h => hm (hp.mem_iff.1 h)]
      rfl

/-! ### The family -/

/-- The place of `a i` on the line. -/
def aAt (n i : ℕ) : ℤ := 8 * 2 ^ n - 8 * 2 ^ (n - i)

/-- The place of `q i`. -/
def qAt (n i : ℕ) : ℤ := aAt n i + 1

/-- The place of `p i`. -/
def pAt (n i : ℕ) : ℤ := aAt n (i + 1) + 2 ^ (n - i)

/-- The greedy search with weighting 2 towards `T` on the graph with `n` stages. -/
structure Comb (P : Problem V ℤ) (n : ℕ) (T : ℤ) (x : V → ℤ) (a q p : ℕ → V) (z : V) : Prop where
  add : ∀ c d, P.add c d = c + d
  zero : P.zero = 0
  len : ∀ u v, P.len u v = |x v - x u|
  prio : ∀ d v, P.prio d v = d + |x v - T| * 2
  near : ∀ v, P.tooFar v = false
  xa : ∀ i ≤ n, x (a i) = aAt n i
  xq : ∀ i < n, x (q i) = qAt n i
  xp : ∀ i < n, x (p i) = pAt n i
  xs : x P.src = -1
  xz : x z = -2
  xt : x P.dst = T
  big : 9 * 2 ^ n < T
  pos : 0 < n
  nq : ∀ i < n, ∀ m, m ∈ P.nbrs (q i) ↔ m = a i ∨ m = a (i + 1)
  np : ∀ i < n, ∀ m, m ∈ P.nbrs (p i) ↔ m = a i ∨ m = a (i + 1)
  na : ∀ i < n, ∀ m, m ∈ P.nbrs (a (i + 1)) ↔
    m = q i ∨ m = p i ∨ i + 1 < n ∧ (m = q (i + 1) ∨ m = p (i + 1))
  n0 : ∀ m, m ∈ P.nbrs (a 0) ↔ m = P.src ∨ m = q 0 ∨ m = p 0
  ns : ∀ m, m ∈ P.nbrs P.src ↔ m = a 0 ∨ m = z

/-- The number of iterations caused by the stages from `i` on. -/
def rounds : ℕ → ℕ
  | 0 => 0
  | j + 1 => 4 + 2 * rounds j

theorem rounds_eq (j : ℕ) : rounds j + 4 = 4 * 2 ^ j := by
  induction j with
  | zero => rfl
  | succ j ih => rw [rounds, pow_succ]; omega

/-- How far the vertex `a m` is along the slow ways only, up to a constant. -/
def slow (n m : ℕ) : ℤ := 8 * 2 ^ n - 12 * 2 ^ (n - m)

section

variable {P : Problem V ℤ} {n : ℕ} {T : ℤ} {x : V → ℤ} {a q p : ℕ → V} {z : V}

/-- The vertices behind `a i` are unknown or farther than along the slow ways. -/
structure Far (n : ℕ) (a q p : ℕ → V) (s : State V ℤ) (i c : ℕ) (g : ℤ) : Prop where
  a : ∀ m, i < m → m ≤ n → ∀ y, s.dist (a m) = some y → g + slow n m < y
  q : ∀ m, c ≤ m → m < n → ∀ y, s.dist (q m) = some y → g + slow n m + 1 < y
  p : ∀ m, c ≤ m → m < n → ∀ y, s.dist (p m) = some y → g + slow n m + 5 * 2 ^ (n - m) < y

/-- The vertices behind `a i` have the distances along the straight ways. -/
structure Done (n : ℕ) (a q p : ℕ → V) (s : State V ℤ) (i c : ℕ) (d : ℤ) : Prop where
  a : ∀ m, i < m → m ≤ n → s.dist (a m) = some (d + aAt n m - aAt n i)
  q : ∀ m, c ≤ m → m < n → s.dist (q m) = some (d + aAt n m - aAt n i + 1)
  p : ∀ m, c ≤ m → m < n → s.dist (p m) = some (d + aAt n m - aAt n i + 5 * 2 ^ (n - m))

/-- The distances of the vertices up to stage `i` are the same. -/
structure Kept (a q p : ℕ → V) (s t : State V ℤ) (i c : ℕ) : Prop where
  a : ∀ m ≤ i, t.dist (a m) = s.dist (a m)
  q : ∀ m < c, t.dist (q m) = s.dist (q m)
  p : ∀ m < c, t.dist (p m) = s.dist (p m)

theorem two_pow_ne (s t : ℕ) : (3 : ℤ) * 2 ^ s ≠ 8 * 2 ^ t := by
  intro h
  rcases Nat.lt_or_ge s (t + 2) with hst | hst
  · have : (2 : ℤ) ^ s ≤ 2 ^ (t + 1) := pow_le_pow_right₀ (by norm_num) (by omega)
    rw [pow_succ] at this
    have hp : (0 : ℤ) < 2 ^ t := by positivity
    omega
  · have : (2 : ℤ) ^ (t + 2) ≤ 2 ^ s := pow_le_pow_right₀ (by norm_num) hst
    rw [pow_succ, pow_succ] at this
    have hp : (0 : ℤ) < 2 ^ t := by positivity
    omega

theorem two_pow_inj {s t : ℕ} (h : (2 : ℤ) ^ s = 2 ^ t) : s = t :=
  pow_right_injective₀ (by norm_num : (0 : ℤ) < 2) (by norm_num) h

theorem two_pow_sub {n i : ℕ} (h : i < n) : (2 : ℤ) ^ (n - i) = 2 * 2 ^ (n - (i + 1)) := by
  rw [show n - i = (n - (i + 1)) + 1 by omega, pow_succ]
  ring

theorem aAt_inj {n i m : ℕ} (hi : i ≤ n) (hm : m ≤ n) (h : aAt n i = aAt n m) : i = m := by
  unfold aAt at h
  have := two_pow_inj (show (2 : ℤ) ^ (n - i) = 2 ^ (n - m) by linarith)
  omega

theorem aAt_ne_qAt (n i m : ℕ) : aAt n i ≠ qAt n m := by
  unfold qAt aAt
  omega

theorem aAt_ne_pAt {n m : ℕ} (i : ℕ) (hm : m < n) : aAt n i ≠ pAt n m := by
  intro h
  unfold pAt aAt at h
  rw [two_pow_sub hm] at h
  have h2 := two_pow_ne (n - m) (n - i)
  rw [two_pow_sub hm] at h2
  omega

theorem qAt_inj {n i m : ℕ} (hi : i ≤ n) (hm : m ≤ n) (h : qAt n i = qAt n m) : i = m :=
  aAt_inj hi hm (by unfold qAt at h; linarith)

theorem qAt_ne_pAt {n m : ℕ} (i : ℕ) (hm : m < n) : qAt n i ≠ pAt n m := by
  intro h
  unfold qAt pAt aAt at h
  rw [two_pow_sub hm] at h
  omega

theorem pAt_inj {n i m : ℕ} (hi : i < n) (hm : m < n) (h : pAt n i = pAt n m) : i = m := by
  unfold pAt aAt at h
  rw [two_pow_sub hm, two_pow_sub hi] at h
  have := two_pow_inj (show (2 : ℤ) ^ (n - (i + 1)) = 2 ^ (n - (m + 1)) by linarith)
  omega

theorem at_bounds {n i : ℕ} :
    (0 ≤ aAt n i ∧ aAt n i < 9 * 2 ^ n) ∧ (0 ≤ qAt n i ∧ qAt n i < 9 * 2 ^ n) ∧
      (i < n → 0 ≤ pAt n i ∧ pAt n i < 9 * 2 ^ n) := by
  have h1 : (2 : ℤ) ^ (n - i) ≤ 2 ^ n := pow_le_pow_right₀ (by norm_num) (Nat.sub_le n i)
  have h2 : (0 : ℤ) < 2 ^ (n - i) := by positivity
  unfold qAt aAt
  refine ⟨by omega, by omega, fun h => ?_⟩
  unfold pAt aAt
  rw [two_pow_sub h] at *
  omega

omit [DecidableEq V] in
theorem Comb.aa (C : Comb P n T x a q p z) {i m : ℕ} (hi : i ≤ n) (hm : m ≤ n) (h : i ≠ m) :
    a i ≠ a m := by
  intro he
  have := congrArg x he
  rw [C.xa i hi, C.xa m hm] at this
  exact h (aAt_inj hi hm this)

omit [DecidableEq V] in
theorem Comb.aq (C : Comb P n T x a q p z) {i m : ℕ} (hi : i ≤ n) (hm : m < n) : a i ≠ q m := by
  intro he
  have := congrArg x he
  rw [C.xa i hi, C.xq m hm] at this
  exact aAt_ne_qAt n i m this

omit [DecidableEq V] in
theorem Comb.ap (C : Comb P n T x a q p z) {i m : ℕ} (hi : i ≤ n) (hm : m < n) : a i ≠ p m := by
  intro he
  have := congrArg x he
  rw [C.xa i hi, C.xp m hm] at this
  exact aAt_ne_pAt i hm this

omit [DecidableEq V] in
theorem Comb.qq (C : Comb P n T x a q p z) {i m : ℕ} (hi : i < n) (hm : m < n) (h : i ≠ m) :
    q i ≠ q m := by
  intro he
  have := congrArg x he
  rw [C.xq i hi, C.xq m hm] at this
  exact h (qAt_inj hi.le hm.le this)

omit [DecidableEq V] in
theorem Comb.qp (C : Comb P n T x a q p z) {i m : ℕ} (hi : i < n) (hm : m < n) : q i ≠ p m := by
  intro he
  have := congrArg x he
  rw [C.xq i hi, C.xp m hm] at this
  exact qAt_ne_pAt i hm this

omit [DecidableEq V] in
theorem Comb.pp (C : Comb P n T x a q p z) {i m : ℕ} (hi : i < n) (hm : m < n) (h : i ≠ m) :
    p i ≠ p m := by
  intro he
  have := congrArg x he
  rw [C.xp i hi, C.xp m hm] at this
  exact h (pAt_inj hi hm this)

omit [DecidableEq V] in
/-- The three kinds of vertices lie before the destination. -/
theorem Comb.before (C : Comb P n T x a q p z) {i : ℕ} :
    (i ≤ n → x (a i) < T) ∧ (i < n → x (q i) < T) ∧ (i < n → x (p i) < T) := by
  have hb := C.big
  obtain ⟨h1, h2, h3⟩ := at_bounds (n := n) (i := i)
  refine ⟨fun h => ?_, fun h => ?_, fun h => ?_⟩
  · rw [C.xa i h]; linarith
  · rw [C.xq i h]; linarith
  · rw [C.xp i h]; linarith [h3 h]

omit [DecidableEq V] in
theorem Comb.ne_dst (C : Comb P n T x a q p z) {v : V} (h : x v < T) : v ≠ P.dst := by
  rintro rfl
  rw [C.xt] at h
  exact lt_irrefl _ h

omit [DecidableEq V] in
theorem Comb.prio_lt (C : Comb P n T x a q p z) {v : V} (d : ℤ) (h : x v < T) :
    P.prio d v = d + (T - x v) * 2 := by
  rw [C.prio, abs_of_neg (by linarith), neg_sub]

omit [DecidableEq V] in
theorem Comb.improved_of (C : Comb P n T x a q p z) {e : Entry V ℤ} {s : State V ℤ} {m : V}
    (h : ∀ y, s.dist m = some y → e.dist + |x m - x e.node| < y) : improved P e s m := by
  refine ⟨C.near m, ?_⟩
  rw [C.add, C.len]
  cases hk : known s m (e.dist + |x m - x e.node|)
  · rfl
  · obtain ⟨y, h1, h2⟩ := (known_iff s m _).1 hk
    exact absurd h2 (not_le.2 (h y h1))

omit [DecidableEq V] in
theorem Comb.not_improved (C : Comb P n T x a q p z) {e : Entry V ℤ} {s : State V ℤ} {m : V}
    {y : ℤ} (h : s.dist m = some y) (hy : y ≤ e.dist + |x m - x e.node|) : ¬ improved P e s m := by
  rintro ⟨-, hk⟩
  have : known s m (P.add e.dist (P.len e.node m)) = true := by
    rw [known_iff, C.add, C.len]
    exact ⟨y, h, hy⟩
  rw [this] at hk
  cases hk

/-- What visiting `a i` at distance `d` leads to. -/
def Visit (P : Problem V ℤ) (n : ℕ) (T : ℤ) (a q p : ℕ → V) (i : ℕ) : Prop :=
  ∀ (d : ℤ) (k : ℕ) (s : State V ℤ) (R : List (Entry V ℤ)) (y y' : ℤ), Exec P k s →
    s.pq.Perm (⟨a i, d⟩ :: R) → (∀ e ∈ R, d + (T - aAt n i) * 2 ≤ P.prio e.dist e.node) →
    s.dist (a i) = some d → s.dist (q (i - 1)) = some y → y ≤ d + 8 * 2 ^ (n - i) - 1 →
    s.dist (p (i - 1)) = some y' → y' ≤ d + 2 * 2 ^ (n - i) →
    Far n a q p s i i (d - slow n i) →
    ∃ t, Exec P (k + (1 + rounds (n - i))) t ∧ t.pq.Perm R ∧ Kept a q p s t i i ∧
      Done n a q p t i i d

/-- What the two ways from `a i` at distance `d` lead to. -/
def Stage (P : Problem V ℤ) (n : ℕ) (T : ℤ) (a q p : ℕ → V) (i : ℕ) : Prop :=
  ∀ (d : ℤ) (k : ℕ) (s : State V ℤ) (R : List (Entry V ℤ)), Exec P k s →
    s.pq.Perm (⟨q i, d + 1⟩ :: ⟨p i, d + 5 * 2 ^ (n - i)⟩ :: R) →
    (∀ e ∈ R, d + (T - aAt n i) * 2 - 1 ≤ P.prio e.dist e.node) →
    s.dist (a i) = some d → s.dist (q i) = some (d + 1) →
    s.dist (p i) = some (d + 5 * 2 ^ (n - i)) →
    Far n a q p s i (i + 1) (d - slow n i) →
    ∃ t, Exec P (k + rounds (n - i)) t ∧ t.pq.Perm R ∧ Kept a q p s t i (i + 1) ∧
      Done n a q p t i (i + 1) d

theorem stage_of_visit (C : Comb P n T x a q p z) {i : ℕ} (hi : i < n)
    (hV : Visit P n T a q p (i + 1)) : Stage P n T a q p i := by
  intro d k s R hs hpq hR ha hq hp hfar
  have hb := C.before (i := i)
  have hb1 := C.before (i := i + 1)
  have xa := C.xa i hi.le
  have xa1 := C.xa (i + 1) hi
  have xq : x (q i) = aAt n i + 1 := C.xq i hi
  have xp : x (p i) = aAt n (i + 1) + 2 ^ (n - i) := C.xp i hi
  have e1 : aAt n (i + 1) = aAt n i + 8 * 2 ^ (n - (i + 1)) := by
    unfold aAt; rw [two_pow_sub hi]; ring
  have e2 : slow n (i + 1) = slow n i + 12 * 2 ^ (n - (i + 1)) := by
    unfold slow; rw [two_pow_sub hi]; ring
  have e3 := two_pow_sub hi
  have hu : (0 : ℤ) < 2 ^ (n - (i + 1)) := by positivity
  rw [e3] at hp hpq xp
  generalize hU : (2 : ℤ) ^ (n - (i + 1)) = u at *
  generalize hX : aAt n i = X at *
  -- the way past the next vertex
  have i1 : improved P ⟨p i, d + 5 * (2 * u)⟩ s (a (i + 1)) := by
    refine C.improved_of fun y hy => ?_
    have := hfar.a (i + 1) (Nat.lt_succ_self i) hi y hy
    rw [xa1, xp, e1, abs_of_neg (by linarith)]
    simp only
    linarith
  obtain ⟨s1, hs1, hpq1, hd1⟩ := step_effect hs
    (e := ⟨p i, d + 5 * (2 * u)⟩) (R := ⟨q i, d + 1⟩ :: R) (hpq.trans (List.Perm.swap _ _ _))
    (by
      intro e he
      simp only
      rw [C.prio_lt _ (hb.2.2 hi), xp]
      rcases List.mem_cons.1 he with rfl | he
      · rw [C.prio_lt _ (hb.2.1 hi), xq]
        linarith
      · have := hR e he
        linarith)
    (C.ne_dst (hb.2.2 hi)) [a (i + 1)] (List.nodup_singleton _)
    (by
      intro m
      simp only
      rw [List.mem_singleton, C.np i hi]
      constructor
      · rintro rfl
        exact ⟨Or.inr rfl, i1⟩
      · rintro ⟨rfl | rfl, h⟩
        · exact absurd h (C.not_improved ha (by
            have := abs_nonneg (x (a i) - x (p i))
            simp only
            linarith))
        · rfl)
  have l1 : P.add (d + 5 * (2 * u)) (P.len (p i) (a (i + 1))) = d + 12 * u := by
    rw [C.add, C.len, xa1, xp, e1, abs_of_neg (by linarith)]
    ring
  simp only [List.map_cons, List.map_nil, List.cons_append, List.nil_append, l1,
    List.mem_singleton] at hpq1 hd1
  -- everything behind it
  have hother : ∀ v, v ≠ a (i + 1) → s1.dist v = s.dist v := fun v hv => by
    rw [hd1, if_neg hv]
  obtain ⟨s2, hs2, hpq2, hk2, hdone2⟩ := hV (d + 12 * u) (k + 1) s1 (⟨q i, d + 1⟩ :: R)
    (d + 1) (d + 5 * (2 * u)) hs1 hpq1
    (by
      intro e he
      rw [e1]
      rcases List.mem_cons.1 he with rfl | he
      · simp only
        rw [C.prio_lt _ (hb.2.1 hi), xq]
        linarith
      · have := hR e he
        linarith)
    (by rw [hd1, if_pos rfl, l1])
    (by rw [Nat.add_sub_cancel, hother _ (C.aq hi hi).symm]; exact hq) (by rw [hU]; linarith)
    (by rw [Nat.add_sub_cancel, hother _ (C.ap hi hi).symm]; exact hp) (by rw [hU]; linarith)
    (by
      have hg : d + 12 * u - slow n (i + 1) = d - slow n i := by rw [e2]; ring
      rw [hg]
      refine ⟨fun m h1 h2 y hy => ?_, fun m h1 h2 y hy => ?_, fun m h1 h2 y hy => ?_⟩
      · rw [hother _ (C.aa h2 hi (by omega))] at hy
        exact hfar.a m (by omega) h2 y hy
      · rw [hother _ (C.aq hi h2).symm] at hy
        exact hfar.q m h1 h2 y hy
      · rw [hother _ (C.ap hi h2).symm] at hy
        exact hfar.p m h1 h2 y hy)
  -- the straight way
  have d2a : s2.dist (a i) = some d := by
    rw [hk2.a i (Nat.le_succ i), hother _ (C.aa hi.le hi (by omega))]; exact ha
  have d2a1 : s2.dist (a (i + 1)) = some (d + 12 * u) := by
    rw [hk2.a (i + 1) le_rfl, hd1, if_pos rfl, l1]
  have d2q : s2.dist (q i) = some (d + 1) := by
    rw [hk2.q i (Nat.lt_succ_self i), hother _ (C.aq hi hi).symm]; exact hq
  have d2p : s2.dist (p i) = some (d + 5 * (2 * u)) := by
    rw [hk2.p i (Nat.lt_succ_self i), hother _ (C.ap hi hi).symm]; exact hp
  have i3 : improved P ⟨q i, d + 1⟩ s2 (a (i + 1)) := by
    refine C.improved_of fun y hy => ?_
    rw [d2a1] at hy
    cases hy
    rw [xa1, xq, e1, abs_of_nonneg (by linarith)]
    simp only
    linarith
  obtain ⟨s3, hs3, hpq3, hd3⟩ := step_effect hs2
    (e := ⟨q i, d + 1⟩) (R := R) hpq2
    (by
      intro e he
      simp only
      rw [C.prio_lt _ (hb.2.1 hi), xq]
      have := hR e he
      linarith)
    (C.ne_dst (hb.2.1 hi)) [a (i + 1)] (List.nodup_singleton _)
    (by
      intro m
      simp only
      rw [List.mem_singleton, C.nq i hi]
      constructor
      · rintro rfl
        exact ⟨Or.inr rfl, i3⟩
      · rintro ⟨rfl | rfl, h⟩
        · exact absurd h (C.not_improved d2a (by
            have := abs_nonneg (x (a i) - x (q i))
            simp only
            linarith))
        · rfl)
  have l3 : P.add (d + 1) (P.len (q i) (a (i + 1))) = d + 8 * u := by
    rw [C.add, C.len, xa1, xq, e1, abs_of_nonneg (by linarith)]
    ring
  simp only [List.map_cons, List.map_nil, List.cons_append, List.nil_append, l3,
    List.mem_singleton] at hpq3 hd3
  have hother3 : ∀ v, v ≠ a (i + 1) → s3.dist v = s2.dist v := fun v hv => by
    rw [hd3, if_neg hv]
  have hbelow : ∀ m, (0 : ℤ) < 2 ^ (n - m) := fun m => by positivity
  -- everything behind it, again
  obtain ⟨s4, hs4, hpq4, hk4, hdone4⟩ := hV (d + 8 * u) _ s3 R
    (d + 1) (d + 5 * (2 * u)) hs3 hpq3
    (by
      intro e he
      have := hR e he
      rw [e1]
      linarith)
    (by rw [hd3, if_pos rfl, l3])
    (by rw [Nat.add_sub_cancel, hother3 _ (C.aq hi hi).symm]; exact d2q) (by rw [hU]; linarith)
    (by rw [Nat.add_sub_cancel, hother3 _ (C.ap hi hi).symm]; exact d2p) (by rw [hU]; linarith)
    (by
      have hs0 : ∀ m, slow n m = aAt n m - 4 * 2 ^ (n - m) := fun m => by
        unfold slow aAt; ring
      have hs1' : slow n (i + 1) = aAt n (i + 1) - 4 * u := by rw [hs0, hU]
      refine ⟨fun m h1 h2 y hy => ?_, fun m h1 h2 y hy => ?_, fun m h1 h2 y hy => ?_⟩
      · rw [hother3 _ (C.aa h2 hi (by omega)), hdone2.a m h1 h2] at hy
        cases hy
        rw [hs1', hs0 m]
        linarith [hbelow m]
      · rw [hother3 _ (C.aq hi h2).symm, hdone2.q m h1 h2] at hy
        cases hy
        rw [hs1', hs0 m]
        linarith [hbelow m]
      · rw [hother3 _ (C.ap hi h2).symm, hdone2.p m h1 h2] at hy
        cases hy
        rw [hs1', hs0 m]
        linarith [hbelow m])
  refine ⟨s4, ?_, hpq4, ⟨fun m hm => ?_, fun m hm => ?_, fun m hm => ?_⟩,
    ⟨fun m h1 h2 => ?_, fun m h1 h2 => ?_, fun m h1 h2 => ?_⟩⟩
  · have : rounds (n - i) = 4 + 2 * rounds (n - (i + 1)) := by
      rw [show n - i = (n - (i + 1)) + 1 by omega, rounds]
    rw [this]
    rw [show k + (4 + 2 * rounds (n - (i + 1))) =
      k + 1 + (1 + rounds (n - (i + 1))) + 1 + (1 + rounds (n - (i + 1))) by omega]
    exact hs4
  · have hne : a m ≠ a (i + 1) := C.aa (by omega) hi (by omega)
    rw [hk4.a m (by omega), hother3 _ hne, hk2.a m (by omega), hother _ hne]
  · have hne : q m ≠ a (i + 1) := (C.aq hi (by omega)).symm
    rw [hk4.q m hm, hother3 _ hne, hk2.q m hm, hother _ hne]
  · have hne : p m ≠ a (i + 1) := (C.ap hi (by omega)).symm
    rw [hk4.p m hm, hother3 _ hne, hk2.p m hm, hother _ hne]
  · by_cases hm : m = i + 1
    · subst hm
      rw [hk4.a (i + 1) le_rfl, hd3, if_pos rfl, l3, e1]
      congr 1
      linarith
    · rw [hdone4.a m (by omega) h2, e1]
      congr 1
      linarith
  · rw [hdone4.q m h1 h2, e1]
    congr 1
    linarith
  · rw [hdone4.p m h1 h2, e1]
    congr 1
    linarith

theorem visit_of_stage (C : Comb P n T x a q p z) {i : ℕ} (h0 : 0 < i) (hi : i ≤ n)
    (hS : i < n → Stage P n T a q p i) : Visit P n T a q p i := by
  intro d k s R y y' hs hpq hR ha hq hy hp hy' hfar
  obtain ⟨j, rfl⟩ : ∃ j, i = j + 1 := ⟨i - 1, by omega⟩
  rw [Nat.add_sub_cancel] at hq hp
  have hj : j < n := hi
  have hb := C.before (i := j + 1)
  have xa := C.xa (j + 1) hi
  have e1 : aAt n (j + 1) = aAt n j + 8 * 2 ^ (n - (j + 1)) := by
    unfold aAt; rw [two_pow_sub hj]; ring
  have hu : (0 : ℤ) < 2 ^ (n - (j + 1)) := by positivity
  have kq : ¬ improved P ⟨a (j + 1), d⟩ s (q j) := by
    refine C.not_improved hq ?_
    simp only
    rw [xa, C.xq j hj, qAt, e1, abs_sub_comm, abs_of_nonneg (by linarith)]
    linarith
  have kp : ¬ improved P ⟨a (j + 1), d⟩ s (p j) := by
    refine C.not_improved hp ?_
    simp only
    rw [xa, C.xp j hj, pAt, two_pow_sub hj, abs_of_nonneg (by linarith)]
    linarith
  have htop : ∀ e ∈ R, ¬ P.prio e.dist e.node < P.prio d (a (j + 1)) := by
    intro e he
    rw [C.prio_lt _ (hb.1 hi), xa]
    have := hR e he
    linarith
  by_cases hn : j + 1 < n
  · have e5 : aAt n (j + 1 + 1) + 2 ^ (n - (j + 1)) = aAt n (j + 1) + 5 * 2 ^ (n - (j + 1)) := by
      unfold aAt; rw [two_pow_sub hn]; ring
    have iq : improved P ⟨a (j + 1), d⟩ s (q (j + 1)) := by
      refine C.improved_of fun v hv => ?_
      have := hfar.q (j + 1) le_rfl hn v hv
      simp only
      rw [xa, C.xq _ hn, qAt, abs_of_nonneg (by linarith)]
      linarith
    have ip : improved P ⟨a (j + 1), d⟩ s (p (j + 1)) := by
      refine C.improved_of fun v hv => ?_
      have := hfar.p (j + 1) le_rfl hn v hv
      simp only
      rw [xa, C.xp _ hn, pAt, e5, abs_of_nonneg (by linarith)]
      linarith
    obtain ⟨s1, hs1, hpq1, hd1⟩ := step_effect hs (e := ⟨a (j + 1), d⟩) (R := R) hpq htop
      (C.ne_dst (hb.1 hi)) [q (j + 1), p (j + 1)] (by simp [C.qp hn hn])
      (by
        intro m
        simp only [List.mem_cons, List.not_mem_nil, or_false]
        rw [C.na j hj]
        constructor
        · rintro (rfl | rfl)
          · exact ⟨Or.inr (Or.inr ⟨hn, Or.inl rfl⟩), iq⟩
          · exact ⟨Or.inr (Or.inr ⟨hn, Or.inr rfl⟩), ip⟩
        · rintro ⟨rfl | rfl | ⟨-, rfl | rfl⟩, h⟩
          · exact absurd h kq
          · exact absurd h kp
          · exact Or.inl rfl
          · exact Or.inr rfl)
    have lq : P.add d (P.len (a (j + 1)) (q (j + 1))) = d + 1 := by
      rw [C.add, C.len, xa, C.xq _ hn, qAt, abs_of_nonneg (by linarith)]
      ring
    have lp : P.add d (P.len (a (j + 1)) (p (j + 1))) = d + 5 * 2 ^ (n - (j + 1)) := by
      rw [C.add, C.len, xa, C.xp _ hn, pAt, e5, abs_of_nonneg (by linarith)]
      ring
    simp only [List.map_cons, List.map_nil, List.cons_append, List.nil_append, lq, lp,
      List.mem_cons, List.not_mem_nil, or_false] at hpq1 hd1
    have hother : ∀ v, v ≠ q (j + 1) → v ≠ p (j + 1) → s1.dist v = s.dist v := fun v h1 h2 => by
      rw [hd1, if_neg (by rintro (h | h); exacts [h1 h, h2 h])]
    have dq : s1.dist (q (j + 1)) = some (d + 1) := by rw [hd1, if_pos (Or.inl rfl), lq]
    have dp : s1.dist (p (j + 1)) = some (d + 5 * 2 ^ (n - (j + 1))) := by
      rw [hd1, if_pos (Or.inr rfl), lp]
    obtain ⟨t, ht, hpqt, hkt, hdt⟩ := hS hn d (k + 1) s1 R hs1 hpq1
      (fun e he => by have := hR e he; linarith)
      (by rw [hother _ (C.aq hi hn) (C.ap hi hn)]; exact ha) dq dp
      (by
        refine ⟨fun m h1 h2 v hv => ?_, fun m h1 h2 v hv => ?_, fun m h1 h2 v hv => ?_⟩
        · rw [hother _ (C.aq h2 hn) (C.ap h2 hn)] at hv
          exact hfar.a m h1 h2 v hv
        · rw [hother _ (C.qq h2 hn (by omega)) (C.qp h2 hn)] at hv
          exact hfar.q m (by omega) h2 v hv
        · rw [hother _ (C.qp hn h2).symm (C.pp h2 hn (by omega))] at hv
          exact hfar.p m (by omega) h2 v hv)
    refine ⟨t, by rw [← Nat.add_assoc]; exact ht, hpqt, ⟨fun m hm => ?_, fun m hm => ?_, fun m hm => ?_⟩,
      ⟨hdt.a, fun m h1 h2 => ?_, fun m h1 h2 => ?_⟩⟩
    · rw [hkt.a m hm, hother _ (C.aq (by omega) hn) (C.ap (by omega) hn)]
    · rw [hkt.q m (by omega), hother _ (C.qq (by omega) hn (by omega)) (C.qp (by omega) hn)]
    · rw [hkt.p m (by omega),
        hother _ (C.qp hn (by omega)).symm (C.pp (by omega) hn (by omega))]
    · by_cases hm : m = j + 1
      · subst hm
        rw [hkt.q (j + 1) (by omega), dq]
        congr 1
        linarith
      · exact hdt.q m (by omega) h2
    · by_cases hm : m = j + 1
      · subst hm
        rw [hkt.p (j + 1) (by omega), dp]
        congr 1
        linarith
      · exact hdt.p m (by omega) h2
  · obtain ⟨s1, hs1, hpq1, hd1⟩ := step_effect hs (e := ⟨a (j + 1), d⟩) (R := R) hpq htop
      (C.ne_dst (hb.1 hi)) [] List.nodup_nil
      (by
        intro m
        simp only [List.not_mem_nil, false_iff]
        rw [C.na j hj]
        rintro ⟨rfl | rfl | ⟨h, -⟩, h'⟩
        · exact kq h'
        · exact kp h'
        · exact hn h)
    simp only [List.map_nil, List.nil_append, List.not_mem_nil, if_false] at hpq1 hd1
    refine ⟨s1, ?_, hpq1, ⟨fun m _ => hd1 _, fun m _ => hd1 _, fun m _ => hd1 _⟩,
      ⟨fun m h1 h2 => by omega, fun m h1 h2 => by omega, fun m h1 h2 => by omega⟩⟩
    rw [show n - (j + 1) = 0 by omega]
    exact hs1

/-- Every stage repeats what is behind it. -/
theorem Comb.stage (C : Comb P n T x a q p z) (i : ℕ) (hi : i < n) : Stage P n T a q p i := by
  have key : ∀ j i, i + j = n → 0 < i → Visit P n T a q p i := by
    intro j
    induction j with
    | zero => exact fun i h h0 => visit_of_stage C h0 (by omega) fun h' => by omega
    | succ j ih =>
      exact fun i h h0 => visit_of_stage C h0 (by omega) fun h' =>
        stage_of_visit C h' (ih (i + 1) (by omega) (by omega))
  exact stage_of_visit C hi (key (n - (i + 1)) (i + 1) (by omega) (by omega))

/-- The whole search needs about `4 * 2 ^ n` iterations. -/
theorem Comb.exec (C : Comb P n T x a q p z) : ∃ t, Exec P (4 * 2 ^ n - 2) t := by
  have hn := C.pos
  have hb := C.before (i := 0)
  have hT := C.big
  have hT0 : (0 : ℤ) < 2 ^ n := by positivity
  have xs := C.xs
  have xz := C.xz
  have a0 : aAt n 0 = 0 := by unfold aAt; simp
  have xa := C.xa 0 (Nat.zero_le n)
  have xq : x (q 0) = aAt n 0 + 1 := C.xq 0 hn
  have xp : x (p 0) = aAt n (0 + 1) + 2 ^ (n - 0) := C.xp 0 hn
  have e5 : aAt n (0 + 1) + 2 ^ (n - 0) = 5 * 2 ^ (n - 0) := by
    unfold aAt; rw [two_pow_sub hn]
    have := two_pow_sub hn
    rw [Nat.sub_zero] at this
    rw [this]; ring
  rw [a0] at xa xq
  rw [e5] at xp
  have hp0 : (0 : ℤ) < 2 ^ (n - 0) := by positivity
  have hsa : a 0 ≠ P.src := fun h => by have := congrArg x h; rw [xa, xs] at this; omega
  have hsq : q 0 ≠ P.src := fun h => by have := congrArg x h; rw [xq, xs] at this; omega
  have hsp : p 0 ≠ P.src := fun h => by have := congrArg x h; rw [xp, xs] at this; omega
  have hza : a 0 ≠ z := fun h => by have := congrArg x h; rw [xa, xz] at this; omega
  -- the source
  obtain ⟨s1, hs1, hpq1, hd1⟩ := step_effect (Exec.init (P := P)) (e := ⟨P.src, P.zero⟩) (R := [])
    (List.Perm.refl _) (fun x hx => by cases hx) (C.ne_dst (by rw [xs]; omega)) [a 0, z]
    (by simp [hza])
    (by
      intro m
      simp only [List.mem_cons, List.not_mem_nil, or_false]
      rw [C.ns]
      constructor
      · exact fun h => ⟨h, C.improved_of fun y hy => by cases hy⟩
      · exact fun h => h.1)
  have l0 : P.add P.zero (P.len P.src (a 0)) = 1 := by
    rw [C.add, C.len, C.zero, xa, xs]; rfl
  have lz : P.add P.zero (P.len P.src z) = 1 := by
    rw [C.add, C.len, C.zero, xz, xs]; rfl
  simp only [List.map_cons, List.map_nil, List.cons_append, List.nil_append, l0, lz,
    List.mem_cons, List.not_mem_nil, or_false] at hpq1 hd1
  have hnone : ∀ v, v ≠ a 0 → v ≠ z → s1.dist v = none := fun v h1 h2 => by
    rw [hd1, if_neg (by rintro (h | h); exacts [h1 h, h2 h])]
    rfl
  have far : ∀ v, -2 < x v → v ≠ z := fun v hv h => by rw [h, xz] at hv; exact lt_irrefl _ hv
  have pz : P.prio 1 z = 1 + (T + 2) * 2 := by
    rw [C.prio_lt _ (by rw [xz]; omega), xz]; ring
  -- the first vertex
  obtain ⟨s2, hs2, hpq2, hd2⟩ := step_effect hs1 (e := ⟨a 0, 1⟩) (R := [⟨z, 1⟩]) hpq1
    (by
      intro e he
      rw [List.mem_singleton.1 he]
      simp only
      rw [C.prio_lt _ (hb.1 (Nat.zero_le n)), pz, xa]
      linarith)
    (C.ne_dst (hb.1 (Nat.zero_le n))) [q 0, p 0, P.src] (by simp [C.qp hn hn, hsq, hsp])
    (by
      intro m
      simp only [List.mem_cons, List.not_mem_nil, or_false]
      rw [C.n0]
      have hi : m = P.src ∨ m = q 0 ∨ m = p 0 → improved P ⟨a 0, 1⟩ s1 m := by
        intro h
        refine C.improved_of fun y hy => ?_
        rw [hnone m ?_ ?_] at hy
        · cases hy
        · rcases h with rfl | rfl | rfl
          · exact hsa.symm
          · exact (C.aq (Nat.zero_le n) hn).symm
          · exact (C.ap (Nat.zero_le n) hn).symm
        · rcases h with rfl | rfl | rfl
          · exact far _ (by rw [xs]; omega)
          · exact far _ (by rw [xq]; omega)
          · exact far _ (by rw [xp]; omega)
      constructor
      · rintro (rfl | rfl | rfl)
        · exact ⟨Or.inr (Or.inl rfl), hi (Or.inr (Or.inl rfl))⟩
        · exact ⟨Or.inr (Or.inr rfl), hi (Or.inr (Or.inr rfl))⟩
        · exact ⟨Or.inl rfl, hi (Or.inl rfl)⟩
      · rintro ⟨rfl | rfl | rfl, -⟩
        · exact Or.inr (Or.inr rfl)
        · exact Or.inl rfl
        · exact Or.inr (Or.inl rfl))
  have lq : P.add 1 (P.len (a 0) (q 0)) = 1 + 1 := by
    rw [C.add, C.len, xa, xq]; rfl
  have lp : P.add 1 (P.len (a 0) (p 0)) = 1 + 5 * 2 ^ (n - 0) := by
    rw [C.add, C.len, xa, xp, abs_of_nonneg (by omega)]; ring
  have ls : P.add 1 (P.len (a 0) P.src) = 2 := by
    rw [C.add, C.len, xa, xs]; rfl
  simp only [List.map_cons, List.map_nil, List.cons_append, List.nil_append, lq, lp, ls,
    List.mem_cons, List.not_mem_nil, or_false] at hpq2 hd2
  have hnone2 : ∀ v, v ≠ a 0 → v ≠ q 0 → v ≠ p 0 → -1 < x v → s2.dist v = none := by
    intro v h1 h2 h3 h4
    rw [hd2, if_neg]
    · exact hnone v h1 (far v (by omega))
    · rintro (h | h | h)
      · exact h2 h
      · exact h3 h
      · rw [h, xs] at h4; exact lt_irrefl _ h4
  have hpos : ∀ m, (0 : ℤ) < 2 ^ (n - m) := fun m => by positivity
  have hmono : ∀ m, (2 : ℤ) ^ (n - m) ≤ 2 ^ n := fun m =>
    pow_le_pow_right₀ (by norm_num) (Nat.sub_le n m)
  obtain ⟨t, ht, -⟩ := C.stage 0 hn 1 _ s2 [⟨P.src, 2⟩, ⟨z, 1⟩] hs2 hpq2
    (by
      intro e he
      simp only [List.mem_cons, List.not_mem_nil, or_false] at he
      rw [a0]
      rcases he with rfl | rfl
      · simp only
        rw [C.prio_lt _ (by rw [xs]; omega), xs]
        linarith
      · simp only
        rw [pz]
        linarith)
    (by
      rw [hd2, if_neg, hd1, if_pos (Or.inl rfl), l0]
      rintro (h | h | h)
      · exact C.aq (Nat.zero_le n) hn h
      · exact C.ap (Nat.zero_le n) hn h
      · exact hsa h)
    (by rw [hd2, if_pos (Or.inl rfl), lq])
    (by rw [hd2, if_pos (Or.inr (Or.inl rfl)), lp])
    (by
      refine ⟨fun m h1 h2 v hv => ?_, fun m h1 h2 v hv => ?_, fun m h1 h2 v hv => ?_⟩
      · rw [hnone2 _ (C.aa h2 (Nat.zero_le n) (by omega)) (C.aq h2 hn) (C.ap h2 hn)
          (by rw [C.xa m h2]; unfold aAt; have := hmono m; omega)] at hv
        cases hv
      · rw [hnone2 _ (C.aq (Nat.zero_le n) h2).symm (C.qq h2 hn (by omega)) (C.qp h2 hn)
          (by rw [C.xq m h2]; unfold qAt aAt; have := hmono m; omega)] at hv
        cases hv
      · rw [hnone2 _ (C.ap (Nat.zero_le n) h2).symm (C.qp hn h2).symm (C.pp h2 hn (by omega))
          (by
            rw [C.xp m h2]; unfold pAt aAt
            have := hmono (m + 1)
            have := hpos m
            omega)] at hv
        cases hv)
  refine ⟨t, ?_⟩
  have hr := rounds_eq n
  rw [Nat.sub_zero] at ht
  rw [show 4 * 2 ^ n - 2 = 0 + 1 + 1 + rounds n by omega]
  exact ht

end

end AStar

end Capi
