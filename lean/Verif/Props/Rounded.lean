import Verif.Lemmas.DoubleLike

/-!
# C64: the length of a path found with rounded distances

The code adds and compares doubles, so "shortest" can only hold up to rounding.  The theorems bound
the true length of the returned path, for the search as it is run by the code: every sum, product
and root is rounded, and ties in the queue are broken arbitrarily.
-/

namespace Capi

open ShortestPath

/-- The arithmetic of the code computes lengths up to rounding. -/
theorem double_like (sq : ℚ → Dbl) (hsq : SqrtOk fun q => (sq q).1) (hsq0 : ∀ x, 0 ≤ (sq x).1)
    (w : Dbl) (hw : 0 ≤ w.1) (limit : Option Dbl) : (doubleArith sq w limit).DoubleLike w limit where
  sound := double_sound sq hsq0 w limit
  mag v := mag_near hsq (fun _ => magSqDeg_zero) magSqDeg_err v
  add := rfl
  zero := rfl
  weigh _ _ hd hh := weigh_near hw hd hh
  over := rfl

/-- **C64** With doubles as in the code, the true length of the path found is at most `max 1 w`
times the length of every route within the limit, up to a relative error of `2^-48` for every vertex
of the path and two for every vertex of the route. -/
theorem C64_rounded (sq : ℚ → Dbl) (hsq : SqrtOk fun q => (sq q).1) (hsq0 : ∀ x, 0 ≤ (sq x).1)
    (E : Env) (hg : UserGraph E.graph) (hord : ∀ l, (E.ord l).Perm l)
    (s d : Coord) (allow : Bool) (N : Net) (c : Correction)
    (hp : prepare E s d allow = .ok (.inr (N, c))) (hr : InRange E c) (w : Dbl) (hw : 0 ≤ w.1)
    (limit : Option Dbl) (path : List Coord)
    (h : Query (doubleArith sq w limit) E s d allow (.ok path)) (route : List Coord)
    (hroute : IsWalk (RouteEdge E c) c.src c.dst route)
    (hfar : ∀ v ∈ route.tail, exceeds limit (heuristic (doubleArith sq w limit) c.src v) = false) :
    (1 - 1 / 2 ^ 48) ^ (path.length + route.length + 3) * walkLength (legLength E) path ≤
      (1 + 1 / 2 ^ 48) ^ (route.length + 3) *
        (max 1 ((w.1 : ℚ) : ℝ) * walkLength (legLength E) route) := by
  exact rounded_of (double_like sq hsq hsq0 w hw limit) hw E hg hord s d allow N c hp hr path h route
    hroute hfar

/-- **C64** If at most half a million places can be reached, then the path is at most `max 1 w`
times as long as every route within the limit, up to one part in a hundred million. -/
theorem C64_bounded (sq : ℚ → Dbl) (hsq : SqrtOk fun q => (sq q).1) (hsq0 : ∀ x, 0 ≤ (sq x).1)
    (E : Env) (hg : UserGraph E.graph) (hord : ∀ l, (E.ord l).Perm l)
    (s d : Coord) (allow : Bool) (N : Net) (c : Correction)
    (hp : prepare E s d allow = .ok (.inr (N, c))) (hr : InRange E c) (w : Dbl) (hw : 0 ≤ w.1)
    (limit : Option Dbl) (path : List Coord)
    (h : Query (doubleArith sq w limit) E s d allow (.ok path))
    (places : Finset Coord) (hsrc : c.src ∈ places)
    (hplaces : ∀ u ∈ places, ∀ v, RouteEdge E c u v → v ∈ places) (hcard : places.card ≤ 500000)
    (route : List Coord) (hroute : IsWalk (RouteEdge E c) c.src c.dst route)
    (hfar : ∀ v ∈ route.tail, exceeds limit (heuristic (doubleArith sq w limit) c.src v) = false) :
    walkLength (legLength E) path ≤
      (1 + 1 / 10 ^ 8) * (max 1 ((w.1 : ℚ) : ℝ) * walkLength (legLength E) route) := by
  exact bounded_of (double_like sq hsq hsq0 w hw limit) hw E hg hord s d allow N c hp hr path h places
    hsrc hplaces hcard route hroute hfar

/-- **C64** The limit in doubles: every vertex after the first of a path is within the limit up to
rounding, and the path is compared with all routes that stay within a limit smaller by rounding. -/
theorem C64_limit (sq : ℚ → Dbl) (hsq : SqrtOk fun q => (sq q).1) (hsq0 : ∀ x, 0 ≤ (sq x).1)
    (E : Env) (hg : UserGraph E.graph) (hord : ∀ l, (E.ord l).Perm l)
    (s d : Coord) (allow : Bool) (N : Net) (c : Correction)
    (hp : prepare E s d allow = .ok (.inr (N, c))) (hr : InRange E c) (w : Dbl) (hw : 0 ≤ w.1)
    (limit : Dbl) (path : List Coord)
    (h : Query (doubleArith sq w (some limit)) E s d allow (.ok path)) :
    (∀ v ∈ path.tail, (1 - 1 / 2 ^ 48) * wrapDist c.src v ≤ ((limit.1 : ℚ) : ℝ)) ∧
    ∀ places : Finset Coord, c.src ∈ places →
      (∀ u ∈ places, ∀ v, RouteEdge E c u v → v ∈ places) → places.card ≤ 500000 →
      ∀ route, IsWalk (RouteEdge E c) c.src c.dst route →
        (∀ v ∈ route.tail, (1 + 1 / 2 ^ 48) * wrapDist c.src v ≤ ((limit.1 : ℚ) : ℝ)) →
        walkLength (legLength E) path ≤
          (1 + 1 / 10 ^ 8) * (max 1 ((w.1 : ℚ) : ℝ) * walkLength (legLength E) route) := by
  exact limit_of (double_like sq hsq hsq0 w hw (some limit)) hw E hg hord s d allow N c hp hr path h

/-- A square root to doubles as assumed exists. -/
theorem exists_sqrt_dbl : ∃ sq : ℚ → Dbl, SqrtOk (fun q => (sq q).1) ∧ ∀ x, 0 ≤ (sq x).1 := by
  have key : ∀ q : ℚ, 0 < q → ∃ m : ℚ, 0 < m ∧ |fl m * fl m - q| ≤ q / 2 ^ 51 := by
    intro q hq
    have hqr : (0 : ℝ) < q := by exact_mod_cast hq
    have hr := Real.sqrt_pos.2 hqr
    have hrr := Real.mul_self_sqrt hqr.le
    obtain ⟨m, h1, h2⟩ := exists_rat_btwn (show √(q : ℝ) < √(q : ℝ) * (1 + 1 / 2 ^ 60) by nlinarith)
    have hm : (0 : ℝ) < m := hr.trans h1
    have hmq : 0 < m := by exact_mod_cast hm
    refine ⟨m, hmq, ?_⟩
    have a : (q : ℝ) ≤ m * m := by nlinarith
    have b : (m : ℝ) * m ≤ q * (1 + 1 / 2 ^ 58) := by
      have : (m : ℝ) * m ≤ √(q : ℝ) * (1 + 1 / 2 ^ 60) * (√(q : ℝ) * (1 + 1 / 2 ^ 60)) := by gcongr
      have e : √(q : ℝ) * (1 + 1 / 2 ^ 60) * (√(q : ℝ) * (1 + 1 / 2 ^ 60)) =
        √(q : ℝ) * √(q : ℝ) * ((1 + 1 / 2 ^ 60) * (1 + 1 / 2 ^ 60)) := by ring
      rw [e, hrr] at this
      refine this.trans ?_
      apply mul_le_mul_of_nonneg_left _ hqr.le
      norm_num
    have a' : q ≤ m * m := by exact_mod_cast a
    have b' : m * m ≤ q * (1 + 1 / 2 ^ 58) := by
      have : ((m * m : ℚ) : ℝ) ≤ ((q * (1 + 1 / 2 ^ 58) : ℚ) : ℝ) := by push_cast; exact b
      exact Rat.cast_le.1 this
    have hf := abs_le.1 (fl_err m)
    rw [abs_of_pos hmq] at hf
    have f1 : m * (1 - 1 / 2 ^ 53) ≤ fl m := by linarith [hf.1]
    have f2 : fl m ≤ m * (1 + 1 / 2 ^ 53) := by linarith [hf.2]
    have f0 : 0 ≤ m * (1 - 1 / 2 ^ 53) := by
      apply mul_nonneg hmq.le; norm_num
    have g1 : m * (1 - 1 / 2 ^ 53) * (m * (1 - 1 / 2 ^ 53)) ≤ fl m * fl m :=
      mul_le_mul f1 f1 f0 (f0.trans f1)
    have g2 : fl m * fl m ≤ m * (1 + 1 / 2 ^ 53) * (m * (1 + 1 / 2 ^ 53)) := by
      apply mul_le_mul f2 f2 (f0.trans f1) (by positivity)
    have e1 : m * (1 - 1 / 2 ^ 53) * (m * (1 - 1 / 2 ^ 53)) =
      m * m * ((1 - 1 / 2 ^ 53) * (1 - 1 / 2 ^ 53)) := by ring
    have e2 : m * (1 + 1 / 2 ^ 53) * (m * (1 + 1 / 2 ^ 53)) =
      m * m * ((1 + 1 / 2 ^ 53) * (1 + 1 / 2 ^ 53)) := by ring
    rw [e1] at g1
    rw [e2] at g2
    rw [abs_le]
    constructor
    · have : q * ((1 - 1 / 2 ^ 53) * (1 - 1 / 2 ^ 53)) ≤
          m * m * ((1 - 1 / 2 ^ 53) * (1 - 1 / 2 ^ 53)) := by gcongr
      norm_num at *
      linarith
    · have : m * m * ((1 + 1 / 2 ^ 53) * (1 + 1 / 2 ^ 53)) ≤
          q * (1 + 1 / 2 ^ 58) * ((1 + 1 / 2 ^ 53) * (1 + 1 / 2 ^ 53)) := by gcongr
      norm_num at *
      linarith
  classical
  have hz : ((Dbl.round 0).1 : ℚ) = 0 := fl_zero
  refine ⟨fun q => if h : 0 < q then Dbl.round (Classical.choose (key q h)) else Dbl.round 0,
    ⟨by simp [hz], fun q h => ?_, fun q h => ?_⟩, fun x => ?_⟩
  · simp only [dif_pos h]; exact fl_pos (Classical.choose_spec (key q h)).1
  · simp only [dif_pos h]; exact (Classical.choose_spec (key q h)).2
  · by_cases h : 0 < x
    · simp only [dif_pos h]; exact (fl_pos (Classical.choose_spec (key x h)).1).le
    · simp only [dif_neg h]; exact le_of_eq hz.symm

/-- Non-vacuity of C64: in the example with routes of 8° and 12° the code with doubles finds a path
of at most 8° up to rounding. -/
example (sq : ℚ → Dbl) (hsq : SqrtOk fun q => (sq q).1) (hsq0 : ∀ x, 0 ≤ (sq x).1) :
    ∃ path, Query (doubleArith sq (Dbl.round 1) none) exEnv exS exT false (.ok path) ∧
      walkLength (legLength exEnv) path ≤ 8 + 1 / 10 ^ 7 ∧ path ≠ [exS, exB, exT] := by
  have hA := double_sound sq hsq0 (Dbl.round 1) none
  have hord : ∀ l, (exEnv.ord l).Perm l := fun l => List.Perm.refl l
  have hr := exRoute exA rfl rfl
  obtain ⟨⟨r, hq⟩, -⟩ := C43_outcome _ hA exEnv exGraph_user hord exS exT false
  obtain ⟨p, rfl⟩ := (C46_failure _ hA exEnv exGraph_user hord _ _ _ _ _ exPrepare).1
    ⟨_, hr, fun _ _ => rfl⟩ r hq
  have h1 : ((Dbl.round 1).1 : ℚ) = 1 := by
    have := fl_int 1 (by norm_num)
    rw [Int.cast_one] at this
    exact this
  have key := C64_bounded sq hsq hsq0 exEnv exGraph_user hord _ _ _ _ _ exPrepare exRange
    (Dbl.round 1) (by rw [h1]; norm_num) none p hq {exS, exA, exT, exB}
    (by change exS ∈ _; decide)
    (fun u _ v he => by
      have : v ∈ exGraph.verts := by
        rcases he with h | ⟨-, -, -, ⟨vis, m, h, hm⟩, -⟩ | ⟨-, -, -, ⟨vis, m, h, hm⟩, -⟩ |
          ⟨-, -, -, ⟨vis, m, h, hm⟩, -⟩ | ⟨-, -, -, ⟨vis, m, h, hm⟩, -⟩
        · exact (hasEdge_verts exGraph_user.regular.built.shape h).2.2
        all_goals (cases h; cases hm)
      have hv : exGraph.verts = [exS, exA, exT, exB] := rfl
      rw [hv] at this
      simpa using this)
    (by decide) [exS, exA, exT] hr (fun _ _ => rfl)
  rw [exLength_a, h1, Rat.cast_one, max_self, one_mul] at key
  refine ⟨p, hq, by norm_num at *; linarith, fun hp => ?_⟩
  rw [hp, exLength_b] at key
  norm_num at key

end Capi
