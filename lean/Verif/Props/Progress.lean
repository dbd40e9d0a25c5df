import Verif.Lemmas.Progress
import Verif.Props.Visgraph

/-!
# C77: the progress bar of the generation

The bar is given `num_vertices / num_threads` steps.  If there are fewer vertices than threads this
is zero, and the bar converts an infinity or a NaN to `size_t`, which is undefined.
-/

namespace Capi

open Progress

/-- **C77** `fl32 x` is the `float` IEEE 754 prescribes. -/
theorem C77_float (x y : ℚ) :
    fl32 x = .fin y ↔ Rounds 24 (fun e => -149 ≤ e) x y ∧ |y| < 2 ^ 128 := by
  have key := round32_rounds x
  unfold fl32
  by_cases h : 2 ^ 128 ≤ |round32 x|
  · rw [if_pos h]
    constructor
    · intro h; cases h
    · rintro ⟨h1, h2⟩
      rw [← key.unique (by norm_num) h1] at h2
      exact absurd h (not_le.2 h2)
  · rw [if_neg h, F64.fin.injEq]
    push Not at h
    constructor
    · rintro rfl
      exact ⟨key, h⟩
    · exact fun h => key.unique (by norm_num) h.1

/-- **C77** With at least as many vertices as threads the bar does no harm: however the vertices are
distributed, a line with 50 cells is printed after each vertex of thread 0 and one at the end; the
filled part never shrinks and is full from the intended number of steps on. -/
theorem C77_safe (n threads : ℕ) (times : List ℤ) (last : ℤ) (h1 : 1 ≤ threads) (h2 : threads ≤ n)
    (h3 : n ≤ 2 ^ 40) (h4 : times.length ≤ n) (h5 : ClockOk (n / threads) times) :
    ∃ k : ℕ → ℕ, Monotone k ∧ (∀ p, n / threads ≤ p → 50 ≤ k p) ∧
      run n threads times last = .ok ((List.range (times.length + 1)).map fun i =>
        ⟨barOf (k (min (i + 1) times.length)),
          decide (n / threads ≤ min (i + 1) times.length ∨ i = times.length)⟩) := by
  have hm : (0 : ℚ) < (n / threads : ℕ) := by exact_mod_cast Nat.div_pos h2 h1
  refine ⟨fun p => shownAt p (n / threads), fun p q hpq => ?_, fun p hp => ?_, run_ok last h1 h2 h3 h4 h5⟩
  · have hq : (p : ℚ) ≤ q := by exact_mod_cast hpq
    exact Int.toNat_le_toNat (Int.floor_mono (scaled_mono (div_le_div_of_nonneg_right hq hm.le)))
  · have hq : ((n / threads : ℕ) : ℚ) ≤ p := by exact_mod_cast hp
    have : 50 ≤ ⌊scaled ((p : ℚ) / (n / threads : ℕ))⌋ :=
      Int.le_floor.2 (by exact_mod_cast scaled_full ((one_le_div hm).2 hq))
    show 50 ≤ shownAt p (n / threads)
    unfold shownAt
    omega

/-- **C77** Up to 100000 steps the bar is exact, in spite of the arithmetic with `float`. -/
theorem C77_exact (n threads : ℕ) (times : List ℤ) (last : ℤ) (h1 : 1 ≤ threads) (h2 : threads ≤ n)
    (h3 : n ≤ 2 ^ 40) (hs : n / threads ≤ 100000) (h4 : times.length ≤ n)
    (h5 : ClockOk (n / threads) times) :
    run n threads times last = .ok ((List.range (times.length + 1)).map fun i =>
      ⟨barOf (50 * min (i + 1) times.length / (n / threads)),
        decide (n / threads ≤ min (i + 1) times.length ∨ i = times.length)⟩) := by
  have hm : 1 ≤ n / threads := Nat.div_pos h2 h1
  rw [run_ok last h1 h2 h3 h4 h5]
  refine congrArg Except.ok (List.map_congr_left fun i _ => ?_)
  congr 1
  generalize min (i + 1) times.length = p
  generalize n / threads = m at *
  rcases lt_or_ge p m with h | h
  · unfold shownAt
    rw [scaled_floor hm hs h, Int.toNat_natCast]
  · have a : ¬ (shownAt p m < 50) := by
      have hq : (m : ℚ) ≤ p := by exact_mod_cast h
      have : 50 ≤ ⌊scaled ((p : ℚ) / m)⌋ :=
        Int.le_floor.2 (by exact_mod_cast scaled_full ((one_le_div (by exact_mod_cast hm)).2 hq))
      unfold shownAt
      omega
    have b : ¬ (50 * p / m < 50) := by
      rw [Nat.div_lt_iff_lt_mul (by omega)]
      omega
    unfold barOf
    rw [if_neg a, if_neg b]

/-- **C77** (false as a safety claim) With more threads than vertices the bar is undefined behaviour,
at the latest when it is marked as completed; so it is without any polygon. -/
theorem C77_undefined_false (n threads : ℕ) (times : List ℤ) (last : ℤ) (h : n < threads) :
    run n threads times last = .error .ub := by
  have h0 : n / threads = 0 := Nat.div_eq_of_lt h
  unfold run
  rw [h0]
  cases times with
  | nil =>
    unfold ticks finish print
    simp [pos_zero]
  | cons t r =>
    unfold ticks tick print
    simp [pos_zero]

/-- **C77** The generation with its bar: the graph of the generation without it if there are at least
as many vertices as threads, and undefined behaviour otherwise. -/
theorem C77_generate (T : ℕ → Polygon.SumTree) (ps : List (List Coord))
    (hg : ∀ v ∈ ps.flatten, v.Geo) (scanner : Coord → Res (List (Coord × Bool)))
    (hs : Visgraph.IsScanner T ps scanner) (order : List Coord → List Coord)
    (ho : ∀ l, (order l).Perm l) (threads : ℕ) (times : List ℤ) (last : ℤ) (h1 : 1 ≤ threads)
    (h3 : ps.flatten.length ≤ 2 ^ 40) (h4 : times.length ≤ ps.flatten.length)
    (h5 : ClockOk (ps.flatten.length / threads) times) :
    ∃ g, Visgraph.generate ps scanner order = .ok g ∧
      (threads ≤ ps.flatten.length →
        ∃ fs, generate ps scanner order threads times last = .ok (g, fs)) ∧
      (ps.flatten.length < threads →
        generate ps scanner order threads times last = .error .ub) := by
  obtain ⟨g, f, e, -⟩ := C38_edges T ps hg scanner hs order ho
  refine ⟨g, e, fun h => ?_, fun h => ?_⟩
  · obtain ⟨k, -, -, hk⟩ := C77_safe _ threads times last h1 h h3 h4 h5
    unfold generate
    rw [e, Res.bind_ok, Visgraph.polygonVertices_eq, hk]
    exact ⟨_, rfl⟩
  · unfold generate
    rw [e, Res.bind_ok, Visgraph.polygonVertices_eq, C77_undefined_false _ threads times last h]
    rfl

/-- Three triangles' worth of vertices on two threads, of which thread 0 handles six: the bar has four
steps and is full two vertices before the end, each of which starts a line of its own. -/
example : run 9 2 [0, 10 ^ 9, 2 * 10 ^ 9, 3 * 10 ^ 9, 4 * 10 ^ 9, 5 * 10 ^ 9] (6 * 10 ^ 9) =
    .ok [⟨barOf 12, false⟩, ⟨barOf 25, false⟩, ⟨barOf 37, false⟩, ⟨barOf 50, true⟩, ⟨barOf 62, true⟩,
      ⟨barOf 75, true⟩, ⟨barOf 75, true⟩] := by
  rw [C77_exact 9 2 _ _ (by decide) (by decide) (by decide) (by decide) (by decide)]
  · rfl
  · intro i t h
    rcases i with _ | _ | _ | _ | _ | _ | i <;> simp at h <;> subst h <;> norm_num

/-- The same with thread 0 handling two: the bar ends half full. -/
example : run 9 2 [0, 10 ^ 9] (2 * 10 ^ 9) =
    .ok [⟨barOf 12, false⟩, ⟨barOf 25, false⟩, ⟨barOf 25, true⟩] := by
  rw [C77_exact 9 2 _ _ (by decide) (by decide) (by decide) (by decide) (by decide)]
  · rfl
  · intro i t h
    rcases i with _ | _ | i <;> simp at h <;> subst h <;> norm_num

/-- A triangle on a machine with four cores, and no polygon at all. -/
example : run 3 4 [0] 1 = .error .ub ∧ run 0 1 [] 1 = .error .ub :=
  ⟨C77_undefined_false _ _ _ _ (by decide), C77_undefined_false _ _ _ _ (by decide)⟩

end Capi
