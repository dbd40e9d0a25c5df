import Verif.Props.Search64
import Verif.Props.Project

/-!
# C68: `project` on full binary64 values, and what the operations do beyond the finite numbers
-/

namespace Capi

open ShortestPath

/-- **C68** Moving the projected point is as in the model for every finite margin; a margin that is
infinite or not a number is undefined behaviour as soon as the point is moved. -/
theorem C68_project (sq : ℚ → ℚ) (hsq : SqrtOk sq) (near point : Coord) (margin : F64) :
    (∀ q, margin = .fin q → project64 sq near point margin = projectC sq near point q) ∧
    ((∀ q, margin ≠ .fin q) → ∀ d, near.subC point = .ok d →
      epsilonTolerance < sq d.magSqDeg → project64 sq near point margin = .error .ub) := by
  have hI : ∀ {d : Coord}, near.subC point = .ok d → d.I32 := by
    intro d hd
    have key : ∀ {x y : ℤ} {e : Coord}, (do
        let a ← chk32 x
        let b ← chk32 y
        return ⟨a, b⟩ : Res Coord) = .ok e → e.I32 := by
      intro x y e h
      by_cases h1 : FitsI32 x
      · by_cases h2 : FitsI32 y
        · rw [chk32_ok h1, chk32_ok h2] at h
          cases h
          exact ⟨h1, h2⟩
        · rw [chk32_ok h1, show chk32 y = .error .ub from if_neg h2] at h
          cases h
      · rw [show chk32 x = .error .ub from if_neg h1] at h
        cases h
    unfold Coord.subC at hd
    rcases hn : point.negC with f | n
    · rw [hn] at hd; cases hd
    · rw [hn] at hd
      exact key hd
  have hm : ∀ {d : Coord}, d.I32 → F64.sqrt sq d.magSq64 = .fin (sq d.magSqDeg) := by
    intro d hd
    rw [C68_magnitude d hd]
    simp only [F64.sqrt]
    rw [if_neg (magSqDeg_nonneg d).not_gt]
  have hlt : ∀ q : ℚ, Coord.micro64.lt (.fin q) = decide (epsilonTolerance < q) := by
    intro q
    rw [micro64_eq]
    rfl
  have hdiv : ∀ {d : Coord}, d.I32 → epsilonTolerance < sq d.magSqDeg →
      d.div64 (.fin (sq d.magSqDeg)) = d.divC (sq d.magSqDeg) := by
    intro d hd h
    have he : (1 : ℚ) / 2 ^ 30 ≤ epsilonTolerance := by unfold epsilonTolerance; decide +kernel
    have h0 : 0 < sq d.magSqDeg := lt_of_lt_of_le (by norm_num) (he.trans h.le)
    have hb : sq d.magSqDeg ≤ 2 ^ 30 := by
      obtain ⟨-, hb⟩ := magSq_fits d hd
      have hn := magSqDeg_nonneg d
      rw [abs_of_nonneg hn] at hb
      rcases hn.eq_or_lt with hz | hp
      · rw [← hz, hsq.zero] at h0; exact absurd h0 (lt_irrefl _)
      have hc := hsq.close _ hp
      rw [abs_le] at hc
      by_contra hlt
      push Not at hlt
      have : (2 : ℚ) ^ 30 * 2 ^ 30 < sq d.magSqDeg * sq d.magSqDeg := by nlinarith
      have h2 : d.magSqDeg / 2 ^ 51 ≤ d.magSqDeg := div_le_self hn (by norm_num)
      norm_num at this hb
      linarith
    refine (C68_divide d).2 _ h0.ne' (normal_of ?_ ?_)
    · rw [abs_of_pos (by positivity), le_div_iff₀ h0]
      calc 1 / 2 ^ 200 * sq d.magSqDeg ≤ 1 / 2 ^ 200 * 2 ^ 30 := by gcongr
        _ ≤ 1 := by norm_num
    · rw [abs_of_pos (by positivity), div_le_iff₀ h0]
      calc (1 : ℚ) ≤ 2 ^ 200 * (1 / 2 ^ 30) := by norm_num
        _ ≤ 2 ^ 200 * sq d.magSqDeg := by gcongr; exact he.trans h.le
  constructor
  · rintro q rfl
    unfold project64 projectC projectLenC
    rcases hd : near.subC point with f | d
    · rfl
    simp only [Res.bind_ok, hm (hI hd), hlt]
    by_cases hc : epsilonTolerance < sq d.magSqDeg
    · rw [if_pos (by simpa using hc), if_pos hc, hdiv (hI hd) hc]
      rcases d.divC (sq d.magSqDeg) with f | u
      · rfl
      · simp only [Res.bind_ok]
        rw [(C68_scale u _).1 q rfl]
    · rw [if_neg (by simpa using hc), if_neg hc]
  · intro hq d hd hc
    unfold project64
    rw [hd]
    simp only [Res.bind_ok, hm (hI hd), hlt]
    rw [if_pos (by simpa using hc)]
    have hub : ∀ x : ℚ, ∀ f, d.divC x = .error f → f = .ub := by
      intro x f h
      unfold Coord.divC Coord.scaleC chk32 at h
      split_ifs at h <;> cases h <;> rfl
    rcases hu : d.div64 (.fin (sq d.magSqDeg)) with f | u
    · rw [hdiv (hI hd) hc] at hu
      rw [hub _ _ hu]
      rfl
    · simp only [Res.bind_ok]
      rw [(C68_scale u _).2 hq]
      rfl

/-- **C68** Beyond the finite numbers the operations are those of IEEE-754: sums and products do not
depend on the order, NaN is passed on, a number minus itself is zero or, when it is not finite, NaN,
and a comparison with NaN is false. -/
theorem C68_ieee (x y : F64) :
    x.add y = y.add x ∧ x.mul y = y.mul x ∧
    ((∃ q, x = .fin q) → x.sub x = .fin 0) ∧ ((∀ q, x ≠ .fin q) → x.sub x = .nan) ∧
    (∀ s q, F64.add (.inf s) (.fin q) = .inf s) ∧ (∀ s, F64.add (.inf s) (.inf s) = .inf s) ∧
    F64.add .nan y = .nan ∧ F64.mul .nan y = .nan ∧ F64.div .nan y = .nan ∧ F64.div x .nan = .nan ∧
    F64.lt .nan y = false ∧ F64.lt x .nan = false ∧ x.neg.neg = x := by
  refine ⟨?_, ?_, ?_, ?_, fun _ _ => rfl, fun s => if_pos rfl, ?_, ?_, ?_, ?_, ?_, ?_, ?_⟩
  · cases x <;> cases y <;> simp only [F64.add]
    · rename_i s t
      cases s <;> cases t <;> rfl
    · rw [add_comm]
  · cases x <;> cases y <;> simp only [F64.mul]
    · rename_i s t
      rw [Bool.xor_comm]
    · rw [mul_comm]
  · rintro ⟨q, rfl⟩
    simp [F64.sub, F64.neg, F64.add, fl64]
  · intro h
    cases x with
    | nan => rfl
    | inf s => cases s <;> rfl
    | fin q => exact absurd rfl (h q)
  · cases y <;> rfl
  · cases y <;> rfl
  · cases y <;> rfl
  · cases x <;> rfl
  · cases y <;> rfl
  · cases x <;> rfl
  · cases x <;> simp [F64.neg]

/-- **C68** A root is NaN exactly for NaN and for numbers below zero, and infinite exactly for
infinity. -/
theorem C68_root (sq : ℚ → ℚ) (x : F64) :
    (x.sqrt sq = .nan ↔ x = .nan ∨ x.lt (.fin 0) = true) ∧
    ∀ s, x.sqrt sq = .inf s ↔ x = .inf false ∧ s = false := by
  cases x with
  | nan => simp [F64.sqrt]
  | inf t => cases t <;> simp [F64.sqrt, F64.lt, eq_comm]
  | fin q =>
    by_cases h : q < 0 <;> simp [F64.sqrt, F64.lt, h]

/-- The root of a number below zero, and of four. -/
example (sq : ℚ → ℚ) : F64.sqrt sq (.fin (-1)) = .nan ∧ F64.sqrt sq (.fin 4) ≠ .nan :=
  ⟨(C68_root sq _).1.2 (Or.inr (by decide +kernel)), fun h => by
    rcases (C68_root sq _).1.1 h with h | h
    · cases h
    · exact absurd h (by decide +kernel)⟩

/-- A place of the number line, infinite ends included. -/
def F64.place : F64 → Option (WithBot (WithTop ℚ))
  | .nan => none
  | .inf true => some ⊥
  | .inf false => some ((⊤ : WithTop ℚ) : WithBot (WithTop ℚ))
  | .fin q => some ((q : WithTop ℚ) : WithBot (WithTop ℚ))

/-- **C68** Numbers other than NaN are compared by their place on the extended number line. -/
theorem C68_order (x y : F64) (a b : WithBot (WithTop ℚ)) (hx : x.place = some a)
    (hy : y.place = some b) : x.lt y = decide (a < b) := by
  cases x with
  | nan => cases hx
  | inf s =>
    cases y with
    | nan => cases hy
    | inf t =>
      cases s <;> cases t <;> simp only [F64.place, Option.some.injEq] at hx hy <;> subst hx hy <;>
        simp [F64.lt]
    | fin r =>
      cases s <;> simp only [F64.place, Option.some.injEq] at hx hy <;> subst hx hy <;>
        simp [F64.lt]
  | fin q =>
    cases y with
    | nan => cases hy
    | inf t =>
      cases t <;> simp only [F64.place, Option.some.injEq] at hx hy <;> subst hx hy
      · exact (decide_eq_true (WithBot.coe_lt_coe.2 (WithTop.coe_lt_top q))).symm
      · simp [F64.lt]
    | fin r =>
      simp only [F64.place, Option.some.injEq] at hx hy
      subst hx hy
      simp [F64.lt]

/-- Non-vacuity: a point is moved on by a finite margin. -/
example : ∃ sq, SqrtOk sq ∧ epsilonTolerance < sq (Coord.magSqDeg ⟨3000000, 4000000⟩) := by
  obtain ⟨sq, h⟩ := exists_sqrt
  refine ⟨sq, h, ?_⟩
  have e : Coord.magSqDeg ⟨3000000, 4000000⟩ = 25 := by decide +kernel
  have hc := h.close 25 (by norm_num)
  have hp := h.pos 25 (by norm_num)
  have he : epsilonTolerance < 1 := by unfold epsilonTolerance; decide +kernel
  rw [e]
  rw [abs_le] at hc
  by_contra hn
  push Not at hn
  nlinarith

end Capi
