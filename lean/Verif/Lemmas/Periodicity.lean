import Verif.Model.Periodicity
import Mathlib.Tactic.Linarith
import Mathlib.Tactic.Ring

/-! # Lemmas on longitude wrapping -/

namespace Capi

theorem wrapDownC_eq (x : ℤ) (h : FitsI32 x) :
    wrapDownC x = .ok (if maxLon < x then (x - minLon) % period + minLon else x) := by
  induction x using wrapDownC.induct with
  | case1 x hx hf ih =>
    rw [wrapDownC, dif_pos hx, if_pos hf, ih hf, if_pos hx]
    simp only [maxLon, minLon, period] at *
    congr 1
    split_ifs with h1 <;> omega
  | case2 x hx hf =>
    exfalso; apply hf; simp only [FitsI32, maxLon, period] at *; omega
  | case3 x hx => rw [wrapDownC, dif_neg hx, if_neg hx]

theorem wrapUpC_eq (x : ℤ) (h : FitsI32 x) :
    wrapUpC x = .ok (if x < minLon then (x - minLon) % period + minLon else x) := by
  induction x using wrapUpC.induct with
  | case1 x hx hf ih =>
    rw [wrapUpC, dif_pos hx, if_pos hf, ih hf, if_pos hx]
    simp only [minLon, period] at *
    congr 1
    split_ifs with h1 <;> omega
  | case2 x hx hf =>
    exfalso; apply hf; simp only [FitsI32, minLon, period] at *; omega
  | case3 x hx => rw [wrapUpC, dif_neg hx, if_neg hx]

/-- The loops compute the closed form. -/
theorem normalizeC_eq (c : Coord) (h : FitsI32 c.lon) : normalizeC c = .ok (normalize c) := by
  unfold normalizeC normalize
  rw [wrapDownC_eq _ h]
  simp only [Res.bind_ok]
  have h2 : FitsI32 (if maxLon < c.lon then (c.lon - minLon) % period + minLon else c.lon) := by
    simp only [FitsI32, maxLon, minLon, period] at *
    split_ifs <;> omega
  rw [wrapUpC_eq _ h2]
  simp only [Res.bind_ok, Res.pure_eq, maxLon, minLon, period]
  congr 2
  split_ifs <;> omega

theorem normalize_range (c : Coord) :
    minLon ≤ (normalize c).lon ∧ (normalize c).lon ≤ maxLon := by
  simp only [normalize, minLon, maxLon, period]; omega

theorem normalize_of_range {c : Coord} (h1 : minLon ≤ c.lon) (h2 : c.lon ≤ maxLon) :
    normalize c = c := by
  cases c
  simp only [normalize, minLon, maxLon, period, Coord.mk.injEq, and_true] at *
  omega

theorem normalize_eq_iff (c d : Coord) :
    normalize c = normalize d ↔ c.lat = d.lat ∧ ∃ k : ℤ, c.lon = d.lon + k * period := by
  simp only [normalize, minLon, period, Coord.mk.injEq]
  constructor
  · rintro ⟨h1, h2⟩
    refine ⟨h2, (c.lon - d.lon) / 360000001, ?_⟩
    omega
  · rintro ⟨h1, k, hk⟩
    refine ⟨?_, h1⟩
    omega

end Capi
