import Verif.Lemmas.Graph

/-!
# Listing neighbours with cells missing
-/

namespace Capi

open Graph

theorem neighborLoop_short {g : Graph} {index k : ℕ} {l : List ℕ}
    (h : ∃ i ∈ l, k ≤ i + index * g.num) (hv : ∀ i ∈ l, i < g.verts.length) :
    Graph.neighborLoop { g with cells := g.cells.take k } index l = .error .ub := by
  induction l with
  | nil => obtain ⟨i, hi, -⟩ := h; cases hi
  | cons x r ih =>
    unfold neighborLoop
    by_cases hx : k ≤ x + index * g.num
    · have : Graph.cell { g with cells := g.cells.take k } (x + index * g.num) = .error .ub := by
        unfold cell
        simp only [List.getElem?_take]
        rw [if_neg (not_lt.2 hx)]
      rw [this]; rfl
    · have hr : ∃ i ∈ r, k ≤ i + index * g.num := by
        obtain ⟨i, hi, hk⟩ := h
        rcases List.mem_cons.1 hi with rfl | hi
        · exact absurd hk hx
        · exact ⟨i, hi, hk⟩
      have e := ih hr fun i hi => hv i (List.mem_cons_of_mem _ hi)
      cases hc : Graph.cell { g with cells := g.cells.take k } (x + index * g.num) with
      | error f =>
        unfold cell at hc
        split at hc
        · cases hc
        · cases hc; rfl
      | ok c =>
        rw [Res.bind_ok, e, List.getElem?_eq_getElem (hv x (by simp))]
        simp only
        split <;> rfl

end Capi
