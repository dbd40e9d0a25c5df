import Verif.Lemmas.GraphNeeds
import Verif.Props.Graph

/-!
# What the operations of the graph need

C20 says that nothing is read outside the containers of a graph.  Here it is shown that this is due to
their sizes: with fewer locks, or a matrix cut short, the operations are undefined, and so are they if
two vertices have one index, since a lock is then taken twice.
-/

namespace Capi

open Graph

/-- **C20** No lock can be spared.  With fewer locks the operations on a pair are undefined exactly if
the lock of one of the two vertices is missing, and listing neighbours exactly if that of the vertex
is. -/
theorem C20_locks (g : Graph) (hs : g.Shape) (a b : Coord) (ha : a ∈ g.verts) (hb : b ∈ g.verts)
    (hab : a ≠ b) (k : ℕ) : ∃ i j, g.idx a = some i ∧ g.idx b = some j ∧ i < g.num ∧ j < g.num ∧
    ∀ g', g' = { g with locks := k } →
      (g'.hasEdge a b = .error .ub ↔ k ≤ i ∨ k ≤ j) ∧
      (g'.isCrossing a b = .error .ub ↔ k ≤ i ∨ k ≤ j) ∧
      (g'.removeDirected a b = .error .ub ↔ k ≤ i ∨ k ≤ j) ∧
      (∀ m, g'.addDirected a b m = .error .ub ↔ k ≤ i ∨ k ≤ j) ∧
      (g'.neighbors a = .error .ub ↔ k ≤ i) := by
  obtain ⟨i, j, hi, hj, hin, hjn, hij, -, hc⟩ := pairIndex_ok hs ha hb hab
  refine ⟨i, j, hi, hj, hin, hjn, ?_⟩
  rintro g' rfl
  have hp : Graph.pairIndex { g with locks := k } a b =
      if k ≤ i ∨ k ≤ j then .error .ub else .ok (i + g.num * j) := by
    unfold pairIndex toIndex
    simp only [hi, hj, Res.bind_ok]
    by_cases h : k ≤ i ∨ k ≤ j
    · rw [if_pos h, if_neg (by omega)]
    · rw [if_neg h, if_pos ⟨by omega, by omega, hij⟩]; rfl
  have hcell : Graph.cell { g with locks := k } (i + g.num * j) = .ok (g.bits a b) := hc
  refine ⟨?_, ?_, ?_, fun m => ?_, ?_⟩
  · unfold hasEdge
    rw [if_neg hab, hp]
    split <;> simp_all
  · unfold isCrossing
    rw [if_neg hab, hp]
    split <;> simp_all
  · unfold removeDirected
    rw [if_neg hab, hp]
    split <;> simp_all
  · unfold addDirected
    rw [if_neg hab, hp]
    split <;> simp_all
  · obtain ⟨j', ns, h1, h2, h3, -⟩ := neighbors_ok hs ha
    have hloop : ∀ l, Graph.neighborLoop { g with locks := k } i l = g.neighborLoop i l := by
      intro l
      induction l with
      | nil => rfl
      | cons x r ih =>
        unfold neighborLoop
        rw [ih]
        rfl
    unfold neighbors toIndex at h3 ⊢
    simp only [hi, Res.bind_ok] at h3 ⊢
    rw [if_pos (by rw [hs.locks]; exact hin)] at h3
    by_cases h : k ≤ i
    · rw [if_neg (by omega)]
      exact ⟨fun _ => h, fun _ => rfl⟩
    · rw [if_pos (by omega), hloop, h3]
      exact ⟨fun h' => (by cases h'), fun h' => absurd h' h⟩

/-- **C20** If two different vertices have the same index, the operations on the pair are undefined: one
lock is taken twice. -/
theorem C20_relock (g : Graph) (a b : Coord) (hab : a ≠ b) (i : ℕ) (ha : g.idx a = some i)
    (hb : g.idx b = some i) : g.hasEdge a b = .error .ub ∧ g.isCrossing a b = .error .ub ∧
    g.removeDirected a b = .error .ub ∧ ∀ m, g.addDirected a b m = .error .ub := by
  have hp : g.pairIndex a b = .error .ub := by
    unfold pairIndex toIndex
    simp only [ha, hb, Res.bind_ok]
    rw [if_neg (by simp)]
  refine ⟨?_, ?_, ?_, fun m => ?_⟩
  · unfold hasEdge; rw [if_neg hab, hp]; rfl
  · unfold isCrossing; rw [if_neg hab, hp]; rfl
  · unfold removeDirected; rw [if_neg hab, hp]; rfl
  · unfold addDirected; rw [if_neg hab, hp]; rfl

/-- **C20** Listing the neighbours of a vertex reads its whole row: with a shorter matrix it is undefined
exactly if the last cell of the row is missing. -/
theorem C20_row (g : Graph) (hs : g.Shape) (a : Coord) (ha : a ∈ g.verts) (k : ℕ) :
    ∃ i, g.idx a = some i ∧ i < g.num ∧
      (Graph.neighbors { g with cells := g.cells.take k } a = .error .ub ↔ k < g.num * (i + 1)) := by
  obtain ⟨i, hi⟩ := Option.isSome_iff_exists.1 ((hs.dom a).2 ha)
  have hin : i < g.num := hs.idx_lt hi
  refine ⟨i, hi, hin, ?_⟩
  have hr : g.num * (i + 1) = g.num + i * g.num := by ring
  have hn : Graph.neighbors { g with cells := g.cells.take k } a =
      Graph.neighborLoop { g with cells := g.cells.take k } i (List.range g.num) := by
    unfold neighbors toIndex
    simp only [hi, Res.bind_ok]
    rw [if_pos (by rw [hs.locks]; exact hin)]
  rw [hn, hr]
  constructor
  · intro h
    by_contra hk
    have full : ∀ l : List ℕ, (∀ x ∈ l, x < g.num) →
        Graph.neighborLoop { g with cells := g.cells.take k } i l = g.neighborLoop i l := by
      intro l
      induction l with
      | nil => intro _; rfl
      | cons x r ih =>
        intro hx
        have hx0 := hx x (by simp)
        have hcell : Graph.cell { g with cells := g.cells.take k } (x + i * g.num) =
            g.cell (x + i * g.num) := by
          unfold cell
          simp only [List.getElem?_take]
          rw [if_pos (by omega)]
        unfold neighborLoop
        rw [hcell, ih fun y hy => hx y (by simp [hy])]
    rw [full _ fun x hx => List.mem_range.1 hx] at h
    obtain ⟨j', ns, h1, h2, h3, -⟩ := neighbors_ok hs ha
    unfold neighbors toIndex at h3
    simp only [hi, Res.bind_ok] at h3
    rw [if_pos (by rw [hs.locks]; exact hin), h] at h3
    cases h3
  · intro h
    exact neighborLoop_short ⟨g.num - 1, List.mem_range.2 (by omega), by omega⟩ fun x hx => by
      rw [hs.verts]; exact List.mem_range.1 hx

/-- Two vertices and one lock, one index for both, and one cell only. -/
example : Graph.hasEdge { ofPolygons [[⟨0, 0⟩, ⟨1, 0⟩]] with locks := 1 } ⟨0, 0⟩ ⟨1, 0⟩ = .error .ub ∧
    Graph.hasEdge { ofPolygons [[⟨0, 0⟩, ⟨1, 0⟩]] with idx := fun _ => some 0 } ⟨0, 0⟩ ⟨1, 0⟩ =
      .error .ub ∧
    Graph.neighbors { ofPolygons [[⟨0, 0⟩, ⟨1, 0⟩]] with cells := [0] } ⟨0, 0⟩ = .error .ub := by
  refine ⟨?_, (C20_relock _ _ _ (by decide) 0 rfl rfl).1, ?_⟩
  · obtain ⟨i, j, hi, hj, -, -, h⟩ := C20_locks (ofPolygons [[⟨0, 0⟩, ⟨1, 0⟩]]) (ofPolygons_shape _)
      ⟨0, 0⟩ ⟨1, 0⟩ (by decide) (by decide) (by decide) 1
    have : (ofPolygons [[⟨0, 0⟩, ⟨1, 0⟩]]).idx ⟨1, 0⟩ = some 1 := rfl
    rw [this] at hj
    have := Option.some.inj hj
    exact (h _ rfl).1.2 (by omega)
  · obtain ⟨i, -, -, h⟩ := C20_row (ofPolygons [[⟨0, 0⟩, ⟨1, 0⟩]]) (ofPolygons_shape _) ⟨0, 0⟩
      (by decide) 1
    refine h.2 ?_
    have : (ofPolygons [[⟨0, 0⟩, ⟨1, 0⟩]]).num = 2 := rfl
    rw [this]
    omega

end Capi
