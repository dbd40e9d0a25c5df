import Verif.Props.Graph

/-!
# C21 — what exactly adding a vertex does to the edges
-/

namespace Capi
open Graph

theorem getD_lt {α : Type} {l : List α} {i : ℕ} (d : α) (h : i < l.length) : l.getD i d = l[i] := by
  rw [List.getD_eq_getElem?_getD, List.getElem?_eq_getElem h]; rfl

theorem getD_idx {g : Graph} (hs : g.Shape) (hn : g.verts.Nodup) {i : ℕ} (hi : i < g.num) :
    g.verts.getD i default ∈ g.verts ∧ g.idx (g.verts.getD i default) = some i := by
  have hi' : i < g.verts.length := by rw [hs.verts]; exact hi
  have hm : g.verts.getD i default ∈ g.verts := by
    rw [getD_lt _ hi']; exact List.getElem_mem hi'
  refine ⟨hm, ?_⟩
  obtain ⟨j, hj, hjn⟩ := hs.known hm
  have h1 := hs.idx _ _ hj
  have hj' : j < g.verts.length := by rw [hs.verts]; exact hjn
  rw [List.getElem?_eq_getElem hj', getD_lt _ hi', Option.some.injEq,
    hn.getElem_inj_iff] at h1
  rw [hj, h1]

/-- What adding a vertex does to the answers: the byte of the pair `i, j` is now the one that was
at the same place `k` of the matrix, which belonged to the pair `k % n, k / n`. -/
theorem C21_shift (g : Graph) (hg : UserGraph g) (hn : g.verts.Nodup) {v : Coord}
    (hv : v ∉ g.verts) {i j : ℕ} (hi : i ≤ g.verts.length) (hj : j ≤ g.verts.length) (hij : i ≠ j) :
    let n := g.verts.length
    let k := i + (n + 1) * j
    let a := (g.verts ++ [v]).getD i default
    let b := (g.verts ++ [v]).getD j default
    (g.addVertex v).hasEdge a b = (if k < n * n then
      g.hasEdge (g.verts.getD (k % n) default) (g.verts.getD (k / n) default) else .ok false) ∧
    (g.addVertex v).isCrossing a b = (if k < n * n then
      g.isCrossing (g.verts.getD (k % n) default) (g.verts.getD (k / n) default)
      else .ok false) := by
  intro n k a b
  have hr := hg.regular
  have hs := hr.built.shape
  have hs' := addVertex_shape hs v
  have hnum : g.num = n := hs.verts.symm
  have hn' : (g.addVertex v).verts.Nodup := by
    simp only [addVertex, List.nodup_append]
    refine ⟨hn, by simp, ?_⟩
    rintro x hx y hy rfl
    exact hv (List.mem_singleton.1 hy ▸ hx)
  have hnum' : (g.addVertex v).num = n + 1 := by simp [addVertex, hnum]
  obtain ⟨a1, a2⟩ := getD_idx hs' hn' (i := i) (by omega)
  obtain ⟨b1, b2⟩ := getD_idx hs' hn' (i := j) (by omega)
  change a ∈ _ at a1; change b ∈ _ at b1
  change (g.addVertex v).idx a = _ at a2; change (g.addVertex v).idx b = _ at b2
  have hab : a ≠ b := by
    intro e
    rw [e, b2] at a2
    exact hij (Option.some.inj a2).symm
  have hbits : (g.addVertex v).bits a b = g.cells.getD k 0 := by
    unfold bits
    rw [a2, b2]
    simp only [hnum']
    simp only [addVertex, hs.cells, hnum]
    have e1 : g.cells.take ((n + 1) * (n + 1)) = g.cells := by
      apply List.take_of_length_le
      rw [hs.cells, hnum]; nlinarith
    rw [e1, List.getD_eq_getElem?_getD, List.getD_eq_getElem?_getD, List.getElem?_append]
    split_ifs with hk
    · rfl
    · rw [List.getElem?_eq_none (Nat.le_of_not_lt hk), List.getElem?_replicate]
      split_ifs <;> rfl
  rw [hasEdge_ok hs' a1 b1, isCrossing_ok hs' a1 b1, hbits]
  have hab' : (a != b) = true := by simpa using hab
  rw [hab', Bool.true_and, Bool.true_and]
  by_cases hk : k < n * n
  · rw [if_pos hk, if_pos hk]
    have hn0 : 0 < n := by
      rcases Nat.eq_zero_or_pos n with h | h
      · rw [h] at hk; omega
      · exact h
    have hm : k % n < n := Nat.mod_lt _ hn0
    have hd : k / n < n := Nat.div_lt_of_lt_mul hk
    obtain ⟨c1, c2⟩ := getD_idx hs hn (i := k % n) (by omega)
    obtain ⟨d1, d2⟩ := getD_idx hs hn (i := k / n) (by omega)
    rw [hasEdge_ok hs c1 d1, isCrossing_ok hs c1 d1]
    have hb : g.bits (g.verts.getD (k % n) default) (g.verts.getD (k / n) default) =
        g.cells.getD k 0 := by
      unfold bits
      rw [c2, d2]
      simp only [hnum, Nat.mod_add_div]
    rw [hb]
    by_cases hcd : g.verts.getD (k % n) default = g.verts.getD (k / n) default
    · have : g.cells.getD k 0 = 0 := by
        by_contra h0
        have hkk := hr.clean (k % n) (k / n) (by omega) (by omega)
        rw [hnum, Nat.mod_add_div] at hkk
        obtain ⟨x, y, hx, hy, hxy⟩ := hkk h0
        rw [hcd, d2] at c2
        rw [Option.some.inj c2] at hy
        exact hxy (hs.idx_inj hx hy)
      rw [this]; simp
    · have : (g.verts.getD (k % n) default != g.verts.getD (k / n) default) = true := by
        simpa using hcd
      rw [this, Bool.true_and, Bool.true_and]
      exact ⟨rfl, rfl⟩
  · rw [if_neg hk, if_neg hk]
    have : g.cells.getD k 0 = 0 := by
      rw [List.getD_eq_getElem?_getD, List.getElem?_eq_none (by rw [hs.cells, hnum]; omega)]
      rfl
    rw [this]; simp

/-- Three vertices: after adding a fourth, the byte of the pair 0, 1 is the one of the old pair
1, 1, so the edge 0 → 1 is lost and 0 → 2 takes the place of the old 2 → 2. -/
example : ∃ g, (ofPolygons [[⟨0, 0⟩, ⟨1, 0⟩, ⟨0, 1⟩]]).addEdge ⟨0, 0⟩ ⟨1, 0⟩ false = .ok g ∧
    g.hasEdge ⟨0, 0⟩ ⟨1, 0⟩ = .ok true ∧ (g.addVertex ⟨5, 5⟩).hasEdge ⟨0, 0⟩ ⟨1, 0⟩ = .ok false ∧
    (g.addVertex ⟨5, 5⟩).hasEdge ⟨5, 5⟩ ⟨0, 0⟩ = .ok true := by
  refine ⟨_, rfl, by decide, by decide, ?_⟩
  exact (C21_shift _ ⟨[[⟨0, 0⟩, ⟨1, 0⟩, ⟨0, 1⟩]], [.add ⟨0, 0⟩ ⟨1, 0⟩ false],
    fun o ho => by rw [List.mem_singleton.1 ho]; trivial, by unfold OpsOn; decide, rfl⟩
    (by decide) (v := ⟨5, 5⟩) (by decide) (i := 3) (j := 0) (by decide) (by decide)
    (by decide)).1.trans (by decide)

/-- Adding a vertex keeps the answers for edges into the first vertex. -/
theorem C21_first (g : Graph) (hg : UserGraph g) (hn : g.verts.Nodup) {v : Coord}
    (hv : v ∉ g.verts) {a b : Coord} {r : List Coord} (hb : g.verts = b :: r) (ha : a ∈ g.verts) :
    (g.addVertex v).hasEdge a b = g.hasEdge a b ∧
    (g.addVertex v).isCrossing a b = g.isCrossing a b := by
  by_cases hab : a = b
  · subst hab; simp [hasEdge, isCrossing]
  obtain ⟨i, hi, rfl⟩ := List.getElem_of_mem ha
  have h0 : i ≠ 0 := by
    rintro rfl
    exact hab (by simp [hb])
  have h := C21_shift g hg hn hv (i := i) (j := 0) (by omega) (by omega) h0
  simp only [Nat.mul_zero, Nat.add_zero] at h
  have hk : i < g.verts.length * g.verts.length := by nlinarith
  rw [if_pos hk, if_pos hk, Nat.mod_eq_of_lt hi, Nat.div_eq_of_lt hi] at h
  have e1 : (g.verts ++ [v]).getD i default = g.verts[i] := by
    rw [List.getD_eq_getElem?_getD, List.getElem?_append_left hi, List.getElem?_eq_getElem hi]; rfl
  have e2 : (g.verts ++ [v]).getD 0 default = b := by rw [hb]; rfl
  have e3 : g.verts.getD i default = g.verts[i] := getD_lt _ hi
  have e4 : g.verts.getD 0 default = b := by rw [hb]; rfl
  rw [e1, e2, e3, e4] at h
  exact h


example : ∃ g, (ofPolygons [[⟨0, 0⟩, ⟨1, 0⟩, ⟨0, 1⟩]]).addEdge ⟨0, 0⟩ ⟨1, 0⟩ false = .ok g ∧
    g.verts.Nodup ∧ (⟨5, 5⟩ : Coord) ∉ g.verts := ⟨_, rfl, by decide, by decide⟩

end Capi
