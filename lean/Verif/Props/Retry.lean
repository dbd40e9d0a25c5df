import Verif.Props.Overwrite
import Verif.Props.Crash
import Verif.Props.Damage

/-!
# C31: saving again after an interrupted save

Interrupted saves leave no trace that a later save of the same graph does not cover.
-/

namespace Capi

open Serial Polygon

theorem allocate_self {b : Buf} {n : ℕ} (h : b.length = n) : allocate b n = b := by
  unfold allocate
  rw [List.take_of_length_le (by omega), h, Nat.sub_self]
  simp

/-- The file an interrupted save leaves has its full length. -/
theorem crashed_length {g : Graph} (hb : g.Built) (old : Buf) (n : ℕ) :
    ((encode g).take n ++ (allocate old (fileSize g (crossCount g))).drop
      ((encode g).take n).length).length = fileSize g (crossCount g) := by
  have := encode_le hb
  rw [List.length_append, List.length_drop, allocate_length, List.length_take]
  omega

/-- **C31** Two interrupted saves of the same graph one after the other leave the file of the one that
got farther. -/
theorem C31_twice (g : Graph) (hg : UserGraph g) (old : Buf) (n m : ℕ) :
    ∃ buf, crashedSave g old n = .ok buf ∧ crashedSave g buf m = crashedSave g old (max n m) := by
  have hb := hg.regular.built
  refine ⟨_, crashedSave_ok hb old n, ?_⟩
  rw [crashedSave_ok hb, crashedSave_ok hb, allocate_self (crashed_length hb old n)]
  congr 1
  have hle : (encode g).length ≤ (allocate old (fileSize g (crossCount g))).length := by
    rw [allocate_length, ← encode_le hb]; omega
  generalize allocate old (fileSize g (crossCount g)) = A at hle ⊢
  generalize encode g = e at hle ⊢
  apply List.ext_getElem?
  intro k
  simp only [List.getElem?_append, List.getElem?_drop, List.length_take, List.getElem?_take]
  split_ifs <;> first
    | rfl
    | (exfalso; omega)
    | (congr 1; omega)

/-- **C31** However many saves of a graph were interrupted, and wherever, saving it once more leaves
the same bytes as if they had not been. -/
theorem C31_retry (g : Graph) (hg : UserGraph g) (old : Buf) (ns : List ℕ) :
    ∃ buf, ns.foldlM (fun b n => crashedSave g b n) old = .ok buf ∧ save g buf = save g old := by
  induction ns generalizing old with
  | nil => exact ⟨old, rfl, rfl⟩
  | cons n ns ih =>
    obtain ⟨b, h1, -⟩ := C31_twice g hg old n 0
    obtain ⟨buf, h2, h3⟩ := ih b
    refine ⟨buf, by rw [List.foldlM_cons, h1]; exact h2, h3.trans ?_⟩
    obtain ⟨k, ws, -, -, hc⟩ := C31_complete g hg b
    obtain ⟨k', ws', -, -, hc'⟩ := C31_complete g hg old
    obtain ⟨b', e1, e2⟩ := C31_twice g hg old n (max ws.length ws'.length)
    rw [h1] at e1
    cases e1
    rw [← hc _ (le_max_left _ _), e2, hc' _ ((le_max_right _ _).trans (le_max_right _ _))]

/-- **C31** So after interrupted saves into a new file, saving again gives back the graph. -/
theorem C31_retry_load (T : ℕ → SumTree) (g : Graph) (hg : UserGraph g) (hs : Storable T g)
    (ns : List ℕ) :
    ∃ crashed buf g', ns.foldlM (fun b n => crashedSave g b n) [] = .ok crashed ∧
      save g crashed = .ok buf ∧ load T buf = .ok g' ∧ g'.polygons = g.polygons ∧
      g'.verts = g.verts ∧ SameAnswers g' g := by
  obtain ⟨c, h1, h2⟩ := C31_retry g hg [] ns
  obtain ⟨buf, g', h3, h4, -, h5⟩ := C28_roundtrip T g hg hs
  exact ⟨c, buf, g', h1, h2.trans h3, h4, h5⟩

/-- **C31** Over an existing file: interrupted after the number of crossing edges is written, the file
is loaded without an error or undefined behaviour, with the right polygons, vertices and edges. -/
theorem C31_overwritten_partial (T : ℕ → SumTree) (g : Graph) (hg : UserGraph g)
    (hs : Storable T g) (old : Buf) (n : ℕ) (hn : countStart g + 8 ≤ n) :
    ∃ buf g', crashedSave g old n = .ok buf ∧ load T buf = .ok g' ∧ g'.polygons = g.polygons ∧
      g'.verts = g.verts ∧ ∀ a ∈ g.verts, ∀ b ∈ g.verts, g'.hasEdge a b = g.hasEdge a b := by
  have hb := hg.regular.built
  have hl := crashed_length hb old n
  have hel := encode_length g
  rw [countStart_eq hb] at hel
  obtain ⟨g', h⟩ := C84_numbers T g hg hs old _
    ((encode g).take n ++ (allocate old (fileSize g (crossCount g))).drop
      ((encode g).take n).length) (save_ok hb old) (by
        rw [hl, List.length_append, List.length_drop, allocate_length, ← encode_le hb]; omega)
    (fun k hk => by
      rw [List.getElem?_append_left (by rw [List.length_take]; omega),
        List.getElem?_append_left (by omega), List.getElem?_take_of_lt (by omega)])
  exact ⟨_, g', crashedSave_ok hb old n, h⟩

/-- **C31** Before that not even this holds: over some file of the right length, interrupted after the
matrix is written but not the number, every save leaves a file whose loading reads outside of it. -/
theorem C31_overwritten_false (T : ℕ → SumTree) (g : Graph) (hg : UserGraph g) (hs : Storable T g)
    (hn : g.verts.length ≤ 2 ^ 31) :
    ∃ old buf, (save g []).map List.length = .ok old.length ∧
      crashedSave g old (countStart g) = .ok buf ∧ load T buf = .error .ub := by
  have hb := hg.regular.built
  have hel := encode_length g
  rw [countStart_eq hb] at hel
  have hle := encode_le hb
  have hsave := save_ok hb []
  have hlen : (encode g ++ (allocate [] (fileSize g (crossCount g))).drop (encode g).length).length =
      fileSize g (crossCount g) := by
    rw [List.length_append, List.length_drop, allocate_length]; omega
  refine ⟨(encode g ++ (allocate [] (fileSize g (crossCount g))).drop (encode g).length).set
      (countStart g + 7) 255, _, ?_, crashedSave_ok hb _ _, Eq.trans (congrArg (load T) ?_)
    (C84_undefined_false T g hg hs hn [] _ hsave)⟩
  · rw [hsave]
    simp [Except.map]
  · rw [allocate_self (by rw [List.length_set, hlen])]
    apply List.ext_getElem?
    intro k
    simp only [List.getElem?_append, List.getElem?_set, List.getElem?_drop, List.length_take,
      List.length_append, List.length_drop, List.getElem?_take, allocate_length]
    split_ifs <;> first
      | rfl
      | (exfalso; omega)
      | (congr 1; omega)

/-- Non-vacuity: there is a storable graph with a crossing edge, whose saves may be interrupted. -/
example : ∃ g, UserGraph g ∧ Storable SumTree.sequential g ∧ g.verts.length ≤ 2 ^ 31 ∧
    ∃ crashed buf g', [50, 3, 61].foldlM (fun b n => crashedSave g b n) [] = .ok crashed ∧
      save g crashed = .ok buf ∧ load SumTree.sequential buf = .ok g' ∧
      g'.isCrossing ⟨0, 0⟩ ⟨10, 0⟩ = .ok true ∧ g'.isCrossing ⟨0, 0⟩ ⟨0, 10⟩ = .ok false := by
  obtain ⟨g, h1, h2, h3, h4, h5, h6, -⟩ := exStorable
  obtain ⟨c, buf, g', k1, k2, k3, -, -, k4⟩ := C31_retry_load _ g h1 h2 [50, 3, 61]
  exact ⟨g, h1, h2, by rw [h4]; norm_num, c, buf, g', k1, k2, k3, by rw [← h5]; exact (k4.2 _ _).2,
    by rw [← h6]; exact (k4.2 _ _).2⟩

end Capi
