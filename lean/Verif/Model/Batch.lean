import Verif.Model.ShortestPath

/-!
# `ShortestPathComputer::shortest_paths` (code/shortest_path/shortest_path_computer.cpp:128-159)

The iterations of the parallel loop read only data that no iteration writes, and each writes its
own slot of `paths` once.  An execution is therefore an outcome for every query and an order in
which the slots are written.  Error messages are left out; that there is one is kept.
-/

namespace Capi

namespace ShortestPath

/-- shortest_path_computer.hpp:20-23 `BatchInterpolateResult`. -/
structure BatchResult where
  path : Option (List Coord)
  error : Option Unit
  deriving DecidableEq

/-- shortest_path_computer.cpp:138-155: what an iteration stores for the outcome of its query.  The
`catch` covers exceptions only. -/
def slot : Res (List Coord) → Res BatchResult
  | .ok p => .ok ⟨some p, none⟩
  | .error .exn => .ok ⟨none, some ()⟩
  | .error .ub => .error .ub

/-- shortest_path_computer.cpp:137-156: the iterations in the given order. -/
def runBatch (outs : ℕ → Res (List Coord)) : List ℕ → List BatchResult → Res (List BatchResult)
  | [], acc => .ok acc
  | i :: r, acc => do
    let b ← slot (outs i)
    runBatch outs r (acc.set i b)

variable {D : Type} [LinearOrder D]

/-- shortest_path_computer.cpp:128-159: the outcomes a batch can have. -/
def Batch (A : Arith D) (E : Env) (qs : List (Coord × Coord)) (allow : Bool)
    (r : Res (List BatchResult)) : Prop :=
  ∃ (order : List ℕ) (outs : ℕ → Res (List Coord)), order.Perm (List.range qs.length) ∧
    (∀ i q, qs[i]? = some q → Query A E q.1 q.2 allow (outs i)) ∧
    r = runBatch outs order (List.replicate qs.length ⟨none, none⟩)

end ShortestPath

end Capi
