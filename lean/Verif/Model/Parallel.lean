import Verif.Model.Merge
import Verif.Model.Visgraph

/-!
# Exceptions and the parallel loops (visgraph_generator.cpp:43-64, 86-93, graph.cpp:247-257)

An exception must not leave the body of an OpenMP loop.  GCC and Clang compile the body so that one
that does calls `std::terminate`: the process ends, and no caller in C++ or Python can prevent it.
-/

namespace Capi

/-- How a call can end. -/
inductive Outcome (α : Type) where
  /-- The call returns. -/
  | done (x : α)
  /-- The caller gets an exception, in Python a `RuntimeError` or the like. -/
  | raised
  /-- The process is ended by `std::terminate`. -/
  | aborted
  /-- The behaviour is undefined. -/
  | undefined
  deriving DecidableEq

namespace Outcome

/-- Code outside of parallel loops. -/
def outside {α : Type} : Res α → Outcome α
  | .ok x => .done x
  | .error .exn => .raised
  | .error .ub => .undefined

/-- A parallel loop. -/
def region {α : Type} : Res α → Outcome α
  | .ok x => .done x
  | .error .exn => .aborted
  | .error .ub => .undefined

/-- Continue if the call returns. -/
def andThen {α β : Type} (o : Outcome α) (f : α → Outcome β) : Outcome β :=
  match o with
  | done x => f x
  | raised => .raised
  | aborted => .aborted
  | undefined => .undefined

end Outcome

namespace Visgraph

/-- coordinate_periodicity.cpp:51-56: the copies of all vertices, with overflow checks. -/
def copiesC (ps : List (List Coord)) : Res (List (List Coord)) :=
  (polygonVertices ps).mapM periodicCopiesC

/-- visgraph_generator.cpp:19-69 `generate`, with the fate of exceptions: the copies are made before
the loop, the scans and additions are inside. -/
def generateP (ps : List (List Coord)) (scanner : Coord → Res (List (Coord × Bool)))
    (order : List Coord → List Coord) : Outcome Graph :=
  (Outcome.outside (copiesC ps)).andThen fun _ => .region (generate ps scanner order)

/-- visgraph_generator.cpp:71-96 `generate_with_shuffled_range`, with the fate of exceptions: the
range is checked before the loop. -/
def generateRangeP (ps : List (List Coord)) (scanner : Coord → Res (List (Coord × Bool)))
    (order shuffle : List Coord → List Coord) (lo hi : ℕ) : Outcome Graph :=
  if ps.isEmpty then .done (Graph.ofPolygons ps)
  else if hi > (polygonVertices ps).length ∨ lo > hi then .raised
  else (Outcome.outside (copiesC ps)).andThen fun _ =>
    .region (do
      let chosen ← slice (shuffle (polygonVertices ps)) lo hi
      sweepAll scanner (Graph.ofPolygons ps) (order chosen))

end Visgraph

namespace Graph

/-- graph.cpp:237-260 `merge_graphs`, with the fate of exceptions: the polygons are collected before
the loop. -/
def mergeP (ps : List (List Coord)) (schedule : List Op → List Op) (gs : List Graph) : Outcome Graph :=
  .region (merge ps schedule gs)

end Graph

end Capi
