import Verif.Model.Basic
import Mathlib.Order.Defs.LinearOrder
import Mathlib.Data.Nat.Notation

/-!
# The search of `ShortestPathComputer::shortest_path`
(code/shortest_path/shortest_path_computer.cpp:50-126)

The search is modelled for any type of nodes and any type of distances, so that it can be used
with exact and with rounded arithmetic.  `std::priority_queue` may return any element no other
element precedes; the model leaves the choice open.
-/

namespace Capi

namespace AStar

/-- What the search works on. -/
structure Problem (V D : Type) where
  /-- shortest_path_computer.cpp:76 `get_neighbors` -/
  nbrs : V → List V
  /-- shortest_path_computer.cpp:77-79: the length of the edge from the first to the second -/
  len : V → V → D
  /-- shortest_path_computer.cpp:80: the addition of distances -/
  add : D → D → D
  /-- shortest_path_computer.cpp:62 -/
  zero : D
  /-- shortest_path_computer.cpp:53-56: distance plus weighted heuristic of the node -/
  prio : D → V → D
  /-- shortest_path_computer.cpp:81-82: farther from the source than the limit -/
  tooFar : V → Bool
  src : V
  dst : V

/-- shortest_path_computer.cpp:16-20 `AStarHeapElement`; the third member is a function of the
node and is part of `Problem.prio`. -/
structure Entry (V D : Type) where
  node : V
  dist : D
  deriving DecidableEq

/-- shortest_path_computer.cpp:58, 66-67: the queue and the two maps. -/
structure State (V D : Type) where
  pq : List (Entry V D)
  prev : V → Option V
  dist : V → Option D

variable {V D : Type} [DecidableEq V] [LinearOrder D]

/-- shortest_path_computer.cpp:58-67. -/
def init (P : Problem V D) : State V D := ⟨[⟨P.src, P.zero⟩], fun _ => none, fun _ => none⟩

/-- shortest_path_computer.cpp:83-84: the neighbour is known at no greater distance. -/
def known (s : State V D) (n : V) (nd : D) : Bool :=
  match s.dist n with
  | some d => decide (d ≤ nd)
  | none => false

/-- shortest_path_computer.cpp:76-96: one neighbour. -/
def relaxOne (P : Problem V D) (e : Entry V D) (s : State V D) (n : V) : State V D :=
  let nd := P.add e.dist (P.len e.node n)
  if P.tooFar n || known s n nd then s
  else
    { pq := ⟨n, nd⟩ :: s.pq
      prev := fun x => if x = n then some e.node else s.prev x
      dist := fun x => if x = n then some nd else s.dist x }

/-- shortest_path_computer.cpp:76-96: all neighbours of the popped node. -/
def relax (P : Problem V D) (e : Entry V D) (s : State V D) : State V D :=
  (P.nbrs e.node).foldl (relaxOne P e) s

/-- shortest_path_computer.cpp:53-58, 69: an element `std::priority_queue::top` may return. -/
def IsTop (P : Problem V D) (pq : List (Entry V D)) (e : Entry V D) : Prop :=
  e ∈ pq ∧ ∀ x ∈ pq, ¬ P.prio x.dist x.node < P.prio e.dist e.node

/-- shortest_path_computer.cpp:70 `pop`. -/
def pop (s : State V D) (e : Entry V D) : State V D := { s with pq := s.pq.erase e }

/-- shortest_path_computer.cpp:68-97: the states at the loop head after `k` iterations. -/
inductive Exec (P : Problem V D) : ℕ → State V D → Prop
  | init : Exec P 0 (init P)
  | step {k s e} : Exec P k s → IsTop P s.pq e → e.node ≠ P.dst →
      Exec P (k + 1) (relax P e (pop s e))

/-- shortest_path_computer.cpp:68, 72-74: the states in which the loop is left, because the queue
is empty or the destination was popped. -/
inductive Ends (P : Problem V D) : State V D → Prop
  | empty {k s} : Exec P k s → s.pq = [] → Ends P s
  | found {k s e} : Exec P k s → IsTop P s.pq e → e.node = P.dst → Ends P (pop s e)

/-- shortest_path_computer.cpp:102-121: following the predecessors; `none` means that the loop is
still running after the given number of iterations. -/
def follow (src : V) (prev : V → Option V) : ℕ → V → Option (Res (List V))
  | 0, _ => none
  | k + 1, c =>
    if c = src then some (.ok [src])
    else match prev c with
      | none => some (.error .exn)
      | some d => (follow src prev k d).map fun r => r.map (c :: ·)

/-- shortest_path_computer.cpp:50-126: the possible outcomes of the search. -/
def Outcome (P : Problem V D) (r : Res (List V)) : Prop :=
  ∃ s k r', Ends P s ∧ follow P.src s.prev k P.dst = some r' ∧ r = r'.map List.reverse

/-- The first element of least priority, one way of choosing. -/
def pick (P : Problem V D) : List (Entry V D) → Option (Entry V D)
  | [] => none
  | e :: r =>
    match pick P r with
    | none => some e
    | some x => if P.prio x.dist x.node < P.prio e.dist e.node then some x else some e

/-- The search with `pick`, for at most the given number of iterations; used in examples. -/
def searchFor (P : Problem V D) : ℕ → State V D → Option (State V D)
  | 0, _ => none
  | k + 1, s =>
    match pick P s.pq with
    | none => some s
    | some e =>
      if e.node = P.dst then some (pop s e) else searchFor P k (relax P e (pop s e))

end AStar

end Capi
