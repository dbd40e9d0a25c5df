import Verif.Model.Graph

/-!
# Concurrent use of `Graph` (code/datastructures/graph/graph.cpp)

Threads run programs of calls on one graph.  A call is split into the steps another thread
can observe: taking each lock, reading each cell, storing one cell, releasing each lock.
Calls are given by vertex indices; looking up the index (graph.cpp:226-233) happens before any
lock is taken, does not touch the matrix, and the maps are not changed while threads run
(`add_vertex` is documented as not thread-safe, graph.hpp:29).

Assumed: `std::shared_mutex` excludes as documented, and accesses to cells take effect at once
in some global order; since `C23_race_free` shows there is no data race, the C++ memory model
justifies the latter.
-/

namespace Capi

namespace Conc

/-- One call, by vertex indices.  Calls with equal coordinates return before taking a lock and
are left out. -/
inductive Call where
  /-- graph.cpp:44-71 `add_directed_edge` -/
  | add (i j : ℕ) (crossing : Bool)
  /-- graph.cpp:78-103 `remove_directed_edge` -/
  | remove (i j : ℕ)
  /-- graph.cpp:105-130 `has_edge`, 136-161 `is_edge_meridian_crossing` -/
  | query (i j : ℕ)
  /-- graph.cpp:197-211 `get_neighbors` -/
  | row (v : ℕ)
  deriving DecidableEq

namespace Call

/-- graph.cpp:58-65, 92-99, 119-126, 150-157, 200: the locks in the order they are taken. -/
def locks : Call → List ℕ
  | add i j _ | remove i j | query i j => if i < j then [i, j] else [j, i]
  | row v => [v]

/-- graph.cpp:55-56, 89-90 (`unique_lock`) versus 116-117, 147-148, 200 (`shared_lock`). -/
def exclusive : Call → Bool
  | add _ _ _ | remove _ _ => true
  | query _ _ | row _ => false

/-- The cells read, in order; `n` is `_num_coords`. -/
def cells (n : ℕ) : Call → List ℕ
  | add i j _ => [i + n * j]
  | remove _ _ => []
  | query i j => [i + n * j]
  | row v => (List.range n).map fun o => o + v * n

/-- The store at the end, from the values read (graph.cpp:67-70, 101-102). -/
def store (n : ℕ) (acc : List (BitVec 8)) : Call → Option (ℕ × BitVec 8)
  | add i j m => some (i + n * j, acc.headD 0 ||| Graph.bit m)
  | remove i j => some (i + n * j, 0)
  | query _ _ => none
  | row _ => none

/-- The indices are those of different vertices. -/
def Valid (n : ℕ) : Call → Prop
  | add i j _ | remove i j | query i j => i < n ∧ j < n ∧ i ≠ j
  | row v => v < n

end Call

/-- Where a thread is. -/
inductive Phase where
  /-- between calls -/
  | idle
  /-- holds the first `k` locks of the call and is about to take the next -/
  | acquiring (c : Call) (k : ℕ)
  /-- holds all locks and has read the values `acc` -/
  | reading (c : Call) (acc : List (BitVec 8))
  /-- still holds the first `k` locks -/
  | releasing (c : Call) (k : ℕ)
  deriving DecidableEq

/-- A thread: the calls still to be started, and where it is. -/
structure Th where
  calls : List Call
  phase : Phase
  deriving DecidableEq

/-- The locks held, with mode. -/
def Phase.holds : Phase → List (ℕ × Bool)
  | idle => []
  | acquiring c k => (c.locks.take k).map fun l => (l, c.exclusive)
  | reading c _ => c.locks.map fun l => (l, c.exclusive)
  | releasing c k => (c.locks.take k).map fun l => (l, c.exclusive)

/-- The lock being waited for, with mode. -/
def Phase.wants : Phase → Option (ℕ × Bool)
  | acquiring c k => c.locks[k]?.map fun l => (l, c.exclusive)
  | _ => none

/-- Shared state.  `log` records the calls in the order in which they take effect, with the
values they read; it does not influence the behaviour. -/
structure State (N : ℕ) where
  mem : ℕ → BitVec 8
  th : Fin N → Th
  log : List (Fin N × Call × List (BitVec 8))

variable {N : ℕ}

/-- Change one thread. -/
def State.setTh (σ : State N) (t : Fin N) (x : Th) : State N :=
  { σ with th := fun s => if s = t then x else σ.th s }

/-- The effect of a call on the cells. -/
def update (mem : ℕ → BitVec 8) : Option (ℕ × BitVec 8) → ℕ → BitVec 8
  | none => mem
  | some (x, v) => fun y => if y = x then v else mem y

/-- `std::shared_mutex`: no other thread holds the lock, or everybody involved shares it. -/
def State.free (σ : State N) (t : Fin N) (l : ℕ) (exclusive : Bool) : Prop :=
  ∀ s, s ≠ t → ∀ m, (l, m) ∈ (σ.th s).phase.holds → m = false ∧ exclusive = false

/-- One step of thread `t`.  `refuse` lets the mutex turn away a thread although the lock is
free for it (for example readers, while a writer waits). -/
inductive Step (n : ℕ) (refuse : State N → Fin N → Prop) : State N → Fin N → State N → Prop
  | start (σ t c r) (h : σ.th t = ⟨c :: r, .idle⟩) :
      Step n refuse σ t (σ.setTh t ⟨r, .acquiring c 0⟩)
  | acquire (σ t c r k l) (h : σ.th t = ⟨r, .acquiring c k⟩) (hl : c.locks[k]? = some l)
      (hf : σ.free t l c.exclusive) (hr : ¬ refuse σ t) :
      Step n refuse σ t
        (σ.setTh t ⟨r, if k + 1 = c.locks.length then .reading c [] else .acquiring c (k + 1)⟩)
  | read (σ t c r acc x) (h : σ.th t = ⟨r, .reading c acc⟩)
      (hx : (c.cells n)[acc.length]? = some x) :
      Step n refuse σ t (σ.setTh t ⟨r, .reading c (acc ++ [σ.mem x])⟩)
  | commit (σ t c r acc) (h : σ.th t = ⟨r, .reading c acc⟩)
      (hx : acc.length = (c.cells n).length) :
      Step n refuse σ t { (σ.setTh t ⟨r, .releasing c c.locks.length⟩) with
        mem := update σ.mem (c.store n acc)
        log := σ.log ++ [(t, c, acc)] }
  | release (σ t c r k) (h : σ.th t = ⟨r, .releasing c (k + 1)⟩) :
      Step n refuse σ t (σ.setTh t ⟨r, if k = 0 then .idle else .releasing c k⟩)

/-- All threads at the beginning of their programs. -/
def start (mem : ℕ → BitVec 8) (prog : Fin N → List Call) : State N :=
  ⟨mem, fun t => ⟨prog t, .idle⟩, []⟩

/-- An execution with the given sequence of scheduled threads. -/
inductive Exec (n : ℕ) (refuse : State N → Fin N → Prop) : State N → List (Fin N) → State N → Prop
  | nil (σ) : Exec n refuse σ [] σ
  | snoc {σ ts τ t υ} : Exec n refuse σ ts τ → Step n refuse τ t υ → Exec n refuse σ (ts ++ [t]) υ

/-- Everybody is done. -/
def State.finished (σ : State N) : Prop := ∀ t, σ.th t = ⟨[], .idle⟩

/-- A mutex may turn away a thread only if it wants to share the lock while another thread
waits to own it exclusively. -/
def Policy (refuse : State N → Fin N → Prop) : Prop :=
  ∀ σ t, refuse σ t → ∃ l s, s ≠ t ∧ (σ.th t).phase.wants = some (l, false) ∧
    (σ.th s).phase.wants = some (l, true)

/-- An executable version of `Step` without refusals, used to exhibit executions. -/
def State.next (n : ℕ) (σ : State N) (t : Fin N) : Option (State N) :=
  match σ.th t with
  | ⟨[], .idle⟩ => none
  | ⟨c :: r, .idle⟩ => some (σ.setTh t ⟨r, .acquiring c 0⟩)
  | ⟨r, .acquiring c k⟩ =>
    match c.locks[k]? with
    | none => none
    | some l =>
      if (List.finRange N).all fun s => s = t || (σ.th s).phase.holds.all fun p =>
          p.1 != l || (!p.2 && !c.exclusive) then
        some (σ.setTh t
          ⟨r, if k + 1 = c.locks.length then .reading c [] else .acquiring c (k + 1)⟩)
      else none
  | ⟨r, .reading c acc⟩ =>
    match (c.cells n)[acc.length]? with
    | some x => some (σ.setTh t ⟨r, .reading c (acc ++ [σ.mem x])⟩)
    | none =>
      if acc.length = (c.cells n).length then
        some { (σ.setTh t ⟨r, .releasing c c.locks.length⟩) with
          mem := update σ.mem (c.store n acc)
          log := σ.log ++ [(t, c, acc)] }
      else none
  | ⟨_, .releasing _ 0⟩ => none
  | ⟨r, .releasing c (k + 1)⟩ => some (σ.setTh t ⟨r, if k = 0 then .idle else .releasing c k⟩)

/-- Run a schedule. -/
def State.runSchedule (n : ℕ) (σ : State N) : List (Fin N) → Option (State N)
  | [] => some σ
  | t :: ts => (σ.next n t).bind fun τ => τ.runSchedule n ts

/-! ### Calls on a graph -/

/-- The cells of a graph. -/
def memOf (g : Graph) : ℕ → BitVec 8 := fun k => g.cells.getD k 0

/-- The graph whose cells are those in memory. -/
def withMem (g : Graph) (mem : ℕ → BitVec 8) : Graph :=
  { g with cells := (List.range (g.num * g.num)).map mem }

/-- graph.cpp:45-51, 79-85: nothing happens for equal coordinates, otherwise the indices are
looked up.  (An unknown coordinate throws before any lock is taken; such calls are left out.) -/
def directed (g : Graph) (a b : Coord) (mk : ℕ → ℕ → Call) : List Call :=
  if a = b then [] else
    match g.idx a, g.idx b with
    | some i, some j => [mk i j]
    | _, _ => []

/-- graph.cpp:39-42, 73-76: an undirected update is two directed ones, one after the other. -/
def opCalls (g : Graph) : Graph.Op → List Call
  | .add a b m => directed g a b (.add · · m) ++ directed g b a (.add · · m)
  | .addDir a b m => directed g a b (.add · · m)
  | .remove a b => directed g a b .remove ++ directed g b a .remove
  | .removeDir a b => directed g a b .remove

/-- The calls of a program of updates. -/
def opsCalls (g : Graph) (ops : List Graph.Op) : List Call := ops.flatMap (opCalls g)

end Conc

end Capi
