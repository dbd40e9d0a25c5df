import Verif.Model.Concurrency

/-!
# Specification of concurrent executions by sequential ones
-/

namespace Capi

namespace Conc

/-- The values a call reads when it runs alone. -/
def alone (n : ℕ) (mem : ℕ → BitVec 8) (c : Call) : List (BitVec 8) := (c.cells n).map mem

/-- The cells after running one call alone. -/
def after (n : ℕ) (mem : ℕ → BitVec 8) (c : Call) : ℕ → BitVec 8 :=
  update mem (c.store n (alone n mem c))

/-- The cells after running calls one after the other. -/
def runAll (n : ℕ) (mem : ℕ → BitVec 8) (cs : List Call) : ℕ → BitVec 8 := cs.foldl (after n) mem

/-- Running the calls of `log` one after the other from `mem`, every call reads what the log
says. -/
def Replays (n : ℕ) (mem : ℕ → BitVec 8) {N : ℕ} : List (Fin N × Call × List (BitVec 8)) → Prop
  | [] => True
  | (_, c, acc) :: r => acc = alone n mem c ∧ Replays n (after n mem c) r

/-- The calls of one thread in a log, in order. -/
def callsOf {N : ℕ} (log : List (Fin N × Call × List (BitVec 8))) (t : Fin N) : List Call :=
  (log.filter fun e => e.1 = t).map fun e => e.2.1

end Conc

end Capi
