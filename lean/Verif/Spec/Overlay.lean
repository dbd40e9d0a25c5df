import Verif.Model.Overlay
import Verif.Spec.History

/-!
# What an overlay should answer, from the changes made to it
-/

namespace Capi

/-- The base can say what an addition of a crossing edge has to know. -/
def Answers (B : Face) (c d : Coord) : Prop :=
  B.hasEdge c d = .ok false ∨ B.hasEdge c d = .ok true ∧ ∃ x, B.isCrossing c d = .ok x

/-- The base would let a crossing edge be crossing. -/
def Permits (B : Face) (c d : Coord) : Prop :=
  B.hasEdge c d = .ok false ∨ B.hasEdge c d = .ok true ∧ B.isCrossing c d = .ok true

/-- The change concerns `c → d`. -/
def Event.on (c d : Coord) : Event → Bool
  | .added a b _ | .removed a b => a = c ∧ b = d

/-- A crossing addition. -/
def Event.isCrossingAdd : Event → Bool
  | .added _ _ m => m
  | .removed _ _ => false

/-- An addition. -/
def Event.isAdd : Event → Bool
  | .added _ _ _ => true
  | .removed _ _ => false

/-- The change starts at `v`; adding an edge from a coordinate to itself is no change. -/
def Event.startsAt (v : Coord) : Event → Bool
  | .added a b _ => v = a ∧ a ≠ b
  | .removed a _ => v = a

/-- The changes of `c → d`, in order. -/
def about (c d : Coord) (es : List Event) : List Event := es.filter (Event.on c d)

/-- No `add_edge`, which makes two changes of which the first may stop the second. -/
def Layer.Single : Graph.Op → Prop
  | .add _ _ _ => False
  | _ => True

open Classical in
/-- Those that took place: while the base cannot answer, crossing additions raise. -/
noncomputable def heard (B : Face) (c d : Coord) (es : List Event) : List Event :=
  if Answers B c d then about c d es else (about c d es).dropWhile Event.isCrossingAdd

/-- Everything a graph says about its neighbours fits what it says about its edges. -/
structure Coherent (B : Face) : Prop where
  neighbors : ∀ v, B.hasVertex v = true →
    ∃ ns, B.neighbors v = .ok ns ∧ ∀ w, w ∈ ns ↔ B.hasEdge v w = .ok true
  edges : ∀ v w, B.hasEdge v w = .ok true → B.hasVertex v = true
  vertices : ∀ v, v ∈ B.vertices ↔ B.hasVertex v = true

/-- One overlay upon the other; the operations of each are those made on it while it was on top. -/
def stack (B : Face) (ord : List (Coord × Info) → List (Coord × Info)) :
    List (List Graph.Op) → Face
  | [] => B
  | ops :: r => stack (Layer.face B ord (Layer.caught B [] ops)) ord r

end Capi
