import Verif.Model.Binary64
import Verif.Model.Distance

/-!
# The search for any weighting and limit

Python passes any double as the weighting of the heuristic and as the limit of the search, NaN and
infinities included.
-/

namespace Capi

/-- The place of a value in the order of doubles: infinities beyond all finite doubles. -/
def F64.toDbl : F64 → ShortestPath.Dbl
  | .nan => .round 0
  | .inf true => .round (-2 ^ 1024)
  | .inf false => .round (2 ^ 1024)
  | .fin q => .round q

namespace ShortestPath

/-- shortest_path_computer.cpp:54-55: distance plus weighted heuristic. -/
def priority64 (w d h : F64) : F64 := d.add (h.mul w)

/-- shortest_path_computer.cpp:53-56 `comparison_func` on pairs of distance and heuristic. -/
def compare64 (w : F64) (a b : F64 × F64) : Bool :=
  (priority64 w b.1 b.2).lt (priority64 w a.1 a.2)

/-- shortest_path_computer.cpp:82 `> maximum_distance_to_search_from_source`. -/
def over64 (limit d : F64) : Bool := limit.lt d

/-- The distances of the code with any weighting and limit.  The queue is ordered by
`compare64`; for a weighting that is no finite number every element may come first. -/
def anyArith (sq : ℚ → Dbl) (w limit : F64) : Arith Dbl where
  mag c := sq c.magSqDeg
  add x y := Dbl.round (x.1 + y.1)
  zero := Dbl.round 0
  weigh d h :=
    match w with
    | .fin q => (priority64 (.fin q) (.fin d.1) (.fin h.1)).toDbl
    | _ => Dbl.round 0
  over d := over64 limit (.fin d.1)

/-- shortest_path_computer.cpp:79-80: the length of a route, summed from its start; `steps` are the
differences of successive vertices. -/
def length64 (sq : ℚ → Dbl) (steps : List Coord) : F64 :=
  steps.foldl (fun (t : F64) c => t.add (.fin (sq c.magSqDeg).1)) (.fin 0)

/-- shortest_path_computer.cpp:79-80: the same with the distances of the search. -/
def lengthOf {D : Type} (A : Arith D) (steps : List Coord) : D :=
  steps.foldl (fun t c => A.add t (A.mag c)) A.zero

end ShortestPath

end Capi
