import Verif.Model.Frontend

/-!
# Python objects (datastructures/polygon.py, dtos/coordinate.py, hypothesis_strategies/polygon.py)

Polygons, lists, coordinates and numbers as objects in the memory of the interpreter.  An object is
referred to by its position; objects are never reused, since only those still referred to matter.
Attributes of other types, subclasses and changes of `_vertices`, private by convention, are left out.
-/

namespace Capi

namespace Objects

/-- A Python `float`, or an `int` by its value. -/
inductive Num where
  | nan
  | inf (negative : Bool)
  | fin (q : ℚ)
  deriving DecidableEq

/-- Python's `==` of numbers. -/
def Num.eq (x y : Num) : Bool := x != .nan && x == y

inductive Obj where
  | num (x : Num)
  /-- coordinate.py:4-7 `Coordinate`: references to latitude and longitude. -/
  | coord (lat lon : ℕ)
  | list (xs : List ℕ)
  /-- polygon.py:15: a reference to `_vertices`. -/
  | polygon (vs : ℕ)
  deriving DecidableEq

abbrev Heap := List Obj

/-! ### Comparison -/

/-- `==` of two numbers in memory. -/
def numEq (H : Heap) (a b : ℕ) : Bool :=
  match H[a]?, H[b]? with
  | some (.num x), some (.num y) => x.eq y
  | _, _ => false

/-- coordinate.py:4 `@dataclass`: the generated `__eq__`.  Up to Python 3.12 it compares tuples, which
takes an object to be equal to itself; from 3.13 (`fields`) on it compares field by field. -/
def coordEq (fields : Bool) (H : Heap) (a b : ℕ) : Bool :=
  match H[a]?, H[b]? with
  | some (.coord l o), some (.coord l' o') =>
    if fields then a == b || (numEq H l l' && numEq H o o')
    else (l == l' || numEq H l l') && (o == o' || numEq H o o')
  | _, _ => false

/-- Python's `==` of lists of coordinates: the same objects or equal ones. -/
def listEq (fields : Bool) (H : Heap) : List ℕ → List ℕ → Bool
  | [], [] => true
  | a :: r, b :: s => (a == b || coordEq fields H a b) && listEq fields H r s
  | _, _ => false

/-- polygon.py:21-25 `__eq__`. -/
def polygonEq (fields : Bool) (H : Heap) (p q : ℕ) : Bool :=
  match H[p]?, H[q]? with
  | some (.polygon v), some (.polygon w) =>
    match H[v]?, H[w]? with
    | some (.list xs), some (.list ys) => listEq fields H xs ys
    | _, _ => false
  | _, _ => false

/-- Python's `hash`, as far as whether it raises.  A dataclass with `__eq__` that is not frozen, and a
class defining `__eq__` only, have no hash: coordinate.py:9-10 is an attribute of its own and does not
freeze the dataclass; polygon.py:21 defines `__eq__`. -/
def hashable (H : Heap) (a : ℕ) : Bool :=
  match H[a]? with
  | some (.num _) => true
  | _ => false

/-! ### What a user can do -/

/-- polygon.py:8-15: the constructor, given a list. -/
def newPolygon (H : Heap) (l : ℕ) : Res (Heap × ℕ) :=
  match H[l]? with
  | some (.list xs) =>
    if xs.length < 3 then .error .exn
    else .ok (H ++ [.list xs, .polygon H.length], H.length + 1)
  | _ => .error .exn

/-- polygon.py:17-19 `vertices`: the list itself. -/
def vertices (H : Heap) (p : ℕ) : Res ℕ :=
  match H[p]? with
  | some (.polygon v) => .ok v
  | _ => .error .exn

/-- Making objects, setting attributes of coordinates and changing lists.  -/
inductive Act where
  | num (x : Num)
  | coord (lat lon : ℕ)
  | list (xs : List ℕ)
  | polygon (l : ℕ)
  | setLat (c f : ℕ)
  | setLon (c f : ℕ)
  /-- any of `append`, `pop`, `clear`, `reverse`, assigning elements, … -/
  | edit (l : ℕ) (xs : List ℕ)

/-- The memory after an act; one that raises leaves it as it was. -/
def act (H : Heap) : Act → Heap
  | .num x => H ++ [.num x]
  | .coord lat lon => H ++ [.coord lat lon]
  | .list xs => H ++ [.list xs]
  | .polygon l =>
    match newPolygon H l with
    | .ok r => r.1
    | .error _ => H
  | .setLat c f =>
    match H[c]? with
    | some (.coord _ lon) => H.set c (.coord f lon)
    | _ => H
  | .setLon c f =>
    match H[c]? with
    | some (.coord lat _) => H.set c (.coord lat f)
    | _ => H
  | .edit l xs =>
    match H[l]? with
    | some (.list _) => H.set l (.list xs)
    | _ => H

/-- The memory after a sequence of acts. -/
def acts (H : Heap) (as : List Act) : Heap := as.foldl act H

/-! ### shapefile_reader.py -/

/-- shapefile_reader.py:25: a coordinate made from a point (longitude, latitude). -/
def newPoint (H : Heap) (p : ℚ × ℚ) : Heap × ℕ :=
  (H ++ [.num (.fin p.2), .num (.fin p.1), .coord H.length (H.length + 1)], H.length + 2)

/-- shapefile_reader.py:19-25: `current_part`. -/
def newPoints (H : Heap) : List (ℚ × ℚ) → Heap × List ℕ
  | [] => (H, [])
  | p :: r =>
    let (H, c) := newPoint H p
    let (H, cs) := newPoints H r
    (H, c :: cs)

/-- shapefile_reader.py:12-32 `read`, with the objects it makes. -/
def readShapes (H : Heap) : List Frontend.Shape → Res (Heap × List ℕ)
  | [] => .ok (H, [])
  | s :: r =>
    if s.isPolygon = false then readShapes H r
    else
      let (H, cs) := newPoints H (Frontend.partLoop s.parts 0 s.points)
      if cs.length > 3 then do
        let (H, p) ← newPolygon (H ++ [.list cs.dropLast]) H.length
        let (H, ps) ← readShapes H r
        return (H, p :: ps)
      else readShapes H r

/-! ### hypothesis_strategies/polygon.py -/

/-- `st.lists(unique=True)` of Hypothesis: every element drawn is looked up in a set of those before,
which takes its hash; one found there is left out.  `same` is equality in the set. -/
def uniqueDraws (H : Heap) (same : ℕ → ℕ → Bool) : List ℕ → List ℕ → Res (List ℕ)
  | seen, [] => .ok seen
  | seen, a :: r =>
    if hashable H a = false then .error .exn
    else if seen.any (same a) then uniqueDraws H same seen r
    else uniqueDraws H same (seen ++ [a]) r

/-- hypothesis_strategies/polygon.py:9-12 `polygon_strategy` for given draws of coordinates. -/
def polygonStrategy (H : Heap) (same : ℕ → ℕ → Bool) (draws : List ℕ) : Res (Heap × ℕ) := do
  let xs ← uniqueDraws H same [] draws
  newPolygon (H ++ [.list xs]) H.length

end Objects

end Capi
