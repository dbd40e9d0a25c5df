import Verif.Model.Coordinate

/-!
# `Graph` (code/datastructures/graph/graph.cpp), sequential behaviour

A polygon is represented by its stored vertex list (`Polygon::get_vertices`).
Indices are `unsigned int` in the code and natural numbers here: the cell matrix has
`n * n` bytes, so a graph with `n ≥ 2^32` vertices cannot be allocated.
-/

namespace Capi

/-- graph.hpp:51-65: the data members.  A missing or repeated lock is undefined behaviour;
apart from that locks matter only for concurrency (`Verif.Model.Concurrency`). -/
structure Graph where
  /-- `_polygons` -/
  polygons : List (List Coord)
  /-- `_index_to_coordinate_mapping` -/
  verts : List Coord
  /-- `_num_coords` -/
  num : ℕ
  /-- `_coordinate_to_index_mapping` -/
  idx : Coord → Option ℕ
  /-- `_neighbors`, one `EdgeState` byte per ordered pair -/
  cells : List (BitVec 8)
  /-- length of `_accessor_locks` -/
  locks : ℕ

namespace Graph

/-- graph.cpp:27-29: the loop filling `_coordinate_to_index_mapping`; later entries win. -/
def indexMap (vs : List Coord) : Coord → Option ℕ :=
  vs.zipIdx.foldl (fun m p => fun c => if c = p.1 then some p.2 else m c) fun _ => none

/-- graph.cpp:17 default constructor. -/
def empty : Graph := ⟨[], [], 0, fun _ => none, [], 0⟩

/-- graph.cpp:19-37 constructor from polygons. -/
def ofPolygons (ps : List (List Coord)) : Graph :=
  let vs := ps.flatten
  ⟨ps, vs, vs.length, indexMap vs, List.replicate (vs.length * vs.length) 0, vs.length⟩

/-- graph.hpp:54-59: the bit an addition sets. -/
def bit (crossing : Bool) : BitVec 8 := if crossing then 2 else 1

/-- graph.cpp:226-233 `coordinate_to_index`. -/
def toIndex (g : Graph) (c : Coord) : Res ℕ :=
  match g.idx c with
  | some i => .ok i
  | none => .error .exn

/-- graph.cpp:49-67, 83-101, 110-128, 141-159: the common prologue of the edge operations:
look up both indices, take both locks (locking one mutex twice is undefined), compute the
cell index. -/
def pairIndex (g : Graph) (a b : Coord) : Res ℕ := do
  let i ← g.toIndex a
  let j ← g.toIndex b
  if i < g.locks ∧ j < g.locks ∧ i ≠ j then
    pure (i + g.num * j)
  else .error .ub

/-- `_neighbors[i]`; outside the vector it is undefined behaviour. -/
def cell (g : Graph) (i : ℕ) : Res (BitVec 8) :=
  match g.cells[i]? with
  | some c => .ok c
  | none => .error .ub

/-- graph.cpp:44-71 `add_directed_edge`. -/
def addDirected (g : Graph) (a b : Coord) (crossing : Bool) : Res Graph :=
  if a = b then .ok g
  else do
    let k ← g.pairIndex a b
    let c ← g.cell k
    pure { g with cells := g.cells.set k (c ||| bit crossing) }

/-- graph.cpp:39-42 `add_edge`. -/
def addEdge (g : Graph) (a b : Coord) (crossing : Bool) : Res Graph := do
  let g1 ← g.addDirected a b crossing
  g1.addDirected b a crossing

/-- graph.cpp:78-103 `remove_directed_edge`. -/
def removeDirected (g : Graph) (a b : Coord) : Res Graph :=
  if a = b then .ok g
  else do
    let k ← g.pairIndex a b
    let _ ← g.cell k
    pure { g with cells := g.cells.set k 0 }

/-- graph.cpp:73-76 `remove_edge`. -/
def removeEdge (g : Graph) (a b : Coord) : Res Graph := do
  let g1 ← g.removeDirected a b
  g1.removeDirected b a

/-- graph.cpp:105-130 `has_edge`. -/
def hasEdge (g : Graph) (a b : Coord) : Res Bool :=
  if a = b then .ok false
  else do
    let k ← g.pairIndex a b
    let c ← g.cell k
    pure (c != 0)

/-- graph.cpp:136-161 `is_edge_meridian_crossing`. -/
def isCrossing (g : Graph) (a b : Coord) : Res Bool :=
  if a = b then .ok false
  else do
    let k ← g.pairIndex a b
    let c ← g.cell k
    pure (c == 2)

/-- graph.cpp:132-134 `has_vertex`. -/
def hasVertex (g : Graph) (c : Coord) : Bool := (g.idx c).isSome

/-- graph.cpp:203-208: the loop over one row. -/
def neighborLoop (g : Graph) (index : ℕ) : List ℕ → Res (List Coord)
  | [] => .ok []
  | i :: r => do
    let c ← g.cell (i + index * g.num)
    if c != 0 then
      match g.verts[i]? with
      | some v =>
        let rest ← g.neighborLoop index r
        pure (v :: rest)
      | none => .error .ub
    else g.neighborLoop index r

/-- graph.cpp:197-211 `get_neighbors`. -/
def neighbors (g : Graph) (v : Coord) : Res (List Coord) := do
  let index ← g.toIndex v
  if index < g.locks then g.neighborLoop index (List.range g.num)
  else .error .ub

/-- graph.cpp:217-224 `add_vertex`. -/
def addVertex (g : Graph) (v : Coord) : Graph :=
  let n := g.num + 1
  { g with
    idx := fun c => if c = v then some g.num else g.idx c
    verts := g.verts ++ [v]
    num := n
    cells := g.cells.take (n * n) ++ List.replicate (n * n - g.cells.length) 0
    locks := g.locks + 1 }

/-- The mutating operations, as data. -/
inductive Op where
  | add (a b : Coord) (crossing : Bool)
  | addDir (a b : Coord) (crossing : Bool)
  | remove (a b : Coord)
  | removeDir (a b : Coord)
  deriving DecidableEq

/-- Perform one operation. -/
def step (g : Graph) : Op → Res Graph
  | .add a b m => g.addEdge a b m
  | .addDir a b m => g.addDirected a b m
  | .remove a b => g.removeEdge a b
  | .removeDir a b => g.removeDirected a b

/-- Perform a sequence of operations. -/
def run (g : Graph) : List Op → Res Graph
  | [] => .ok g
  | o :: r => do
    let g1 ← g.step o
    g1.run r

end Graph

end Capi
