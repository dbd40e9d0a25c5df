import Verif.Model.Graph
import Verif.Model.Assoc

/-!
# `ModifiedGraph` (code/datastructures/modified_graph/modified_graph.cpp)
-/

namespace Capi

/-- modified_graph.hpp:17-25 `NeighborInfo`; `present` is the relationship `EDGE_PRESENT`. -/
structure Info where
  crossing : Bool
  present : Bool
  deriving DecidableEq

/-- modified_graph.hpp:49-50.  The base graph is an `IGraph`; the code only ever wraps a
`Graph`. -/
structure Modified where
  base : Graph
  nbrs : List (Coord × List (Coord × Info))

namespace Modified

/-- modified_graph.cpp:7. -/
def ofGraph (g : Graph) : Modified := ⟨g, []⟩

/-- `_neighbors[a][b]` if both levels exist. -/
def entry (M : Modified) (a b : Coord) : Option Info :=
  (Assoc.get M.nbrs a).bind fun l => Assoc.get l b

/-- modified_graph.cpp:19-21, 44-46: create the inner map if missing. -/
def ensure (M : Modified) (a : Coord) : Modified :=
  match Assoc.get M.nbrs a with
  | some _ => M
  | none => { M with nbrs := Assoc.set M.nbrs a [] }

/-- `_neighbors[a][b] = i`. -/
def setEntry (M : Modified) (a b : Coord) (i : Info) : Modified :=
  { M with nbrs := Assoc.set M.nbrs a (Assoc.set ((Assoc.get M.nbrs a).getD []) b i) }

/-- modified_graph.cpp:25: the crossing flag of a first addition; `&&` and `||` are lazy. -/
def firstFlag (M : Modified) (a b : Coord) (crossing : Bool) : Res Bool :=
  if crossing then do
    let has ← M.base.hasEdge a b
    if has then M.base.isCrossing a b else pure true
  else pure false

/-- modified_graph.cpp:14-36 `add_directed_edge`. -/
def addDirected (M : Modified) (a b : Coord) (crossing : Bool) : Res Modified :=
  if a = b then .ok M
  else
    let M1 := M.ensure a
    match M1.entry a b with
    | none => do
      let f ← M1.firstFlag a b crossing
      pure (M1.setEntry a b ⟨f, true⟩)
    | some i => .ok (M1.setEntry a b ⟨crossing && i.crossing, true⟩)

/-- modified_graph.cpp:9-12 `add_edge`. -/
def addEdge (M : Modified) (a b : Coord) (crossing : Bool) : Res Modified := do
  let M1 ← M.addDirected a b crossing
  M1.addDirected b a crossing

/-- modified_graph.cpp:43-49 `remove_directed_edge` (no check for `a == b`). -/
def removeDirected (M : Modified) (a b : Coord) : Modified :=
  (M.ensure a).setEntry a b ⟨false, false⟩

/-- modified_graph.cpp:38-41 `remove_edge`. -/
def removeEdge (M : Modified) (a b : Coord) : Modified := (M.removeDirected a b).removeDirected b a

/-- modified_graph.cpp:57-62 `has_vertex`. -/
def hasVertex (M : Modified) (v : Coord) : Bool :=
  M.base.hasVertex v || (Assoc.get M.nbrs v).isSome

/-- modified_graph.cpp:51-55 `add_vertex`. -/
def addVertex (M : Modified) (v : Coord) : Modified :=
  if M.hasVertex v then M else { M with nbrs := Assoc.set M.nbrs v [] }

/-- modified_graph.cpp:64-70 `has_edge`. -/
def hasEdge (M : Modified) (a b : Coord) : Res Bool :=
  match M.entry a b with
  | none => M.base.hasEdge a b
  | some i => .ok i.present

/-- modified_graph.cpp:72-78 `is_edge_meridian_crossing`. -/
def isCrossing (M : Modified) (a b : Coord) : Res Bool :=
  match M.entry a b with
  | none => M.base.isCrossing a b
  | some i => .ok i.crossing

/-- modified_graph.cpp:87-93: the loop over the inner map. -/
def overlayLoop (ns : List Coord) : List (Coord × Info) → List Coord
  | [] => ns
  | p :: r =>
    if p.2.present then overlayLoop (ns ++ [p.1]) r
    else overlayLoop (ns.filter (fun c => c ≠ p.1)) r

/-- modified_graph.cpp:80-96 `get_neighbors`; `ord` is the iteration order of the inner map. -/
def neighbors (M : Modified) (ord : List (Coord × Info) → List (Coord × Info)) (v : Coord) :
    Res (List Coord) := do
  let ns ← if M.base.hasVertex v then M.base.neighbors v else pure []
  match Assoc.get M.nbrs v with
  | none => pure ns
  | some l => pure (overlayLoop ns (ord l))

/-- modified_graph.cpp:98-107 `get_vertices` (up to iteration order). -/
def vertices (M : Modified) : List Coord := M.base.verts ++ M.nbrs.map Prod.fst

/-- One operation. -/
def step (M : Modified) : Graph.Op → Res Modified
  | .add a b m => M.addEdge a b m
  | .addDir a b m => M.addDirected a b m
  | .remove a b => .ok (M.removeEdge a b)
  | .removeDir a b => .ok (M.removeDirected a b)

/-- A sequence of operations. -/
def run (M : Modified) : List Graph.Op → Res Modified
  | [] => .ok M
  | o :: r => do
    let M1 ← M.step o
    M1.run r

end Modified

end Capi
