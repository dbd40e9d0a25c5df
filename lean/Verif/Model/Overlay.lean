import Verif.Model.ModifiedGraph

/-!
# `ModifiedGraph` over any base graph (code/datastructures/modified_graph/modified_graph.cpp)

`Verif.Model.ModifiedGraph` fixes the base to a `Graph` and drops the state a raising call leaves
behind.  Here the base is whatever implements `IGraph`, in particular another overlay, and every
operation yields the state it leaves together with what it raised.

Simplification: an overlay never changes its base, so the base is given by the answers of its
reading functions.  A base which somebody else changes meanwhile is not modelled.
-/

namespace Capi

/-- i_graph.hpp:24-30: the reading half of the interface. -/
structure Face where
  hasVertex : Coord → Bool
  hasEdge : Coord → Coord → Res Bool
  isCrossing : Coord → Coord → Res Bool
  neighbors : Coord → Res (List Coord)
  vertices : List Coord
  polygons : List (List Coord)

/-- graph.hpp:21-46: a `Graph` seen through the interface. -/
def Graph.face (g : Graph) : Face :=
  ⟨g.hasVertex, g.hasEdge, g.isCrossing, g.neighbors, g.verts, g.polygons⟩

/-- modified_graph.hpp:50: `_neighbors`, the only state an overlay has of its own. -/
abbrev Layer := List (Coord × List (Coord × Info))

namespace Layer

/-- modified_graph.cpp:23, 65, 73: `_neighbors[a][b]` if both levels exist. -/
def entry (O : Layer) (a b : Coord) : Option Info :=
  (Assoc.get O a).bind fun l => Assoc.get l b

/-- modified_graph.cpp:19-21, 44-46: create the inner map if missing. -/
def ensure (O : Layer) (a : Coord) : Layer :=
  match Assoc.get O a with
  | some _ => O
  | none => Assoc.set O a []

/-- modified_graph.cpp:24, 31, 48: `_neighbors[a][b] = i`. -/
def setEntry (O : Layer) (a b : Coord) (i : Info) : Layer :=
  Assoc.set O a (Assoc.set ((Assoc.get O a).getD []) b i)

/-- modified_graph.cpp:25: the crossing flag of a first addition; `&&` and `||` are lazy. -/
def firstFlag (B : Face) (a b : Coord) (crossing : Bool) : Res Bool :=
  if crossing then do
    let has ← B.hasEdge a b
    if has then B.isCrossing a b else pure true
  else pure false

/-- modified_graph.cpp:14-36 `add_directed_edge`.  The flag is computed before `_neighbors[a][b]`
is touched (in C++17 the right-hand side of `=` comes first), but after the inner map of `a` was
created. -/
def addDirected (B : Face) (O : Layer) (a b : Coord) (crossing : Bool) : Layer × Option Fault :=
  if a = b then (O, none)
  else
    let O1 := O.ensure a
    match O1.entry a b with
    | none =>
      match firstFlag B a b crossing with
      | .ok f => (O1.setEntry a b ⟨f, true⟩, none)
      | .error e => (O1, some e)
    | some i => (O1.setEntry a b ⟨crossing && i.crossing, true⟩, none)

/-- modified_graph.cpp:9-12 `add_edge`: the second half is skipped if the first raises. -/
def addEdge (B : Face) (O : Layer) (a b : Coord) (crossing : Bool) : Layer × Option Fault :=
  match O.addDirected B a b crossing with
  | (O1, none) => O1.addDirected B b a crossing
  | r => r

/-- modified_graph.cpp:43-49 `remove_directed_edge`. -/
def removeDirected (O : Layer) (a b : Coord) : Layer :=
  (O.ensure a).setEntry a b ⟨false, false⟩

/-- modified_graph.cpp:38-41 `remove_edge`. -/
def removeEdge (O : Layer) (a b : Coord) : Layer := (O.removeDirected a b).removeDirected b a

/-- modified_graph.cpp:57-62 `has_vertex`. -/
def hasVertex (B : Face) (O : Layer) (v : Coord) : Bool :=
  B.hasVertex v || (Assoc.get O v).isSome

/-- modified_graph.cpp:51-55 `add_vertex`. -/
def addVertex (B : Face) (O : Layer) (v : Coord) : Layer :=
  if hasVertex B O v then O else Assoc.set O v []

/-- modified_graph.cpp:64-70 `has_edge`. -/
def hasEdge (B : Face) (O : Layer) (a b : Coord) : Res Bool :=
  match O.entry a b with
  | none => B.hasEdge a b
  | some i => .ok i.present

/-- modified_graph.cpp:72-78 `is_edge_meridian_crossing`. -/
def isCrossing (B : Face) (O : Layer) (a b : Coord) : Res Bool :=
  match O.entry a b with
  | none => B.isCrossing a b
  | some i => .ok i.crossing

/-- modified_graph.cpp:80-96 `get_neighbors`; `ord` is the iteration order of the inner map. -/
def neighbors (B : Face) (ord : List (Coord × Info) → List (Coord × Info)) (O : Layer)
    (v : Coord) : Res (List Coord) :=
  (if B.hasVertex v then B.neighbors v else .ok []) >>= fun ns =>
    match Assoc.get O v with
    | none => .ok ns
    | some l => .ok (Modified.overlayLoop ns (ord l))

/-- modified_graph.cpp:98-107 `get_vertices` (up to iteration order). -/
def vertices (B : Face) (O : Layer) : List Coord := B.vertices ++ O.map Prod.fst

/-- modified_graph.hpp:30-51: an overlay seen through the interface, so that it can itself be the
base of another one. -/
def face (B : Face) (ord : List (Coord × Info) → List (Coord × Info)) (O : Layer) : Face :=
  ⟨hasVertex B O, hasEdge B O, isCrossing B O, neighbors B ord O, vertices B O, B.polygons⟩

/-- One operation. -/
def step (B : Face) (O : Layer) : Graph.Op → Layer × Option Fault
  | .add a b m => O.addEdge B a b m
  | .addDir a b m => O.addDirected B a b m
  | .remove a b => (O.removeEdge a b, none)
  | .removeDir a b => (O.removeDirected a b, none)

/-- Operations up to the first that raises. -/
def run (B : Face) (O : Layer) : List Graph.Op → Layer × Option Fault
  | [] => (O, none)
  | o :: r =>
    match O.step B o with
    | (O1, none) => run B O1 r
    | x => x

/-- Operations, each exception being caught. -/
def caught (B : Face) (O : Layer) : List Graph.Op → Layer
  | [] => O
  | o :: r => caught B (O.step B o).1 r

end Layer

end Capi
