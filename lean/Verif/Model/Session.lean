import Verif.Model.Parallel
import Verif.Model.ShortestPath

/-!
# Sessions: graphs and path computers as Python holds them (bindings.cpp)

Python holds graphs through `std::shared_ptr`, and a path computer shares the graph it is made from.
The lists handed out by `vertices`, `polygons` and `get_neighbors` are copies, so of the bound
functions only `add_edge` changes a graph.  The interpreter lock is held during every call, so calls
do not overlap.  `add_vertex` and `remove_edge` are not bound.
-/

namespace Capi

/-- graph.cpp:39-42 `add_edge` with the graph as it is left if the second addition throws.  An
addition of its own throws before its only write (graph.cpp:49-50, 68-70). -/
def Graph.addEdgeS (g : Graph) (a b : Coord) (m : Bool) : Graph × Outcome Unit :=
  match g.addDirected a b m with
  | .error .exn => (g, .raised)
  | .error .ub => (g, .undefined)
  | .ok g1 =>
    match g1.addDirected b a m with
    | .error .exn => (g1, .raised)
    | .error .ub => (g1, .undefined)
    | .ok g2 => (g2, .done ())

namespace ShortestPath

/-- What a path computer keeps besides the graph: the index and the generator, both built from the
polygons the graph has when the computer is made, and the ways of the containers. -/
structure Tools where
  onLand : Coord → Bool
  closest : Coord → Res Seg
  project : Seg → Coord → Res Coord
  crossings : Seg → List Seg
  reach : Coord → Res (List (Coord × Bool))
  ord : List (Coord × Info) → List (Coord × Info)

/-- shortest_path_computer.hpp:55-57: what a query consults. -/
def Tools.env (t : Tools) (g : Graph) : Env :=
  ⟨g, t.onLand, t.closest, t.project, t.crossings, t.reach, t.ord⟩

end ShortestPath

open ShortestPath

/-- The graphs and path computers of a session; objects are referred to by position.  A computer is
the graph it shares and its tools. -/
structure Session where
  graphs : List Graph
  computers : List (ℕ × Tools)

/-- Calls that make or change objects.  References to graphs may be `None`, which pybind11 turns
into a null pointer where a `shared_ptr` is expected. -/
inductive Call where
  /-- bindings.cpp:54 `VisGraph(polygons)` -/
  | graph (ps : List (List Coord))
  /-- bindings.cpp:101-110: a graph generated or loaded -/
  | adopt (g : Graph)
  /-- bindings.cpp:58 `add_edge` -/
  | addEdge (k : ℕ) (a b : Coord) (m : Bool)
  /-- bindings.cpp:112 `merge_graphs` -/
  | merge (ks : List (Option ℕ))
  /-- bindings.cpp:66 `VisGraphShortestPathComputer(graph)` -/
  | computer (k : Option ℕ)

namespace Session

/-- The session before the first call. -/
def empty : Session := ⟨[], []⟩

/-- What a call can do and how it can end.  `lib ps t` says that the tools `t` can be built from the
polygons `ps`. -/
inductive Step (lib : List (List Coord) → Tools → Prop) :
    Session → Call → Session → Outcome Unit → Prop where
  | graph (S : Session) (ps : List (List Coord)) :
    Step lib S (.graph ps) ⟨S.graphs ++ [Graph.ofPolygons ps], S.computers⟩ (.done ())
  | adopt (S : Session) (g : Graph) : Step lib S (.adopt g) ⟨S.graphs ++ [g], S.computers⟩ (.done ())
  | addEdge (S : Session) (k : ℕ) (g : Graph) (a b : Coord) (m : Bool) (hk : S.graphs[k]? = some g) :
    Step lib S (.addEdge k a b m) ⟨S.graphs.set k (g.addEdgeS a b m).1, S.computers⟩
      (g.addEdgeS a b m).2
  /-- graph.cpp:239-240 and 249-252 dereference every pointer. -/
  | mergeNone (S : Session) (ks : List (Option ℕ)) (h : none ∈ ks) :
    Step lib S (.merge ks) S .undefined
  | merge (S : Session) (ks : List ℕ) (gs : List Graph) (hk : ks.mapM (S.graphs[·]?) = some gs)
      (ps : List (List Coord)) (hp : Graph.MergeOrder gs ps)
      (schedule : List Graph.Op → List Graph.Op) (hs : ∀ l, (schedule l).Perm l) (G : Graph)
      (h : Graph.mergeP ps schedule gs = .done G) :
    Step lib S (.merge (ks.map some)) ⟨S.graphs ++ [G], S.computers⟩ (.done ())
  | mergeBad (S : Session) (ks : List ℕ) (gs : List Graph) (hk : ks.mapM (S.graphs[·]?) = some gs)
      (ps : List (List Coord)) (hp : Graph.MergeOrder gs ps)
      (schedule : List Graph.Op → List Graph.Op) (hs : ∀ l, (schedule l).Perm l) (o : Outcome Unit)
      (h : (Graph.mergeP ps schedule gs = .raised ∧ o = .raised) ∨
        (Graph.mergeP ps schedule gs = .aborted ∧ o = .aborted) ∨
        (Graph.mergeP ps schedule gs = .undefined ∧ o = .undefined)) :
    Step lib S (.merge (ks.map some)) S o
  /-- shortest_path_computer.cpp:22-23 dereferences the pointer. -/
  | computerNone (S : Session) : Step lib S (.computer none) S .undefined
  | computer (S : Session) (k : ℕ) (g : Graph) (hk : S.graphs[k]? = some g) (t : Tools)
      (ht : lib g.polygons t) :
    Step lib S (.computer (some k)) ⟨S.graphs, S.computers ++ [(k, t)]⟩ (.done ())

/-- The sessions reached by calls that return or raise, if graphs generated or loaded are as `ok`
says. -/
inductive Reach (lib : List (List Coord) → Tools → Prop) (ok : Graph → Prop) : Session → Prop where
  | empty : Reach lib ok empty
  | step {S S' : Session} {c : Call} {o : Outcome Unit} (h : Reach lib ok S)
      (hc : ∀ g, c = .adopt g → ok g) (hs : Step lib S c S' o) (ho : o = .done () ∨ o = .raised) :
    Reach lib ok S'

/-- bindings.cpp:67-77 `shortest_path` asked of computer number `c`: the outcomes it can have. -/
def Asks {D : Type} [LinearOrder D] (A : Arith D) (S : Session) (c : ℕ) (s d : Coord) (allow : Bool)
    (r : Res (List Coord)) : Prop :=
  ∃ k t g, S.computers[c]? = some (k, t) ∧ S.graphs[k]? = some g ∧ Query A (t.env g) s d allow r

end Session

end Capi
