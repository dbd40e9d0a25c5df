import Verif.Model.Graph
import Verif.Model.Vistree

/-!
# `VisgraphGenerator` (code/visgraph/visgraph_generator.cpp)

`scanner obs` stands for `vistree_gen.get_visible_vertices(obs, true)`; `Visgraph.IsScanner` says
which functions it can be.  The progress bar (lines 27-41, 45-50, 60-62, 66) is in `Model/Progress`.  The
parallel loops are modelled sequentially over an arbitrary order of the vertices; the interleaving
of their additions is `C39_schedule`.
-/

namespace Capi

/-- coordinate_periodicity.cpp:39-66 `make_polygons_periodic`, ignoring overflow.  The copies are
rebuilt by the constructor of `Polygon`.  (For no polygons the early return gives the same.) -/
def polygonsPeriodic (T : ℕ → Polygon.SumTree) (ps : List (List Coord)) : List (List Coord) :=
  ps.flatMap fun p => (List.range 3).map fun i =>
    Polygon.mk T (p.map fun v => (periodicCopies v).getD i v)

namespace Visgraph

/-- visgraph_generator.cpp:98-107 `polygon_vertices`. -/
def polygonVertices (ps : List (List Coord)) : List Coord :=
  ps.foldl (fun acc p => acc ++ p) []

/-- visgraph_generator.cpp:56-58, 90-92: the inner loop. -/
def link (g : Graph) (a : Coord) : List (Coord × Bool) → Res Graph
  | [] => .ok g
  | x :: r => do
    let g1 ← g.addEdge a x.1 x.2
    link g1 a r

/-- visgraph_generator.cpp:53-63, 87-93: the loop over vertices, in the order given. -/
def sweepAll (scanner : Coord → Res (List (Coord × Bool))) (g : Graph) : List Coord → Res Graph
  | [] => .ok g
  | a :: r => do
    let vis ← scanner a
    let g1 ← link g a vis
    sweepAll scanner g1 r

/-- visgraph_generator.cpp:19-69 `generate`; `order` is the order in which the loop handles the
vertices. -/
def generate (ps : List (List Coord)) (scanner : Coord → Res (List (Coord × Bool)))
    (order : List Coord → List Coord) : Res Graph :=
  sweepAll scanner (Graph.ofPolygons ps) (order (polygonVertices ps))

/-- visgraph_generator.cpp:87-93: `polygon_vertices[i]` for `i` from `lo` to `hi - 1`; reading
past the end is undefined. -/
def slice (vs : List Coord) (lo hi : ℕ) : Res (List Coord) :=
  (List.range' lo (hi - lo)).mapM fun i =>
    match vs[i]? with
    | some v => .ok v
    | none => .error .ub

/-- visgraph_generator.cpp:71-96 `generate_with_shuffled_range`; `shuffle` is what `std::shuffle`
does with the given seed.  The arguments are `size_t`, so `range_start < 0` never holds. -/
def generateRange (ps : List (List Coord)) (scanner : Coord → Res (List (Coord × Bool)))
    (order shuffle : List Coord → List Coord) (lo hi : ℕ) : Res Graph := do
  let vs := polygonVertices ps
  let g := Graph.ofPolygons ps
  if ps.isEmpty then return g
  if hi > vs.length ∨ lo > hi then .error .exn
  let chosen ← slice (shuffle vs) lo hi
  sweepAll scanner g (order chosen)

/-- What the half scans of a generator built from the periodic polygons can return.  The map, the
candidate order and the hash table may differ from call to call. -/
def IsScanner (T : ℕ → Polygon.SumTree) (ps : List (List Coord))
    (scanner : Coord → Res (List (Coord × Bool))) : Prop :=
  ∀ obs, ∃ m segs look, m.Perm (Vistree.ofPolygons (polygonsPeriodic T ps)) ∧
    segs.Perm (Vistree.segments m) ∧ LookOk look ∧
    scanner obs = Vistree.scanC look m obs (Vistree.vertices m) segs true

end Visgraph

end Capi
