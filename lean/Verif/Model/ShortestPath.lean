import Verif.Model.AStar
import Verif.Model.ModifiedGraph
import Verif.Model.Periodicity
import Verif.Model.Vistree

/-!
# `ShortestPathComputer` (code/shortest_path/shortest_path_computer.cpp)

The S2 library is not modelled: the answers of the spatial index and the projection onto a segment
are arbitrary functions.  Distances are of any type `D` with the operations of `Arith`, so that the
same model serves exact and rounded arithmetic.  Messages of exceptions are left out.
-/

namespace Capi

namespace ShortestPath

/-- The arithmetic of distances. -/
structure Arith (D : Type) where
  /-- coordinate.cpp:112 `magnitude` -/
  mag : Coord → D
  /-- shortest_path_computer.cpp:80 `+` -/
  add : D → D → D
  zero : D
  /-- shortest_path_computer.cpp:53-56: `distance + heuristic * weighting` -/
  weigh : D → D → D
  /-- shortest_path_computer.cpp:82: `> maximum_distance_to_search_from_source` -/
  over : D → Bool

variable {D : Type} [LinearOrder D]

/-- shortest_path_computer.cpp:161-168 `distance_measurement`, ignoring overflow. -/
def distance (A : Arith D) (a b : Coord) (span : Bool) : D :=
  if span then min (A.mag (((periodicCopies a).getD 1 a).sub b))
    (A.mag (((periodicCopies a).getD 2 a).sub b))
  else A.mag (a.sub b)

/-- shortest_path_computer.cpp:161-168 `distance_measurement` with `int32_t` checks. -/
def distanceC (A : Arith D) (a b : Coord) (span : Bool) : Res D :=
  if span then do
    let cs ← periodicCopiesC a
    let x ← (cs.getD 1 a).subC b
    let y ← (cs.getD 2 a).subC b
    return min (A.mag x) (A.mag y)
  else do
    let x ← a.subC b
    return A.mag x

/-- shortest_path_computer.cpp:170-172 `heuristic_distance_measurement`. -/
def heuristic (A : Arith D) (a b : Coord) : D := min (distance A a b false) (distance A a b true)

/-- Everything a query consults besides its arguments. -/
structure Env where
  graph : Graph
  /-- spatial_segment_index.cpp:87-91 `is_point_contained` -/
  onLand : Coord → Bool
  /-- spatial_segment_index.cpp:42-56 `closest_segment_to_point` -/
  closest : Coord → Res Seg
  /-- line_segment.cpp:107-125 `project` -/
  project : Seg → Coord → Res Coord
  /-- spatial_segment_index.cpp:67-81 `intersect_with_segments` -/
  crossings : Seg → List Seg
  /-- `_vistree_gen.get_visible_vertices(v)`: a full scan over the polygons themselves -/
  reach : Coord → Res (List (Coord × Bool))
  /-- iteration order of the hash maps of the overlay -/
  ord : List (Coord × Info) → List (Coord × Info)

/-- shortest_path_computer.hpp:26-31 `LandCollisionCorrection`. -/
structure Correction where
  src : Coord
  dst : Coord
  srcEdge : Option Seg
  dstEdge : Option Seg
  deriving DecidableEq

/-- shortest_path_computer.cpp:190-194, 195-199: one endpoint. -/
def correctOne (E : Env) (v : Coord) : Res (Coord × Option Seg) :=
  if E.onLand v then do
    let s ← E.closest v
    let c ← E.project s v
    return (c, some s)
  else .ok (v, none)

/-- shortest_path_computer.cpp:174-209 `handle_land_collisions`. -/
def correct (E : Env) (s d : Coord) (allow : Bool) : Res Correction :=
  if !allow && (E.onLand s || E.onLand d) then .error .exn
  else do
    let a ← correctOne E s
    let b ← correctOne E d
    return ⟨a.1, b.1, a.2, b.2⟩

/-- shortest_path_computer.cpp:40-41: the intersection is not with the given edge. -/
def notEdge (x : Seg) : Option Seg → Bool
  | none => true
  | some e => !x.sameAs e

/-- shortest_path_computer.cpp:37-44: the intersections that count. -/
def blocking (E : Env) (c : Correction) : List Seg :=
  (E.crossings ⟨c.src, c.dst⟩).filter fun x => notEdge x c.srcEdge && notEdge x c.dstEdge

/-- The graph that is searched: `create_modified_graph` returns one of two implementations of
`IGraph`. -/
inductive Net where
  | base (g : Graph)
  | overlay (M : Modified)

namespace Net

/-- `get_neighbors` -/
def neighbors (ord : List (Coord × Info) → List (Coord × Info)) : Net → Coord → Res (List Coord)
  | base g, v => g.neighbors v
  | overlay M, v => M.neighbors ord v

/-- `is_edge_meridian_crossing` -/
def isCrossing : Net → Coord → Coord → Res Bool
  | base g, a, b => g.isCrossing a b
  | overlay M, a, b => M.isCrossing a b

/-- `has_edge` -/
def hasEdge : Net → Coord → Coord → Res Bool
  | base g, a, b => g.hasEdge a b
  | overlay M, a, b => M.hasEdge a b

end Net

/-- shortest_path_computer.cpp:227-228: the vertex is not behind the corrected edge. -/
def mayLinkC (edge : Option Seg) (c : Coord) : Res Bool :=
  match edge with
  | none => .ok true
  | some e => do
    let o ← e.orientPtC c
    return o != .counterClockwise

/-- shortest_path_computer.cpp:226-231: the inner loop. -/
def attach (M : Modified) (v : Coord) (edge : Option Seg) : List (Coord × Bool) → Res Modified
  | [] => .ok M
  | x :: r => do
    let ok ← mayLinkC edge x.1
    if ok then do
      let M1 ← M.addEdge v x.1 x.2
      attach M1 v edge r
    else attach M v edge r

/-- shortest_path_computer.cpp:220-232: one endpoint. -/
def addEndpoint (E : Env) (M : Modified) (v : Coord) (edge : Option Seg) : Res Modified :=
  if E.graph.hasVertex v then .ok M
  else do
    let vis ← E.reach v
    attach (M.addVertex v) v edge vis

/-- shortest_path_computer.cpp:211-236 `create_modified_graph`. -/
def net (E : Env) (c : Correction) : Res Net :=
  if E.graph.hasVertex c.src && E.graph.hasVertex c.dst then .ok (.base E.graph)
  else do
    let M1 ← addEndpoint E (Modified.ofGraph E.graph) c.src c.srcEdge
    let M2 ← addEndpoint E M1 c.dst c.dstEdge
    return .overlay M2

/-- shortest_path_computer.cpp:53-97: the search on the graph.  `get_neighbors` and
`is_edge_meridian_crossing` are replaced by defaults where they throw; `C42_never_throws` shows
that this does not happen. -/
def problem (A : Arith D) (ord : List (Coord × Info) → List (Coord × Info)) (N : Net)
    (src dst : Coord) : AStar.Problem Coord D where
  nbrs v := (N.neighbors ord v).toOption.getD []
  len u n := distance A n u ((N.isCrossing u n).toOption.getD false)
  add := A.add
  zero := A.zero
  prio d v := A.weigh d (heuristic A v dst)
  tooFar n := A.over (heuristic A src n)
  src := src
  dst := dst

/-- shortest_path_computer.cpp:29-50: what happens before the search: an answer, or a graph and
corrected endpoints to search with. -/
def prepare (E : Env) (s d : Coord) (allow : Bool) : Res (List Coord ⊕ (Net × Correction)) := do
  let ns ← normalizeC s
  let nd ← normalizeC d
  let c ← correct E ns nd allow
  if (blocking E c).length = 0 then return .inl [c.src, c.dst]
  let N ← net E c
  return .inr (N, c)

/-- shortest_path_computer.cpp:25-126 `shortest_path`: the outcomes a query can have. -/
def Query (A : Arith D) (E : Env) (s d : Coord) (allow : Bool) (r : Res (List Coord)) : Prop :=
  match prepare E s d allow with
  | .error f => r = .error f
  | .ok (.inl p) => r = .ok p
  | .ok (.inr (N, c)) => AStar.Outcome (problem A E.ord N c.src c.dst) r

/-- What the full scans of a generator built from the polygons can return. -/
def IsReach (ps : List (List Coord)) (reach : Coord → Res (List (Coord × Bool))) : Prop :=
  ∀ obs, ∃ m segs look, m.Perm (Vistree.ofPolygons ps) ∧
    segs.Perm (Vistree.segments m) ∧ LookOk look ∧
    reach obs = Vistree.scanC look m obs (Vistree.vertices m) segs false

end ShortestPath

end Capi
