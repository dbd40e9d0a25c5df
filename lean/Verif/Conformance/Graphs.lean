import Verif.Conformance.Support
import Verif.Model.Frontend
import Verif.Model.Merge
import Verif.Model.Serializer

/-!
# The unit tests of graphs, graph generation, graph files and the shapefile reader

`std::shuffle` is replaced by leaving the order alone.  The tests of `ShortestPathComputer` are in
`Paths.lean`; `Reproduce.lean` runs the model on whole files.
-/

namespace Capi.Conformance

open Graph

/-- `Graph::operator==` compares what `to_string_representation` prints, see `Graph.eq`; here the
printed data are compared. -/
def same (g h : Res Graph) : Bool :=
  match g, h with
  | .ok g, .ok h =>
    match g.view hashSort, h.view hashSort with
    | .ok a, .ok b => decide (a = b)
    | _, _ => false
  | _, _ => false

/-- `VisgraphGenerator::generate` -/
def gen (ps : List (List Coord)) : Res Graph :=
  Visgraph.generate ps (exScanner Polygon.SumTree.sequential ps) id

/-- `VisgraphGenerator::generate_with_shuffled_range` -/
def genRange (ps : List (List Coord)) (lo hi : ℕ) : Res Graph :=
  Visgraph.generateRange ps (exScanner Polygon.SumTree.sequential ps) id id lo hi

/-- `add_edges` of test_visgraph_generator.cpp:136-140, for several sources. -/
def addAll (g : Graph) (es : List (Coord × List (Coord × Bool))) : Res Graph :=
  g.run (es.flatMap fun e => e.2.map fun n => .add e.1 n.1 n.2)

/-- test_graph.cpp:11-32 "Graph Add Edge" -/
example :
    let c1 := deg 1 2
    let c2 := deg 2 1
    let c3 := deg 1 1
    let c4 := deg 1 5
    let g := (Graph.ofPolygons [poly [c1, c2, c3, c4]]).run
      [.add c1 c2 true, .add c1 c2 true, .add c3 c4 true, .add c3 c4 false]
    (g >>= fun g => g.hasEdge c1 c2) = .ok true ∧ (g >>= fun g => g.hasEdge c2 c1) = .ok true ∧
    (g >>= fun g => g.hasEdge c1 c3) = .ok false ∧
    (g >>= fun g => g.isCrossing c1 c2) = .ok true ∧
    (g >>= fun g => g.isCrossing c3 c4) = .ok false ∧
    (g >>= fun g => g.isCrossing c1 c3) = .ok false := by decide +kernel

/-- test_graph.cpp:34-47 "Graph Remove Edge" -/
example :
    let c1 := deg 1 2
    let c2 := deg 2 1
    let c3 := deg 3 1
    let g := (Graph.ofPolygons [poly [c1, c2, c3]]).run
      [.add c1 c2 true, .remove c1 c2, .remove c1 c3]
    (g >>= fun g => g.hasEdge c1 c2) = .ok false ∧
    (g >>= fun g => g.hasEdge c2 c1) = .ok false := by decide +kernel

/-- test_graph.cpp:49-59, 74-84 "Graph get_vertices", "Graph get_polygons" -/
example :
    let p := poly [deg 1 2, deg 2 1, deg 1 1]
    let g := Graph.ofPolygons [p]
    deg 1 2 ∈ g.verts ∧ deg 2 1 ∈ g.verts ∧ deg 1 1 ∈ g.verts ∧ g.polygons = [p] := by
  decide +kernel

/-- test_graph.cpp:61-72 "Graph get_neighbors" -/
example :
    let c1 := deg 1 2
    let c2 := deg 2 1
    let g := (Graph.ofPolygons [poly [c1, c2, deg 1 1]]).run [.add c1 c2 false]
    (g >>= fun g => g.neighbors c1) = .ok [c2] ∧
    (g >>= fun g => g.neighbors c2) = .ok [c1] := by decide +kernel

/-- test_graph.cpp:86-105: the two polygons. -/
def mergePolys : List (List Coord) :=
  [poly [deg 1 0, deg 0 1.5, deg (-1) 0], poly [deg 4 0, deg 3 1, deg 2 0]]

/-- test_graph.cpp:86-105 "Graph merge" -/
example : same (gen mergePolys) (do
    let a ← genRange mergePolys 0 3
    let b ← genRange mergePolys 3 6
    Graph.merge mergePolys id [a, b]) = true := by decide +kernel

/-- test_visgraph_generator.cpp:16-92: the two polygons. -/
def normalPolys : List (List Coord) :=
  [poly [deg 1 0, deg 0 1, deg (-1) 0], poly [deg 5 0, deg 3 0, deg 4 2]]

/-- test_visgraph_generator.cpp:34-87: the expected graph. -/
def normalExpected : Res Graph := addAll (Graph.ofPolygons normalPolys)
  [(deg 5 0, [(deg 3 0, false), (deg 0 1, true), (deg 4 2, false), (deg (-1) 0, true)]),
   (deg (-1) 0, [(deg 1 0, false), (deg 3 0, false), (deg 5 0, true), (deg 0 1, false),
    (deg 4 2, true)]),
   (deg 3 0, [(deg 1 0, false), (deg 5 0, false), (deg 0 1, false), (deg 4 2, false),
    (deg (-1) 0, false)]),
   (deg 4 2, [(deg 1 0, false), (deg 3 0, false), (deg 5 0, false), (deg 0 1, false),
    (deg (-1) 0, true)]),
   (deg 0 1, [(deg 1 0, false), (deg 3 0, false), (deg 5 0, true), (deg 4 2, false),
    (deg (-1) 0, false)]),
   (deg 1 0, [(deg 3 0, false), (deg 0 1, false), (deg 4 2, false), (deg (-1) 0, false)])]

/-- test_visgraph_generator.cpp:16-92 "Visgraph Generator Normal Case" -/
example : same (gen normalPolys) normalExpected = true ∧
    same (genRange normalPolys 0 6) normalExpected = true ∧
    same (genRange normalPolys 0 1) normalExpected = false := by decide +kernel

/-- test_visgraph_generator.cpp:94-134 "Visgraph Generator Polygon along world boundary" -/
example :
    let p := poly [deg 180 90, deg 180 (-90), deg (-180) (-90), deg (-180) 90]
    same (gen [p]) (addAll (Graph.ofPolygons [p])
      [(deg 180 (-90), [(deg 180 90, false), (deg (-180) 90, true), (deg (-180) (-90), false)]),
       (deg (-180) 90, [(deg 180 90, false), (deg (-180) (-90), false), (deg 180 (-90), true)]),
       (deg 180 90, [(deg (-180) 90, false), (deg (-180) (-90), true), (deg 180 (-90), false)]),
       (deg (-180) (-90), [(deg 180 90, true), (deg (-180) 90, false), (deg 180 (-90), false)])])
    = true := by decide +kernel

/-- test_graph_serializer.cpp:12-41 "Graph serialize"; the file is new. -/
example :
    let c1 := deg 1 2
    let c2 := deg 2 1
    let c3 := deg 1 1
    let c4 := deg 39.068387 47.276612
    let g := (Graph.ofPolygons [poly [c1, c2], poly [c3, c4]]).run
      [.add c1 c2 false, .add c1 c3 false, .add c3 c4 true]
    same g (g >>= fun g => Serial.save g [] >>= Serial.load Polygon.SumTree.sequential) = true := by
  decide +kernel

/-- test_graph_serializer.cpp:43-67 "Graph serialize 2" -/
example :
    let g := gen [poly [deg 1 0, deg 0 1, deg (-1) 0], poly [deg 4 0, deg 3 1, deg 2 0]]
    same g (g >>= fun g => Serial.save g [] >>= Serial.load Polygon.SumTree.sequential) = true := by
  decide +kernel

/-- test_graph_serializer.cpp:69-103 "Graph serialize 3" -/
example :
    let c1 := deg 1 2
    let c2 := deg 2 1
    let c3 := deg 2 (-1)
    let c4 := deg 1 (-2)
    let g := (Graph.ofPolygons [poly [c1, c2, c3, c4, deg (-1) (-2), deg (-2) (-1), deg (-2) 1,
      deg (-1) 2]]).run [.add c1 c2 false, .add c1 c3 false, .add c3 c4 true]
    same g (g >>= fun g => Serial.save g [] >>= Serial.load Polygon.SumTree.sequential) = true := by
  decide +kernel

/-- test_shapefile_reader.py:11-27 `test_read`, on the points stored in very_small.shp. -/
example : Frontend.readShapes [⟨true, [(-1, 0), (0, 1), (1, 0), (0, -1), (-1, 0)], [0]⟩] =
    .ok [[(-1, 0), (0, 1), (1, 0), (0, -1)]] := by decide +kernel

end Capi.Conformance
