import Verif.Conformance.Graphs
import Verif.Lemmas.OrderlyCheck
import Verif.Lemmas.SimpleCheck
import Verif.Props.Effort

/-!
# The unit tests of `ShortestPathComputer`
(capi/test/visibility_graphs/code/shortest_path/test_shortest_path_computer.cpp)

Lengths are computed in whole picodegrees instead of doubles.  In place of S2 the tests are given its
answers in the plane: a point is on land if it is inside a polygon, and the segments crossing a line
are the edges that cross it properly.  The nearest edge and the projection onto it are given as the
test expects them.
-/

namespace Capi.Conformance

open ShortestPath

/-- The integer square root, below `2 ^ 60`. -/
def root (n : ℕ) : ℕ :=
  (List.range 60).foldr (fun b r => if (r + 2 ^ b) * (r + 2 ^ b) ≤ n then r + 2 ^ b else r) 0

example : root 2000000000000 = 1414213 := by decide +kernel

/-- Lengths in picodegrees, weighting 1 and a limit on the distance from the source. -/
def pico (limit : Option ℕ) : Arith ℕ where
  mag c := root ((c.lon * c.lon + c.lat * c.lat).toNat * 10 ^ 12)
  add := (· + ·)
  zero := 0
  weigh d h := d + h
  over d := match limit with
    | none => false
    | some l => decide (l < d)

/-- The polygons of a test with their graph. -/
def env (ps : List (List Coord)) (closest : Coord → Seg) (project : Coord → Coord) : Env where
  graph := (gen (ps.map poly)).toOption.getD (Graph.ofPolygons [])
  onLand c := (ps.map poly).any fun p => offB p c && decide (passes p c ≠ 0)
  closest c := .ok (closest c)
  project _ c := .ok (project c)
  crossings s := (edgeList (ps.map poly)).filter fun e => decide (Crosses s.p s.q e)
  reach c :=
    let m := Vistree.ofPolygons (ps.map poly)
    Vistree.scanC exLook m c (Vistree.vertices m) (Vistree.segments m) false
  ord := id

/-- `shortest_path` with the first of several least elements of the queue. -/
def pathFor (limit : Option ℕ) (E : Env) (s d : Coord) (allow : Bool) : Option (Res (List Coord)) :=
  match prepare E s d allow with
  | .error f => some (.error f)
  | .ok (.inl p) => some (.ok p)
  | .ok (.inr (N, c)) =>
    let P := problem (pico limit) E.ord N c.src c.dst
    (AStar.searchFor P 100 (AStar.init P)).bind fun st =>
      (AStar.follow P.src st.prev 100 P.dst).map fun r => r.map List.reverse

/-- What is computed is an outcome of the query. -/
theorem pathFor_query {limit : Option ℕ} {E : Env} {s d : Coord} {allow : Bool} {r : Res (List Coord)}
    (h : pathFor limit E s d allow = some r) : Query (pico limit) E s d allow r := by
  unfold pathFor at h
  unfold Query
  cases hp : prepare E s d allow with
  | error f =>
    rw [hp] at h
    exact (Option.some.inj h).symm
  | ok x =>
    rw [hp] at h
    cases x with
    | inl p => exact (Option.some.inj h).symm
    | inr x =>
      obtain ⟨st, h1, h2⟩ := Option.bind_eq_some_iff.1 h
      obtain ⟨r', h3, rfl⟩ := Option.map_eq_some_iff.1 h2
      exact ⟨st, 100, r', (C79_runs _).1 100 st h1, h3, rfl⟩

/-- An environment in which nothing is corrected. -/
def plain (ps : List (List Coord)) : Env := env ps (fun c => ⟨c, c⟩) id

/-- test_shortest_path_computer.cpp:11-36 "ShortestPathComputer shortest path" -/
example :
    let E := plain [[deg 1 0, ⟨0, 1500000⟩, deg (-1) 0], [deg 4 0, deg 3 1, deg 2 0]]
    let a := deg (-2) 0
    let b := deg 3 1
    let path := [a, deg (-1) 0, deg 1 0, b]
    pathFor none E a b false = some (.ok path) ∧
    pathFor none E b a false = some (.ok path.reverse) := by decide +kernel

/-- test_shortest_path_computer.cpp:38-63 "ShortestPathComputer shortest path over meridian" -/
example :
    let E := plain [[deg 179 0, ⟨178000000, 1500000⟩, deg 177 0], [deg 2 0, deg 1 1, deg 0 0]]
    let a := deg 176 0
    let b := deg 1 1
    pathFor none E a b false = some (.ok [a, b]) ∧
    pathFor none E b a false = some (.ok [b, a]) := by decide +kernel

/-- test_shortest_path_computer.cpp:65-85 "ShortestPathComputer shortest path parallel to edge" -/
example :
    let E := plain [[⟨1000, 1000⟩, ⟨-1000, 1000⟩, ⟨-1000, -1000⟩, ⟨1000, -1000⟩]]
    let a : Coord := ⟨-800, -1000⟩
    let b : Coord := ⟨800, -1000⟩
    pathFor none E a b true = some (.ok [a, b]) ∧
    pathFor none E b a true = some (.ok [b, a]) := by decide +kernel

/-- test_shortest_path_computer.cpp:87-110 "ShortestPathComputer shortest path parallel to edge 2" -/
example :
    let E := env [[⟨1000, 0⟩, ⟨0, 1000⟩, ⟨-1000, 0⟩, ⟨0, -1000⟩]]
      (fun _ => ⟨⟨-1000, 0⟩, ⟨0, -1000⟩⟩) fun _ => ⟨-500, -500⟩
    let a : Coord := ⟨-300, -300⟩
    let b : Coord := ⟨-600, -600⟩
    pathFor none E a b true = some (.ok [⟨-500, -500⟩, b]) ∧
    pathFor none E b a true = some (.ok [b, ⟨-500, -500⟩]) := by decide +kernel

/-- test_shortest_path_computer.cpp:112-151 "ShortestPathComputer shortest paths" -/
example :
    let E := plain [[deg 1 0, deg 0 1, deg (-1) 0, deg 0 (-1)]]
    let a1 : Coord := ⟨-1500000, 500000⟩
    let a2 : Coord := ⟨-1500000, -500000⟩
    let b : Coord := ⟨1500000, 0⟩
    pathFor none E a1 b false = some (.ok [a1, deg 0 1, b]) ∧
    pathFor none E a2 b false = some (.ok [a2, deg 0 (-1), b]) ∧
    pathFor none E (deg 0 0) b false = some (.error .exn) := by decide +kernel

/-- test_shortest_path_computer.cpp:153-171 "ShortestPathComputer shortest path in land" -/
example :
    let E := plain [[deg 1 1, deg 1 (-1), deg (-1) (-1), deg (-1) 1]]
    pathFor none E (deg 0 0) (deg 2 0) false = some (.error .exn) ∧
    pathFor none E (deg 0 0) ⟨500000, 0⟩ false = some (.error .exn) ∧
    pathFor none E (deg (-2) 0) (deg 0 0) false = some (.error .exn) := by decide +kernel

/-- test_shortest_path_computer.cpp:173-195 "ShortestPathComputer shortest path in land correction" -/
example :
    let E := env [[deg 1 1, deg 1 (-1), deg (-1) (-1), deg (-1) 1]]
      (fun _ => ⟨deg (-1) (-1), deg (-1) 1⟩) fun _ => deg (-1) 0
    let b : Coord := ⟨1250000, -100000⟩
    pathFor none E ⟨-750000, 0⟩ b true =
      some (.ok [deg (-1) 0, deg (-1) (-1), deg 1 (-1), b]) := by decide +kernel

/-- test_shortest_path_computer.cpp:197-205 "ShortestPathComputer shortest path without obstacles" -/
example : pathFor none (plain []) (deg 176 0) (deg 1 1) false =
    some (.ok [deg 176 0, deg 1 1]) := by decide +kernel

/-- test_shortest_path_computer.cpp:207-220 "ShortestPathComputer prevent going out of bounds" -/
example :
    let E := plain [[deg 1 0, deg 0 1, deg (-1) 0]]
    pathFor (some (10 ^ 12)) E (deg (-2) 0) (deg 1 1) false = some (.error .exn) := by
  decide +kernel

end Capi.Conformance
