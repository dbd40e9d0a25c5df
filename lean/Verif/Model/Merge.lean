import Verif.Model.Graph

/-!
# `merge_graphs` and graph equality (code/datastructures/graph/graph.cpp)
-/

namespace Capi

namespace Graph

/-- graph.cpp:250-256: the pairs of vertices visited for one input graph. -/
def vertexPairs (g : Graph) : List (Coord × Coord) :=
  g.verts.flatMap fun a => g.verts.map fun b => (a, b)

/-- graph.cpp:250-256: the additions one input graph contributes, in program order. -/
def mergeLoop (g : Graph) : List (Coord × Coord) → Res (List Op)
  | [] => .ok []
  | p :: r => do
    let has ← g.hasEdge p.1 p.2
    if has then
      let m ← g.isCrossing p.1 p.2
      let rest ← g.mergeLoop r
      pure (.add p.1 p.2 m :: rest)
    else g.mergeLoop r

/-- All contributions, input graph by input graph. -/
def mergeOps : List Graph → Res (List Op)
  | [] => .ok []
  | g :: r => do
    let ops ← g.mergeLoop g.vertexPairs
    let rest ← mergeOps r
    pure (ops ++ rest)

/-- graph.cpp:237-260 `merge_graphs`.  `ps` is the iteration order of the
`std::unordered_set<Polygon>` (see `MergeOrder`), `schedule` the order in which the parallel
loop performs the additions; every permutation is allowed (each addition is atomic:
`C23_schedule_independent`). -/
def merge (ps : List (List Coord)) (schedule : List Op → List Op) (gs : List Graph) : Res Graph := do
  let ops ← mergeOps gs
  (ofPolygons ps).run (schedule ops)

/-- graph.cpp:238-243: `ps` lists the different polygons of the inputs once each. -/
def MergeOrder (gs : List Graph) (ps : List (List Coord)) : Prop :=
  ps.Nodup ∧ ∀ p, p ∈ ps ↔ ∃ g ∈ gs, p ∈ g.polygons

/-! ### Equality through the string representation -/

/-- graph.cpp:180-183: the neighbours of one vertex with their crossing flags. -/
def flagLoop (g : Graph) (v : Coord) : List Coord → Res (List (Coord × Bool))
  | [] => .ok []
  | w :: r => do
    let m ← g.isCrossing v w
    let rest ← g.flagLoop v r
    pure ((w, m) :: rest)

/-- graph.cpp:174-185: the lines. -/
def lineLoop (g : Graph) (srt : List Coord → List Coord) :
    List Coord → Res (List (Coord × List (Coord × Bool)))
  | [] => .ok []
  | v :: r => do
    let ns ← g.neighbors v
    let fs ← g.flagLoop v (srt ns)
    let rest ← g.lineLoop srt r
    pure ((v, fs) :: rest)

/-- The data printed by graph.cpp:163-189; `srt` is `std::sort` by hash. -/
def view (g : Graph) (srt : List Coord → List Coord) : Res (List (Coord × List (Coord × Bool))) :=
  g.lineLoop srt (srt g.verts)

/-- `std::sort` with the comparison graph.cpp:166-168: any function that returns a
permutation ordered by hash. -/
def SortOk (srt : List Coord → List Coord) : Prop :=
  ∀ l, (srt l).Perm l ∧ (srt l).Pairwise fun a b => ¬ b.hash < a.hash

/-- `fmt::format("{}", b)` for a `bool`. -/
def fmtBool (b : Bool) : List Char := if b then ['t', 'r', 'u', 'e'] else ['f', 'a', 'l', 's', 'e']

/-- graph.cpp:181-182; `fmtD` formats a double. -/
def renderNeighbor (fmtD : ℚ → List Char) (p : Coord × Bool) : List Char :=
  '(' :: (fmtD p.1.lonDeg ++ ',' :: ' ' :: (fmtD p.1.latDeg ++
    ',' :: (" meridian_span: ".toList ++ (fmtBool p.2 ++ [')', ' ']))))

/-- graph.cpp:175, 180-184. -/
def renderLine (fmtD : ℚ → List Char) (p : Coord × List (Coord × Bool)) : List Char :=
  '\t' :: '[' :: '(' :: (fmtD p.1.lonDeg ++ ',' :: ' ' :: (fmtD p.1.latDeg ++
    ')' :: ' ' :: '[' :: (p.2.flatMap (renderNeighbor fmtD) ++ [']', ']', '\n'])))

/-- graph.cpp:163-189 `to_string_representation`. -/
def repr (fmtD : ℚ → List Char) (srt : List Coord → List Coord) (g : Graph) : Res (List Char) := do
  let ls ← g.view srt
  pure ("Graph (\n".toList ++ (ls.flatMap (renderLine fmtD) ++ [')']))

/-- graph.cpp:191-193 `operator==`. -/
def eq (fmtD : ℚ → List Char) (srt : List Coord → List Coord) (g h : Graph) : Res Bool := do
  let s ← g.repr fmtD srt
  let t ← h.repr fmtD srt
  pure (s == t)

/-- What is assumed of `fmt::format("{}", double)`: it prints no comma, blank or parenthesis and
prints different doubles differently (shortest round-trip output).  Only doubles occurring as
degrees of an `int32` number of microdegrees matter. -/
structure FmtOk (fmtD : ℚ → List Char) : Prop where
  clean : ∀ q, ',' ∉ fmtD q ∧ ')' ∉ fmtD q
  inj : ∀ a b : ℤ, FitsI32 a → FitsI32 b →
    fmtD (Coord.degOfMicro a) = fmtD (Coord.degOfMicro b) →
    Coord.degOfMicro a = Coord.degOfMicro b

/-- Insertion into a hash-ordered list, after equal elements. -/
def hashInsert (c : Coord) : List Coord → List Coord
  | [] => [c]
  | d :: r => if c.hash < d.hash then c :: d :: r else d :: hashInsert c r

/-- Insertion sort by hash; this is what libstdc++'s `std::sort` does for up to 16 elements. -/
def hashSort (l : List Coord) : List Coord := l.foldl (fun acc c => hashInsert c acc) []

end Graph

end Capi
