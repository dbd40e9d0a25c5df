import Verif.Model.Segment

/-!
# `Polygon` (code/types/polygon/polygon.cpp) and `ThreeVertexPolyline`

A polygon is the list of its stored vertices.  The default constructor `Polygon()`
(polygon.cpp:12) leaves a null pointer behind; such polygons are not modelled.
-/

namespace Capi

/-- `(*_vertices)[i]` with the cyclic index arithmetic of polygon.cpp:26, 67, 87-90. -/
def ringAt (vs : List Coord) (i : ℕ) : Coord := vs.getD (i % vs.length) default

namespace Polygon

/-- polygon.cpp:20-35 `get_line_segments`. -/
def segments (vs : List Coord) : List Seg :=
  (List.range vs.length).map fun i => ⟨ringAt vs i, ringAt vs (i + 1)⟩

/-- polygon.cpp:92-95: the test deciding whether vertex `b` between `a` and `c` is kept.
`value()` of an empty optional would throw, but the optional is only read for parallel
vectors, where it is never empty. -/
def keeps (a b c : Coord) : Bool :=
  !((b.sub a).parallel (c.sub b)) ||
    match (b.sub a).scalarMultiple (c.sub b) with
    | some k => decide (k < 0)
    | none => false

/-- polygon.cpp:92-95 with overflow checks. -/
def keepsC (a b c : Coord) : Res Bool := do
  let ab ← b.subC a
  let bc ← c.subC b
  let o ← ab.orientC bc
  if o ≠ .collinear then return true
  match ab.scalarMultiple bc with
  | some k => return decide (k < 0)
  | none => .error .exn

/-- polygon.cpp:81-101 `remove_collinear_vertices`.  `(i - 1) % n`, corrected by `+ n` when
negative, is written `(i + n - 1) % n`. -/
def removeCollinear (vs : List Coord) : List Coord :=
  ((List.range vs.length).filter fun i =>
    keeps (ringAt vs (i + vs.length - 1)) (ringAt vs i) (ringAt vs (i + 1))).map (ringAt vs)

/-- polygon.cpp:86-98: the filtering loop with overflow checks, from index list `is`. -/
def removeCollinearLoopC (vs : List Coord) : List ℕ → Res (List Coord)
  | [] => .ok []
  | i :: is => do
    let k ← keepsC (ringAt vs (i + vs.length - 1)) (ringAt vs i) (ringAt vs (i + 1))
    let r ← removeCollinearLoopC vs is
    return if k then ringAt vs i :: r else r

/-- polygon.cpp:81-101 with overflow checks. -/
def removeCollinearC (vs : List Coord) : Res (List Coord) :=
  removeCollinearLoopC vs (List.range vs.length)

/-- An order of evaluating the sum in polygon.cpp:65-70.  `omp simd reduction(+)` lets the
implementation sum partial results (each starting from 0) and combine them in any grouping,
so the grouping is an arbitrary tree whose leaves are the loop iterations. -/
inductive SumTree where
  | zero
  | leaf (i : ℕ)
  | node (l r : SumTree)
  deriving Repr

namespace SumTree

/-- The iterations added up by the tree. -/
def leaves : SumTree → List ℕ
  | zero => []
  | leaf i => [i]
  | node l r => l.leaves ++ r.leaves

/-- Longest chain of additions. -/
def depth : SumTree → ℕ
  | zero => 0
  | leaf _ => 0
  | node l r => max l.depth r.depth + 1

/-- The double computed by adding along the tree, rounding after each addition. -/
def eval (f : ℕ → ℚ) : SumTree → ℚ
  | zero => 0
  | leaf i => f i
  | node l r => fl (l.eval f + r.eval f)

/-- The plain loop `s = 0; for i < n: s += f i`. -/
def sequential : ℕ → SumTree
  | 0 => zero
  | n + 1 => node (sequential n) (leaf n)

end SumTree

/-- polygon.cpp:68-69: the i-th summand, in double degrees. -/
def windingTerm (vs : List Coord) (i : ℕ) : ℚ :=
  fl (fl ((ringAt vs (i + 1)).lonDeg - (ringAt vs i).lonDeg) *
    fl ((ringAt vs (i + 1)).latDeg + (ringAt vs i).latDeg))

/-- polygon.cpp:62-79 `get_orientation_of_vertices`, summing along `T`. -/
def windingOrient (T : SumTree) (vs : List Coord) : Orientation :=
  if T.eval (windingTerm vs) < 0 then .counterClockwise
  else if 0 < T.eval (windingTerm vs) then .clockwise
  else .collinear

/-- polygon.cpp:45-60 `normalize_vertex_orientation_to_counter_clockwise`. -/
def normalizeOrient (T : SumTree) (vs : List Coord) : List Coord :=
  if vs.length ≤ 2 then vs
  else if windingOrient T vs = .clockwise then vs.reverse else vs

/-- polygon.cpp:41-43, 14-16: the constructor; `T n` is the summation order used for `n`
vertices. -/
def mk (T : ℕ → SumTree) (vs : List Coord) : List Coord :=
  normalizeOrient (T (removeCollinear vs).length) (removeCollinear vs)

/-- `T` adds every iteration exactly once, whatever the number of vertices. -/
def PlanOk (T : ℕ → SumTree) : Prop := ∀ n, (T n).leaves.Perm (List.range n)

/-- polygon.cpp:136-142 `std::hash<Polygon>`. -/
def hash (vs : List Coord) : BitVec 64 :=
  vs.foldl (fun seed v => Coord.hashMix seed v.hash) (BitVec.ofNat 64 vs.length)

end Polygon

/-! ### `ThreeVertexPolyline` (code/types/polyline/three_vertex_polyline.cpp) -/

namespace Polyline

/-- constants.hpp:8 `EPSILON_TOLERANCE`, the double nearest to 10⁻⁶. -/
def eps : ℚ := fl (1 / 1000000)

/-- three_vertex_polyline.cpp:39-47 `is_reflex`, in double degrees. -/
def isReflex (v1 v2 v3 : Coord) : Bool :=
  decide (fl (fl ((v2.sub v1).lonDeg * (v3.sub v2).latDeg) -
    fl ((v2.sub v1).latDeg * (v3.sub v2).lonDeg)) < 0)

/-- three_vertex_polyline.cpp:49-51 `inclusive_between(value, -EPS, 1 + EPS)`, which widens
both ends by another `EPS`. -/
def between (x : ℚ) : Bool :=
  decide (fl (-eps - eps) ≤ x) && decide (x ≤ fl (fl (1 + eps) + eps))

/-- `between` of an optional factor; reading an empty optional would throw, which the callers
exclude by testing for collinearity first. -/
def betweenO : Option ℚ → Bool
  | some x => between x
  | none => false

/-- three_vertex_polyline.cpp:11-37 `point_visible`, given the outcome of `is_reflex`. -/
def visibleWith (reflex : Bool) (v1 v2 v3 c : Coord) : Bool :=
  let a := v1.sub v2
  let b := v3.sub v2
  let d := c.sub v2
  let oa := a.orient d
  let ob := b.orient d
  if !reflex then
    !((oa == .clockwise && ob == .counterClockwise) ||
      (oa == .collinear && ob == .counterClockwise && !betweenO (a.scalarMultiple d)) ||
      (oa == .clockwise && ob == .collinear && !betweenO (b.scalarMultiple d)))
  else
    (oa == .counterClockwise && ob == .clockwise) ||
      (oa == .collinear && ob == .clockwise && betweenO (a.scalarMultiple d)) ||
      (oa == .counterClockwise && ob == .collinear && betweenO (b.scalarMultiple d))

/-- three_vertex_polyline.cpp:11-37 `point_visible`. -/
def visible (v1 v2 v3 c : Coord) : Bool := visibleWith (isReflex v1 v2 v3) v1 v2 v3 c

end Polyline

end Capi
