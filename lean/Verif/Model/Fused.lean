import Verif.Model.Polygon
import Verif.Model.AngleSorter
import Verif.Model.Distance
import Verif.Model.Project
import Verif.Model.Angle64

/-!
# Fused multiply-add

On processors with a fused multiply-add a compiler may evaluate `a * b + c` with a single rounding;
GCC does so by default where the target allows it (ARM, for instance).  These are the expressions of
the code in which a product is added to something, with every such choice as a parameter.  Only
products within one function are affected: `get_longitude` and `get_latitude` are called across
translation units, and the project is built without link-time optimisation (CMakeLists.txt).
-/

namespace Capi

/-- Which of the two products of `a * b ± c * d` is fused into the addition. -/
inductive Contract where
  | none
  | left
  | right
  deriving DecidableEq, Repr

namespace Contract

/-- `a * b + c * d`, for the exact products `x` and `y`. -/
def add : Contract → ℚ → ℚ → ℚ
  | none, x, y => fl (fl x + fl y)
  | left, x, y => fl (x + fl y)
  | right, x, y => fl (fl x + y)

/-- `a * b - c * d`, for the exact products `x` and `y`. -/
def sub : Contract → ℚ → ℚ → ℚ
  | none, x, y => fl (fl x - fl y)
  | left, x, y => fl (x - fl y)
  | right, x, y => fl (fl x - y)

end Contract

/-- coordinate.cpp:98-103 `magnitude_squared`. -/
def Coord.magSqDegFused (m : Contract) (a : Coord) : ℚ :=
  m.add (a.lonDeg * a.lonDeg) (a.latDeg * a.latDeg)

namespace Polygon

/-- polygon.cpp:68-69: the i-th summand; it is not rounded by itself when it is fused into the
addition to the sum. -/
def windingTermFused (fused : ℕ → Bool) (vs : List Coord) (i : ℕ) : ℚ :=
  let x := fl ((ringAt vs (i + 1)).lonDeg - (ringAt vs i).lonDeg) *
    fl ((ringAt vs (i + 1)).latDeg + (ringAt vs i).latDeg)
  if fused i then x else fl x

/-- polygon.cpp:62-79 `get_orientation_of_vertices`. -/
def windingOrientFused (T : SumTree) (fused : ℕ → Bool) (vs : List Coord) : Orientation :=
  if T.eval (windingTermFused fused vs) < 0 then .counterClockwise
  else if 0 < T.eval (windingTermFused fused vs) then .clockwise
  else .collinear

/-- polygon.cpp:45-60 `normalize_vertex_orientation_to_counter_clockwise`. -/
def normalizeOrientFused (T : SumTree) (fused : ℕ → Bool) (vs : List Coord) : List Coord :=
  if vs.length ≤ 2 then vs
  else if windingOrientFused T fused vs = .clockwise then vs.reverse else vs

/-- polygon.cpp:41-43, 14-16: the constructor. -/
def mkFused (T : ℕ → SumTree) (fused : ℕ → Bool) (vs : List Coord) : List Coord :=
  normalizeOrientFused (T (removeCollinear vs).length) fused (removeCollinear vs)

end Polygon

namespace Polyline

/-- three_vertex_polyline.cpp:39-47 `is_reflex`. -/
def isReflexFused (m : Contract) (v1 v2 v3 : Coord) : Bool :=
  decide (m.sub ((v2.sub v1).lonDeg * (v3.sub v2).latDeg)
    ((v2.sub v1).latDeg * (v3.sub v2).lonDeg) < 0)

/-- three_vertex_polyline.cpp:11-37 `point_visible`. -/
def visibleFused (m : Contract) (v1 v2 v3 c : Coord) : Bool :=
  visibleWith (isReflexFused m v1 v2 v3) v1 v2 v3 c

end Polyline

/-- angle_sorter.cpp:15-34: the comparison lambda. -/
def AngleSorter.lessFused (m : Contract) (lt : Coord → Coord → Bool) (obs c1 c2 : Coord) : Bool :=
  if c1 = obs then true
  else if c2 = obs then false
  else
    let v1 := c1.sub obs
    let v2 := c2.sub obs
    if v1.orient v2 ≠ .collinear ∨ v1.dot v2 < 0 then lt v1 v2
    else decide (v1.magSqDegFused m < v2.magSqDegFused m)

open Classical in
/-- angle_sorter.cpp:9-37 `sort_counter_clockwise_around_observer`: the outcomes it can have. -/
def AngleSorter.SortsToFused (k : Contract) (atan2 : ℚ → ℚ → ℚ) (obs : Coord) (vs : List Coord)
    (r : Res (List Coord)) : Prop :=
  let lt := lessFused k (fun u v => decide (horizontal atan2 u < horizontal atan2 v)) obs
  if (∀ a ∈ vs, ∀ b ∈ vs, ∃ x, Vistree.lessC obs a b = .ok x) ∧ WeakOrder lt vs then
    ∃ l, r = .ok l ∧ l.Perm vs ∧ l.Pairwise fun a b => lt b a = false
  else r = .error .ub

namespace Vistree

/-- three_vertex_polyline.cpp:11-37 with checks. -/
def cornerFusedC (k : Contract) (v1 v2 v3 c : Coord) : Res Bool := do
  let a ← v1.subC v2
  let b ← v3.subC v2
  let d ← c.subC v2
  let oa ← a.orientC d
  let ob ← b.orientC d
  let _ ← v2.subC v1
  let _ ← v3.subC v2
  if oa = .collinear ∧ a.scalarMultiple d = none then .error .exn
  if ob = .collinear ∧ b.scalarMultiple d = none then .error .exn
  return Polyline.visibleFused k v1 v2 v3 c

/-- vistree_generator.cpp:193-214 with checks. -/
def barrierFusedC (k : Contract) (m : VisMap) (obs v : Coord) : Res Bool :=
  match Assoc.get m obs with
  | some (s0 :: s1 :: _) => cornerFusedC k s0.p s1.p s1.q v
  | some _ => .error .ub
  | none => .ok true

/-- vistree_generator.cpp:188-226 with checks. -/
def isVisibleFusedC (k : Contract) (m : VisMap) (o : OpenEdges) (obs v : Coord) : Res Bool := do
  if v = obs then return false
  let b ← barrierFusedC k m obs v
  if !b then return false
  match o.closest with
  | none => return true
  | some e =>
    match ← e.intersectC ⟨obs, v⟩ with
    | some x => return x == v
    | none => return true

/-- vistree_generator.cpp:74-102 with checks. -/
def loopFusedC (k : Contract) (look : Seg → Seg → Bool) (m : VisMap) (obs : Coord) (half : Bool) :
    List Coord → OpenEdges → Res (List (Coord × Bool))
  | [], _ => .ok []
  | v :: r, o =>
    if obs = v then loopFusedC k look m obs half r o
    else do
      if ← beyondC obs half v then return []
      match Assoc.get m v with
      | none => .error .exn
      | some inc =>
        let cw ← orientSegsC inc obs v .clockwise
        let ccw ← orientSegsC inc obs v .counterClockwise
        let o1 := cw.foldl (fun o s => o.remove look s) o
        let b ← isVisibleFusedC k m o1 obs v
        let seen ← seenC b v
        let o2 ← openAtC look obs v ccw o1
        let rest ← loopFusedC k look m obs half r o2
        return seen ++ rest

/-- vistree_generator.cpp:47-105: the outcomes a scan can have; `k` is how `magnitude_squared` is
fused and `k'` how `is_reflex` is. -/
def ScanFused (k k' : Contract) (atan2 : ℚ → ℚ → ℚ) (look : Seg → Seg → Bool) (m : VisMap)
    (obs : Coord) (verts : List Coord) (segs : List Seg) (half : Bool)
    (r : Res (List (Coord × Bool))) : Prop :=
  if m.isEmpty then r = .ok []
  else ∃ sorted, AngleSorter.SortsToFused k atan2 obs verts sorted ∧ r = (do
    let vs ← sorted
    let _ ← (initialScanline obs).tangentC
    let o ← segs.foldlM (openInitialC look obs) .empty
    loopFusedC k' look m obs half vs o)

end Vistree

/-- What the half scans of the generation can return. -/
def Visgraph.IsScannerFused (k k' : Contract) (atan2 : ℚ → ℚ → ℚ) (T : ℕ → Polygon.SumTree)
    (ps : List (List Coord)) (scanner : Coord → Res (List (Coord × Bool))) : Prop :=
  ∀ obs, ∃ m segs look, m.Perm (Vistree.ofPolygons (polygonsPeriodic T ps)) ∧
    segs.Perm (Vistree.segments m) ∧ LookOk look ∧
    Vistree.ScanFused k k' atan2 look m obs (Vistree.vertices m) segs true (scanner obs)

/-- What the full scans of a query can return. -/
def ShortestPath.IsReachFused (k k' : Contract) (atan2 : ℚ → ℚ → ℚ) (ps : List (List Coord))
    (reach : Coord → Res (List (Coord × Bool))) : Prop :=
  ∀ obs, ∃ m segs look, m.Perm (Vistree.ofPolygons ps) ∧
    segs.Perm (Vistree.segments m) ∧ LookOk look ∧
    Vistree.ScanFused k k' atan2 look m obs (Vistree.vertices m) segs false (reach obs)

/-- coordinate.cpp:98-103, 112 for `mag`, shortest_path_computer.cpp:53-56, 80-82 for the rest;
`fw` tells whether the weighting is fused.  Both sides of the comparison of the queue are the same
expression and are fused alike. -/
def ShortestPath.fusedArith (sq : ℚ → Dbl) (m : Contract) (fw : Bool) (w : Dbl)
    (limit : Option Dbl) : Arith Dbl where
  mag c := sq (c.magSqDegFused m)
  add x y := Dbl.round (x.1 + y.1)
  zero := Dbl.round 0
  weigh d h :=
    if fw then Dbl.round (d.1 + h.1 * w.1) else Dbl.round (d.1 + (Dbl.round (h.1 * w.1)).1)
  over := exceeds limit

/-- line_segment.cpp:107-125 `project`. -/
def projectFusedC (sq : ℚ → ℚ) (m : Contract) (near point : Coord) (margin : ℚ) : Res Coord :=
  projectLenC (fun d => sq (d.magSqDegFused m)) near point margin

end Capi
