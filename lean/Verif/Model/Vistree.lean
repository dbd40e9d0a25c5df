import Verif.Model.AngleSorter
import Verif.Model.Assoc
import Verif.Model.OpenEdges
import Verif.Model.Periodicity
import Verif.Model.Polygon

/-!
# `VistreeGenerator` (code/visgraph/vistree_generator.cpp)

The map from vertices to incident segments is a list of pairs with different keys; its order is
the iteration order of the `std::unordered_map`, about which nothing is assumed.  The order of
`all_line_segments` depends on memory addresses (it goes through an `unordered_set` of pointers)
and is arbitrary too.  Every function comes in a plain form and in a form with suffix `C` that
reports overflow, exceptions and accesses outside containers; `C37_safe` proves them equal.
-/

namespace Capi

/-- `_vertices_and_segments` -/
abbrev VisMap := List (Coord × List Seg)

namespace Vistree

/-- vistree_generator.cpp:116-130: one polygon; the entries of its vertices are overwritten. -/
def addPolygon (m : VisMap) (vs : List Coord) : VisMap :=
  (List.range vs.length).foldl (fun m i =>
    Assoc.set m (ringAt vs i)
      [⟨ringAt vs (i + vs.length - 1), ringAt vs i⟩, ⟨ringAt vs i, ringAt vs (i + 1)⟩]) m

/-- vistree_generator.cpp:14-15, 107-134: constructor from polygons. -/
def ofPolygons (ps : List (List Coord)) : VisMap := ps.foldl addPolygon []

/-- vistree_generator.cpp:17-33: constructor from segments. -/
def ofSegments (ss : List Seg) : VisMap :=
  ss.foldl (fun m s =>
    let m1 := match Assoc.get m s.p with
      | none => Assoc.set m s.p []
      | some _ => m
    let m2 := match Assoc.get m1 s.q with
      | none => Assoc.set m1 s.q []
      | some _ => m1
    let m3 := Assoc.set m2 s.p ((Assoc.get m2 s.p).getD [] ++ [s])
    Assoc.set m3 s.q ((Assoc.get m3 s.q).getD [] ++ [s])) []

/-- vistree_generator.cpp:58-59 -/
def initialScanline (obs : Coord) : Seg := ⟨obs, ⟨maxPeriodicLon, obs.lat⟩⟩

/-- vistree_generator.cpp:62-70: the body of the loop over the candidate segments. -/
def openInitial (look : Seg → Seg → Bool) (obs : Coord) (o : OpenEdges) (s : Seg) : OpenEdges :=
  if obs = s.p ∨ obs = s.q then o
  else match s.intersect (initialScanline obs) with
    | some x =>
      if !(initialScanline obs).onSegment s.p && !(initialScanline obs).onSegment s.q then
        o.add look (x.sub obs).magSq s
      else o
    | none => o

/-- line_segment.cpp:15-23 where one of the endpoints is `v`. -/
def other (s : Seg) (v : Coord) : Coord := if v = s.p then s.q else s.p

/-- vistree_generator.cpp:172-186 `orientation_segments`. -/
def orientSegs (inc : List Seg) (obs v : Coord) (o : Orientation) : List Seg :=
  inc.filter fun s => (Seg.mk obs v).orientPt (other s v) == o

/-- vistree_generator.cpp:193-214: the artificial wall at the observer's own corner. -/
def barrier (m : VisMap) (obs v : Coord) : Bool :=
  match Assoc.get m obs with
  | some (s0 :: s1 :: _) => Polyline.visible s0.p s1.p s1.q v
  | _ => true

/-- vistree_generator.cpp:216-223: the closest open edge. -/
def unblocked (o : OpenEdges) (obs v : Coord) : Bool :=
  match o.closest with
  | none => true
  | some e =>
    match e.intersect ⟨obs, v⟩ with
    | some x => x == v
    | none => true

/-- vistree_generator.cpp:188-226 `is_vertex_visible`. -/
def isVisible (m : VisMap) (o : OpenEdges) (obs v : Coord) : Bool :=
  v != obs && barrier m obs v && unblocked o obs v

/-- vistree_generator.cpp:239-240: the key under which a segment starting at `v` is stored. -/
def openDist (obs v : Coord) (s : Seg) : ℤ :=
  match s.intersect ⟨obs, v⟩ with
  | some x => (x.sub obs).magSq
  | none => 0

/-- The segments incident to `v`. -/
def incident (m : VisMap) (v : Coord) : List Seg := (Assoc.get m v).getD []

/-- vistree_generator.cpp:91: the open edges when `v` is judged. -/
def closeAt (look : Seg → Seg → Bool) (m : VisMap) (obs v : Coord) (o : OpenEdges) : OpenEdges :=
  (orientSegs (incident m v) obs v .clockwise).foldl (fun o s => o.remove look s) o

/-- vistree_generator.cpp:101: the open edges after `v`. -/
def openAt (look : Seg → Seg → Bool) (m : VisMap) (obs v : Coord) (o : OpenEdges) : OpenEdges :=
  (orientSegs (incident m v) obs v .counterClockwise).foldl
    (fun o s => o.add look (openDist obs v s) s) o

/-- vistree_generator.cpp:80-83: below the initial scanline. -/
def below (obs v : Coord) : Bool := decide ((initialScanline obs).tangent.cross (v.sub obs) < 0)

/-- vistree_generator.cpp:74-102: the loop over the sorted vertices, giving the vertices judged
visible. -/
def loop (look : Seg → Seg → Bool) (m : VisMap) (obs : Coord) (half : Bool) :
    List Coord → OpenEdges → List Coord
  | [], _ => []
  | v :: r, o =>
    if obs = v then loop look m obs half r o
    else if half && below obs v then []
    else
      let o1 := closeAt look m obs v o
      let o2 := openAt look m obs v o1
      if isVisible m o1 obs v then v :: loop look m obs half r o2 else loop look m obs half r o2

/-- vistree_generator.cpp:57-71: the open edges at the start. -/
def initialOpen (look : Seg → Seg → Bool) (obs : Coord) (segs : List Seg) : OpenEdges :=
  segs.foldl (openInitial look obs) .empty

/-- vistree_generator.cpp:47-105: the vertices judged visible, before normalisation. -/
def scanRaw (look : Seg → Seg → Bool) (m : VisMap) (obs : Coord) (verts : List Coord)
    (segs : List Seg) (half : Bool) : List Coord :=
  if m.isEmpty then []
  else loop look m obs half (AngleSorter.sort obs verts) (initialOpen look obs segs)

/-- vistree_generator.cpp:95-98: `VisibleVertex`. -/
def report (v : Coord) : Coord × Bool := (normalize v, overMeridian v)

/-- vistree_generator.cpp:47-105. -/
def scan (look : Seg → Seg → Bool) (m : VisMap) (obs : Coord) (verts : List Coord)
    (segs : List Seg) (half : Bool) : List (Coord × Bool) :=
  (scanRaw look m obs verts segs half).map report

/-- vistree_generator.cpp:149-158 `all_vertices`. -/
def vertices (m : VisMap) : List Coord := m.map Prod.fst

/-- vistree_generator.cpp:136-147 `all_line_segments`, up to order, for a map built from
polygons, where every stored pointer is different. -/
def segments (m : VisMap) : List Seg := m.flatMap Prod.snd

/-- vistree_generator.cpp:35-38 `get_visible_vertices`; `segs` is `segments m` in some order. -/
def visible (look : Seg → Seg → Bool) (m : VisMap) (segs : List Seg) (obs : Coord)
    (half : Bool) : List (Coord × Bool) :=
  scan look m obs (vertices m) segs half

/-- vistree_generator.cpp:160-170 `all_vertices_for_line_segments`; the order is that of an
`unordered_set` and arbitrary. -/
def segVertices (ss : List Seg) : List Coord := (ss.flatMap fun s => [s.p, s.q]).dedup

/-! ### Forms with all checks -/

/-- angle_sorter.cpp:15-34: the comparison with overflow checks. -/
def lessC (obs a b : Coord) : Res Bool :=
  if a = obs then .ok true
  else if b = obs then .ok false
  else do
    let v1 ← a.subC obs
    let v2 ← b.subC obs
    let d ← v1.dotC v2
    let o ← v1.orientC v2
    if o ≠ .collinear ∨ d < 0 then return AngleSorter.angleLt v1 v2
    else return decide (v1.magSqDeg < v2.magSqDeg)

/-- `std::sort` may compare any two elements; it is defined if all comparisons are and no two
elements precede each other. -/
def sortC (obs : Coord) (vs : List Coord) : Res (List Coord) :=
  if ∀ a ∈ vs, ∀ b ∈ vs, ∃ r, lessC obs a b = .ok r then
    if vs.Pairwise fun a b => ¬ (AngleSorter.less obs a b = true ∧ AngleSorter.less obs b a = true)
      then .ok (AngleSorter.sort obs vs) else .error .ub
  else .error .ub

instance (x : Res Bool) : Decidable (∃ r, x = .ok r) :=
  match x with
  | .ok r => .isTrue ⟨r, rfl⟩
  | .error _ => .isFalse (by simp)

/-- vistree_generator.cpp:62-70 with checks. -/
def openInitialC (look : Seg → Seg → Bool) (obs : Coord) (o : OpenEdges) (s : Seg) :
    Res OpenEdges :=
  if obs = s.p ∨ obs = s.q then .ok o
  else do
    match ← s.intersectC (initialScanline obs) with
    | some x =>
      let b1 ← (initialScanline obs).onSegmentC s.p
      let b2 ← (initialScanline obs).onSegmentC s.q
      if !b1 && !b2 then
        let d ← x.subC obs
        let k ← d.magSqC
        return o.add look k s
      else return o
    | none => return o

/-- vistree_generator.cpp:172-186 with checks. -/
def orientSegsC (inc : List Seg) (obs v : Coord) (o : Orientation) : Res (List Seg) :=
  match inc with
  | [] => .ok []
  | s :: r => do
    let a ← s.adjacentTo v
    let k ← (Seg.mk obs v).orientPtC a
    let rest ← orientSegsC r obs v o
    return if k == o then s :: rest else rest

/-- three_vertex_polyline.cpp:11-37 with checks; the factors are read only when present. -/
def cornerC (v1 v2 v3 c : Coord) : Res Bool := do
  let a ← v1.subC v2
  let b ← v3.subC v2
  let d ← c.subC v2
  let oa ← a.orientC d
  let ob ← b.orientC d
  let _ ← v2.subC v1
  let _ ← v3.subC v2
  if oa = .collinear ∧ a.scalarMultiple d = none then .error .exn
  if ob = .collinear ∧ b.scalarMultiple d = none then .error .exn
  return Polyline.visible v1 v2 v3 c

/-- vistree_generator.cpp:193-214 with checks: `at(0)` and `at(1)` of the incident segments. -/
def barrierC (m : VisMap) (obs v : Coord) : Res Bool :=
  match Assoc.get m obs with
  | some (s0 :: s1 :: _) => cornerC s0.p s1.p s1.q v
  | some _ => .error .ub
  | none => .ok true

/-- vistree_generator.cpp:188-226 with checks. -/
def isVisibleC (m : VisMap) (o : OpenEdges) (obs v : Coord) : Res Bool := do
  if v = obs then return false
  let b ← barrierC m obs v
  if !b then return false
  match o.closest with
  | none => return true
  | some e =>
    match ← e.intersectC ⟨obs, v⟩ with
    | some x => return x == v
    | none => return true

/-- vistree_generator.cpp:235-244 with checks. -/
def openAtC (look : Seg → Seg → Bool) (obs v : Coord) : List Seg → OpenEdges → Res OpenEdges
  | [], o => .ok o
  | s :: r, o => do
    match ← s.intersectC ⟨obs, v⟩ with
    | none => .error .exn
    | some x =>
      let d ← x.subC obs
      let k ← d.magSqC
      openAtC look obs v r (o.add look k s)

/-- vistree_generator.cpp:79-83: whether a half scan ends before this vertex, with checks.  The
vector of the scanline is computed at line 60 already, see `scanC`. -/
def beyondC (obs : Coord) (half : Bool) (v : Coord) : Res Bool :=
  if half then do
    let t0 ← (initialScanline obs).tangentC
    let t1 ← (Seg.mk obs v).tangentC
    let c ← t0.crossC t1
    return decide (c < 0)
  else .ok false

/-- vistree_generator.cpp:94-99: what is reported of a vertex, with checks. -/
def seenC (b : Bool) (v : Coord) : Res (List (Coord × Bool)) :=
  if b then do
    let w ← normalizeC v
    return [(w, overMeridian v)]
  else .ok []

/-- vistree_generator.cpp:74-102 with checks. -/
def loopC (look : Seg → Seg → Bool) (m : VisMap) (obs : Coord) (half : Bool) :
    List Coord → OpenEdges → Res (List (Coord × Bool))
  | [], _ => .ok []
  | v :: r, o =>
    if obs = v then loopC look m obs half r o
    else do
      if ← beyondC obs half v then return []
      match Assoc.get m v with
      | none => .error .exn
      | some inc =>
        let cw ← orientSegsC inc obs v .clockwise
        let ccw ← orientSegsC inc obs v .counterClockwise
        let o1 := cw.foldl (fun o s => o.remove look s) o
        let b ← isVisibleC m o1 obs v
        let seen ← seenC b v
        let o2 ← openAtC look obs v ccw o1
        let rest ← loopC look m obs half r o2
        return seen ++ rest

/-- vistree_generator.cpp:47-105 with checks. -/
def scanC (look : Seg → Seg → Bool) (m : VisMap) (obs : Coord) (verts : List Coord)
    (segs : List Seg) (half : Bool) : Res (List (Coord × Bool)) :=
  if m.isEmpty then .ok []
  else do
    let vs ← sortC obs verts
    let _ ← (initialScanline obs).tangentC
    let o ← segs.foldlM (openInitialC look obs) .empty
    loopC look m obs half vs o

/-- vistree_generator.cpp:40-45 `get_visible_vertices_from_candidate_segments` with checks. -/
def candidatesC (look : Seg → Seg → Bool) (m : VisMap) (obs : Coord) (segs : List Seg)
    (half : Bool) : Res (List (Coord × Bool)) :=
  scanC look m obs (segVertices segs) segs half

end Vistree

end Capi
