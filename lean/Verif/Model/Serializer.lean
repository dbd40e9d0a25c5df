import Verif.Model.Graph
import Verif.Model.Polygon

/-!
# `GraphSerializer` (code/serialization/graph_serializer.cpp)

The mapped file is a list of bytes; touching a byte outside it is undefined behaviour
(`mio`'s `operator[]` does not check).  Saving is a list of single-byte stores in program
order, so that a crash between two stores can be described.

Simplifications.  Offsets and sizes are natural numbers instead of `size_t`: they are bounded
by the file size for files the program writes.  Allocation failures (`std::bad_alloc` for the
vectors of lines 81, 111, 152, 159, 182) are not modelled, nor are failing system calls here, except
that an empty file cannot be mapped; they are in `Model/Os`.  Loading reads the file and adds the edges in one loop
(lines 195-211); here the additions are first listed and then performed.
-/

namespace Capi

namespace Serial

/-- One byte. -/
abbrev Byte := BitVec 8
/-- Contents of the mapped file. -/
abbrev Buf := List Byte
/-- Store of one byte at an offset. -/
abbrev Write := ℕ × Byte

/-- graph_serializer.cpp:17 `CEIL_DIV`. -/
def ceilDiv (x y : ℕ) : ℕ := x / y + if x % y ≠ 0 then 1 else 0

/-- graph_serializer.cpp:267: `mmap[offset] = val`. -/
def applyWrite (b : Buf) (w : Write) : Res Buf :=
  if w.1 < b.length then .ok (b.set w.1 w.2) else .error .ub

/-- A sequence of stores. -/
def applyWrites (b : Buf) : List Write → Res Buf
  | [] => .ok b
  | w :: r => do
    let b1 ← applyWrite b w
    applyWrites b1 r

/-- graph_serializer.cpp:247-252. -/
def put64 (v : BitVec 64) (off : ℕ) : List Write :=
  (List.range 8).map fun k => (off + k, ((v >>> (k * 8)) &&& 0xFF#64).setWidth 8)

/-- graph_serializer.cpp:254-259. -/
def put32 (v : BitVec 32) (off : ℕ) : List Write :=
  (List.range 4).map fun k => (off + k, ((v >>> (k * 8)) &&& 0xFF#32).setWidth 8)

/-- graph_serializer.cpp:261-265: the two's complement bits are copied. -/
def putI32 (v : ℤ) (off : ℕ) : List Write := put32 (BitVec.ofInt 32 v) off

/-- graph_serializer.cpp:296. -/
def getByte (b : Buf) (off : ℕ) : Res Byte :=
  match b[off]? with
  | some x => .ok x
  | none => .error .ub

/-- graph_serializer.cpp:271-274: the reading loop over byte numbers `ks`. -/
def get64Loop (b : Buf) (off : ℕ) (acc : BitVec 64) : List ℕ → Res (BitVec 64)
  | [] => .ok acc
  | k :: ks => do
    let x ← getByte b (off + k)
    get64Loop b off (acc ||| (x.setWidth 64 <<< (k * 8))) ks

/-- graph_serializer.cpp:269-276. -/
def get64 (b : Buf) (off : ℕ) : Res (BitVec 64) := get64Loop b off 0 (List.range 8)

/-- graph_serializer.cpp:280-283. -/
def get32Loop (b : Buf) (off : ℕ) (acc : BitVec 32) : List ℕ → Res (BitVec 32)
  | [] => .ok acc
  | k :: ks => do
    let x ← getByte b (off + k)
    get32Loop b off (acc ||| (x.setWidth 32 <<< (k * 8))) ks

/-- graph_serializer.cpp:278-285. -/
def get32 (b : Buf) (off : ℕ) : Res (BitVec 32) := get32Loop b off 0 (List.range 4)

/-- graph_serializer.cpp:287-294. -/
def getI32 (b : Buf) (off : ℕ) : Res ℤ := do
  let v ← get32 b off
  pure v.toInt

/-- A loop collecting a list from each element. -/
def collect {α β : Type} (f : α → Res (List β)) : List α → Res (List β)
  | [] => .ok []
  | a :: r => do
    let x ← f a
    let y ← collect f r
    pure (x ++ y)

/-- A loop adding up a number for each element. -/
def total {α : Type} (f : α → Res ℕ) : List α → Res ℕ
  | [] => .ok 0
  | a :: r => do
    let x ← f a
    let y ← total f r
    pure (x + y)

/-! ### Saving -/

/-- graph_serializer.cpp:94-100. -/
def putVertices (off : ℕ) : List Coord → List Write
  | [] => []
  | c :: r => putI32 c.lon off ++ putI32 c.lat (off + 4) ++ putVertices (off + 8) r

/-- graph_serializer.cpp:77-104 `serialize_polygon_vertices_to_mmap`: the stores. -/
def putPolygons (off : ℕ) : List (List Coord) → List Write
  | [] => []
  | p :: r => put64 (BitVec.ofNat 64 p.length) off ++ putVertices (off + 8) p ++
      putPolygons (off + 8 + p.length * 4 * 2) r

/-- graph_serializer.cpp:81-86, 103: the returned offset. -/
def polygonsEnd (off : ℕ) : List (List Coord) → ℕ
  | [] => off
  | p :: r => polygonsEnd (off + 8 + p.length * 4 * 2) r

/-- graph_serializer.cpp:111-115, 182-186 `adjacency_matrix_byte_offsets[i]`. -/
def rowOff (off : ℕ) : ℕ → ℕ
  | 0 => off
  | i + 1 => rowOff off i + ceilDiv i 8

/-- `vertices[i]`. -/
def vertexAt (g : Graph) (i : ℕ) : Res Coord :=
  match g.verts[i]? with
  | some v => .ok v
  | none => .error .ub

/-- graph_serializer.cpp:121-127: the bits of one byte, `l` ranging over `ls`. -/
def encodeByte (g : Graph) (i j : ℕ) (acc : Byte) : List ℕ → Res Byte
  | [] => .ok acc
  | l :: ls => do
    let v1 ← vertexAt g i
    let v2 ← vertexAt g l
    let h ← g.hasEdge v1 v2
    encodeByte g i j (acc ||| ((if h then 1#8 else 0#8) <<< (l - j * 8))) ls

/-- graph_serializer.cpp:117-131: the stores of the adjacency bits. -/
def putRows (g : Graph) (off : ℕ) : Res (List Write) :=
  collect (fun i =>
    collect (fun j => do
      let x ← encodeByte g i j 0 (List.range' (j * 8) (min ((j + 1) * 8) (i + 1) - j * 8))
      pure [(rowOff off i + j, x)]) (List.range (ceilDiv i 8))) (List.range g.verts.length)

/-- graph_serializer.cpp:138, 204 the number of an edge. -/
def edgeNumber (i j : ℕ) : ℕ := j + (i * i + i) / 2

/-- graph_serializer.cpp:136-145: the numbers of the crossing edges, in order. -/
def crossingNumbers (g : Graph) : Res (List ℕ) :=
  collect (fun i =>
    collect (fun j => do
      let v1 ← vertexAt g i
      let v2 ← vertexAt g j
      let m ← g.isCrossing v1 v2
      pure (if m then [edgeNumber i j] else [])) (List.range i)) (List.range g.verts.length)

/-- graph_serializer.cpp:133-145: the stores of the edge numbers; `k` is the counter. -/
def putNumbers (back : ℕ) (k : ℕ) : List ℕ → List Write
  | [] => []
  | e :: r => put64 (BitVec.ofNat 64 e) ((k + 1) * 8 + back) ++ putNumbers back (k + 1) r

/-- graph_serializer.cpp:236-245. -/
def countCrossing (g : Graph) : Res ℕ :=
  total (fun a => total (fun b => do
    let m ← g.isCrossing a b
    pure (if m then 1 else 0)) g.verts) g.verts

/-- graph_serializer.cpp:220-226. -/
def matrixBytes (n : ℕ) : ℕ :=
  8 * (((n / 8) * (n / 8) + n / 8) / 2) + (n - 8 * (n / 8)) * ceilDiv n 8

/-- graph_serializer.cpp:216-234. -/
def fileSize (g : Graph) (crossing : ℕ) : ℕ :=
  8 + 8 * g.polygons.length + 4 * 2 * g.verts.length + matrixBytes g.verts.length +
    8 * (crossing + 1)

/-- graph_serializer.cpp:298-318 `allocate_file`: `ftruncate` keeps the old contents up to the
new size and fills up with zeros. -/
def allocate (old : Buf) (n : ℕ) : Buf := old.take n ++ List.replicate (n - old.length) 0

/-- graph_serializer.cpp:45-49: all stores, in program order. -/
def stores (g : Graph) (crossing : ℕ) : Res (List Write) := do
  let off := polygonsEnd 8 g.polygons
  let back := rowOff off g.verts.length
  let rows ← putRows g off
  let es ← crossingNumbers g
  pure (put64 (BitVec.ofNat 64 g.polygons.length) 0 ++ putPolygons 8 g.polygons ++ rows ++
    put64 (BitVec.ofNat 64 crossing) back ++ putNumbers back 0 es)

/-- graph_serializer.cpp:32-57 `serialize_to_file`, over the previous contents `old`
(`[]` for a new file). -/
def save (g : Graph) (old : Buf) : Res Buf := do
  let k ← countCrossing g
  let ws ← stores g k
  applyWrites (allocate old (fileSize g k)) ws

/-- The file left behind when the process dies after `n` of the byte stores.  (Stores to a
shared mapping survive the process; losing power is not modelled.) -/
def crashedSave (g : Graph) (old : Buf) (n : ℕ) : Res Buf := do
  let k ← countCrossing g
  let ws ← stores g k
  applyWrites (allocate old (fileSize g k)) (ws.take n)

/-! ### Loading -/

/-- polygon.cpp:41-43, 14-16: `Polygon(vertices)` with overflow checks. -/
def polygonC (T : ℕ → Polygon.SumTree) (vs : List Coord) : Res (List Coord) := do
  let r ← Polygon.removeCollinearC vs
  pure (Polygon.normalizeOrient (T r.length) r)

/-- graph_serializer.cpp:159-166, for the remaining number of vertices. -/
def loadVertices (b : Buf) (off : ℕ) : ℕ → Res (List Coord)
  | 0 => .ok []
  | n + 1 => do
    let lon ← getI32 b off
    let lat ← getI32 b (off + 4)
    let rest ← loadVertices b (off + 8) n
    pure (⟨lon, lat⟩ :: rest)

/-- graph_serializer.cpp:150-176 `deserialize_polygon_vertices_from_mmap`, for the remaining
number of polygons: the polygons and the final offset. -/
def loadPolygons (T : ℕ → Polygon.SumTree) (b : Buf) (off : ℕ) : ℕ → Res (List (List Coord) × ℕ)
  | 0 => .ok ([], off)
  | n + 1 => do
    let nv ← get64 b off
    let vs ← loadVertices b (off + 8) nv.toNat
    let p ← polygonC T vs
    let rest ← loadPolygons T b (off + 8 + nv.toNat * 2 * 4) n
    pure (p :: rest.1, rest.2)

/-- graph_serializer.cpp:188-193. -/
def loadNumbers (b : Buf) (back : ℕ) (count : ℕ) : Res (List (BitVec 64)) :=
  collect (fun i => do
    let v ← get64 b (back + (i + 1) * 8)
    pure [v]) (List.range count)

/-- graph_serializer.cpp:200-209: the additions one byte stands for. -/
def decodeByte (g : Graph) (ns : List (BitVec 64)) (i j : ℕ) (x : Byte) : Res (List Graph.Op) :=
  collect (fun l =>
    if (x >>> l) &&& 0x1#8 ≠ 0 then do
      let v1 ← vertexAt g i
      let v2 ← vertexAt g (j * 8 + l)
      pure [.add v1 v2 (ns.contains (BitVec.ofNat 64 (edgeNumber i (j * 8 + l))))]
    else pure []) (List.range (min 8 (g.verts.length - j * 8)))

/-- graph_serializer.cpp:195-211: the additions. -/
def loadOps (b : Buf) (g : Graph) (ns : List (BitVec 64)) (off : ℕ) : Res (List Graph.Op) :=
  collect (fun i =>
    collect (fun j => do
      let x ← getByte b (rowOff off i + j)
      decodeByte g ns i j x) (List.range (ceilDiv i 8))) (List.range g.verts.length)

/-- graph_serializer.cpp:178-214 `deserialize_adjacency_matrix_from_mmap`. -/
def loadMatrix (b : Buf) (g : Graph) (off : ℕ) : Res Graph := do
  let back := rowOff off g.verts.length
  let count ← get64 b back
  let ns ← loadNumbers b back count.toNat
  let ops ← loadOps b g ns off
  g.run ops

/-- graph_serializer.cpp:59-75 `deserialize_from_file`; mapping an empty file fails. -/
def load (T : ℕ → Polygon.SumTree) (b : Buf) : Res Graph :=
  if b = [] then .error .exn
  else do
    let np ← get64 b 0
    let ps ← loadPolygons T b 8 np.toNat
    loadMatrix b (Graph.ofPolygons ps.1) ps.2

end Serial

end Capi
