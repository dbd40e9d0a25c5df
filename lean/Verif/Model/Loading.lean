import Verif.Model.Serializer

/-!
# Loading with limited memory

`Serial.load` takes it that vectors of any size can be allocated.  Here every allocation whose size
depends on the file may fail, which raises `std::length_error` or `std::bad_alloc`.  The size of the
maps and of the set of numbers is not limited.  Fewer than `2 ^ 32` vertices are meant (see Graph).
-/

namespace Capi

namespace Serial

/-- Which allocations succeed, by the number of elements. -/
structure Memory where
  /-- graph_serializer.cpp:152 -/
  polygons : ℕ → Bool
  /-- graph_serializer.cpp:159 -/
  vertices : ℕ → Bool
  /-- graph.cpp:20-36, graph_serializer.cpp:182, by the number of vertices -/
  graph : ℕ → Bool

/-- Enough for everything. -/
def Memory.unlimited : Memory := ⟨fun _ => true, fun _ => true, fun _ => true⟩

/-- An allocation. -/
def ensure (b : Bool) : Res Unit := if b then .ok () else .error .exn

/-- graph_serializer.cpp:154-171: the remaining polygons. -/
def loadPolygonsM (M : Memory) (T : ℕ → Polygon.SumTree) (b : Buf) (off : ℕ) :
    ℕ → Res (List (List Coord) × ℕ)
  | 0 => .ok ([], off)
  | n + 1 => do
    let nv ← get64 b off
    ensure (M.vertices nv.toNat)
    let vs ← loadVertices b (off + 8) nv.toNat
    let p ← polygonC T vs
    let rest ← loadPolygonsM M T b (off + 8 + nv.toNat * 2 * 4) n
    pure (p :: rest.1, rest.2)

/-- graph_serializer.cpp:58-75 `deserialize_from_file`, 149-177, 178-214. -/
def loadM (M : Memory) (T : ℕ → Polygon.SumTree) (b : Buf) : Res Graph :=
  if b = [] then .error .exn
  else do
    let np ← get64 b 0
    ensure (M.polygons np.toNat)
    let ps ← loadPolygonsM M T b 8 np.toNat
    ensure (M.graph ps.1.flatten.length)
    loadMatrix b (Graph.ofPolygons ps.1) ps.2

end Serial

end Capi
