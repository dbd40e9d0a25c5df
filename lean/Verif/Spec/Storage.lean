import Verif.Model.Serializer

/-!
# Graphs whose files can be loaded back
-/

namespace Capi

namespace Serial

/-- What is needed of a graph for its file to be loaded back: coordinates are `int32_t`,
constructing the stored polygons again gives the same polygons (see `C15_rebuild_partial`), and
the numbers of polygons and vertices can be represented (`2^32` vertices would need `2^64` bytes
for the matrix). -/
structure Storable (T : ℕ → Polygon.SumTree) (g : Graph) : Prop where
  wf : ∀ p ∈ g.polygons, ∀ c ∈ p, c.Wf
  stable : ∀ p ∈ g.polygons, polygonC T p = .ok p
  polygons : g.polygons.length < 2 ^ 64
  verts : g.verts.length < 2 ^ 32

end Serial

end Capi
