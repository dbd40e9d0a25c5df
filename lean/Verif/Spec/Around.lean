import Verif.Spec.Charted

/-!
# Specification vocabulary for courses round the globe
-/

namespace Capi

/-- If there is a straight line over the sea from `u` to a copy of `v` beyond the meridian, there is
also one to `v` itself, and it is not longer. -/
def SeenDirect (ps : List (List Coord)) (u v : Coord) : Prop :=
  ∀ k, (k = 1 ∨ k = -1) → AtSea (Ashore ps) u.pt (v.shift k).pt →
    AtSea (Ashore ps) u.pt v.pt ∧ planeDist u v 0 ≤ planeDist v u k

/-- Where the way across the meridian is shorter it is the only one, and it is not needed at the ends
that are not vertices. -/
structure DirectBest (ps : List (List Coord)) (s d : Coord) : Prop where
  verts : ∀ u ∈ ps.flatten, ∀ v ∈ ps.flatten, AtSea (Ashore ps) u.pt v.pt → SeenDirect ps u v
  ends : ∀ e, e = s ∨ e = d → e ∉ ps.flatten → ∀ v, v = s ∨ v = d ∨ v ∈ ps.flatten → v ≠ e →
    SeenDirect ps e v

/-- No straight line over the sea between two vertices goes once round the globe. -/
def NoTurn (ps : List (List Coord)) : Prop :=
  ∀ u ∈ ps.flatten, ∀ v ∈ ps.flatten, u ≠ v → ∀ k, (k = 1 ∨ k = -1) →
    AtSea (Ashore ps) u.pt (v.shift k).pt → |(v.shift k).lon - u.lon| < 360000001

end Capi
