import Verif.Model.Segment

/-!
# `OpenEdges` (code/datastructures/open_edges/open_edges.cpp)

`std::unordered_map<LineSegment, int64_t>` uses an equality that ignores direction together
with a hash that does not.  Whether a lookup finds an entry stored under the reversed segment is
therefore up to the hash table; `look s t` says whether a lookup of `s` finds the entry of `t`.
`LookOk` is all that is assumed about it, and that it does not change during a scan.
-/

namespace Capi

/-- open_edges.hpp:15-25. -/
structure OpenEdges where
  /-- `_edges_sorted_by_distance`, ascending, no key twice -/
  byDist : List (ℤ × Seg)
  /-- `_edge_to_distance_mapping` -/
  distOf : List (Seg × ℤ)
  deriving DecidableEq

/-- A lookup finds equal segments, and only segments equal up to direction. -/
def LookOk (look : Seg → Seg → Bool) : Prop :=
  (∀ s, look s s = true) ∧ ∀ s t, look s t = true → s.sameAs t = true

namespace OpenEdges

/-- A fresh `OpenEdges()`. -/
def empty : OpenEdges := ⟨[], []⟩

/-- `std::map::emplace`: an existing key keeps its value. -/
def emplace (d : ℤ) (s : Seg) : List (ℤ × Seg) → List (ℤ × Seg)
  | [] => [(d, s)]
  | e :: r => if d < e.1 then (d, s) :: e :: r else if d = e.1 then e :: r else e :: emplace d s r

/-- `_edge_to_distance_mapping[segment] = distance`. -/
def assign (look : Seg → Seg → Bool) (s : Seg) (d : ℤ) : List (Seg × ℤ) → List (Seg × ℤ)
  | [] => [(s, d)]
  | e :: r => if look s e.1 then (e.1, d) :: r else e :: assign look s d r

/-- open_edges.cpp:7-10 `add_edge`. -/
def add (look : Seg → Seg → Bool) (d : ℤ) (s : Seg) (o : OpenEdges) : OpenEdges :=
  ⟨emplace d s o.byDist, assign look s d o.distOf⟩

/-- open_edges.cpp:20-26: the only entry with that distance is removed if it is the segment. -/
def eraseAt (d : ℤ) (s : Seg) : List (ℤ × Seg) → List (ℤ × Seg)
  | [] => []
  | e :: r => if e.1 = d then (if e.2.sameAs s then r else e :: r) else e :: eraseAt d s r

/-- open_edges.cpp:12-27 `remove_edge`. -/
def remove (look : Seg → Seg → Bool) (s : Seg) (o : OpenEdges) : OpenEdges :=
  match o.distOf.find? fun e => look s e.1 with
  | none => o
  | some e => ⟨eraseAt e.2 s o.byDist, o.distOf.eraseP fun e => look s e.1⟩

/-- open_edges.cpp:29 `closest_edge` (on an empty map undefined), 31 `empty`. -/
def closest (o : OpenEdges) : Option Seg := o.byDist.head?.map Prod.snd

end OpenEdges

end Capi
