import Verif.Lemmas.Loading
import Verif.Props.GraphNeeds
import Verif.Props.Session

/-!
# What the scan and the sessions need

C37 and C95 say that nothing undefined happens under their conditions.  Here are cases in which it
does.
-/

namespace Capi

open Vistree File

/-- **C37** Sorting is undefined as soon as one vertex is too far from the observer. -/
theorem C37_too_far (obs a : Coord) (vs : List Coord) (ha : a ∈ vs) (hne : a ≠ obs)
    (h : ¬ StepFits obs a) : sortC obs vs = .error .ub := by
  unfold sortC
  rw [if_neg]
  intro hall
  obtain ⟨r, hr⟩ := hall a ha a ha
  unfold lessC at hr
  rw [if_neg hne, if_neg hne, Serial.subC_unfit h] at hr
  cases hr

/-- Longitudes more than `2 ^ 31` apart. -/
example : sortC ⟨-2000000000, 0⟩ [⟨0, 0⟩, ⟨2000000000, 0⟩] = .error .ub :=
  C37_too_far _ ⟨2000000000, 0⟩ _ (by simp) (by decide) (by decide)

/-- **C37** From a vertex with fewer than two incident edges, looking at anything else is undefined: the
wall made of them has three corners. -/
theorem C37_lone (m : VisMap) (o : OpenEdges) (obs v : Coord) (hv : v ≠ obs) (l : List Seg)
    (hm : Assoc.get m obs = some l) (hl : l.length < 2) : isVisibleC m o obs v = .error .ub := by
  have hb : barrierC m obs v = .error .ub := by
    unfold barrierC
    rw [hm]
    match l, hl with
    | [], _ => rfl
    | [_], _ => rfl
  unfold isVisibleC
  rw [if_neg hv, hb]
  rfl

/-- The end of a single segment. -/
example (o : OpenEdges) :
    isVisibleC [(⟨0, 0⟩, [⟨⟨0, 0⟩, ⟨9, 9⟩⟩])] o ⟨0, 0⟩ ⟨5, 0⟩ = .error .ub :=
  C37_lone _ o _ _ (by decide) [⟨⟨0, 0⟩, ⟨9, 9⟩⟩] (by decide) (by decide)

/-- **C95** If two vertices have one index, joining them in a session is undefined. -/
theorem C95_undefined (g : Graph) (a b : Coord) (hab : a ≠ b) (i : ℕ) (ha : g.idx a = some i)
    (hb : g.idx b = some i) (m : Bool) : g.addEdgeS a b m = (g, .undefined) := by
  unfold Graph.addEdgeS
  rw [(C20_relock g a b hab i ha hb).2.2.2 m]

/-- One index for everything. -/
example : (Graph.addEdgeS { Graph.ofPolygons [[⟨0, 0⟩, ⟨1, 0⟩]] with idx := fun _ => some 0 }
    ⟨0, 0⟩ ⟨1, 0⟩ false).2 = .undefined := by
  rw [C95_undefined _ ⟨0, 0⟩ ⟨1, 0⟩ (by decide) 0 rfl rfl]

end Capi
