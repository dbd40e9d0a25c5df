import Verif.Props.Vistree
import Verif.Spec.Convex

/-!
# C35: how hidden vertices come to be reported

Four causes, each shown where the others are absent: every map is one of strictly convex islands.
-/

namespace Capi

open Vistree

/-- The claim that a vertex behind an edge is never reported, for maps of convex islands with the
further property `P` of the map, the observer, the vertex and the edge. -/
def NothingHidden (P : List (List Coord) → Coord → Coord → Seg → Prop) : Prop :=
  ∀ ps m segs look, Setup ps m segs look → ∀ obs v e, (∀ p ∈ ps, Convex p) → P ps obs v e →
    obs.Geo → (∀ w ∈ ps.flatten, w.Geo) → v ∈ ps.flatten → EdgeOf ps e → Crosses obs v e →
    (v, false) ∉ visible look m segs obs false

/-- Different corners are at different distances from the observer. -/
def OwnDistances (ps : List (List Coord)) (obs : Coord) : Prop :=
  ∀ v ∈ ps.flatten, ∀ w ∈ ps.flatten, dist2 obs v = dist2 obs w → v = w

instance (ps : List (List Coord)) (obs : Coord) : Decidable (OwnDistances ps obs) := by
  unfold OwnDistances; infer_instance

/-- The edge crosses the line of sight to `v` a microdegree or more before it. -/
def WellBefore (obs v : Coord) (e : Seg) : Prop :=
  ∀ x y : ℚ, OnSeg e x y → OnSeg ⟨obs, v⟩ x y → 1 ≤ |x - v.lon| ∨ 1 ≤ |y - v.lat|

theorem wellBefore_of {obs v : Coord} {e : Seg}
    (h0 : area2 e.p e.q v ≠ area2 e.p e.q obs)
    (h : |area2 e.p e.q v - area2 e.p e.q obs| ≤
      |area2 e.p e.q v| * max |v.lon - obs.lon| |v.lat - obs.lat|) : WellBefore obs v e := by
  rintro x y ⟨t, -, -, hx, hy⟩ ⟨u, -, hu, hx', hy'⟩
  have hu' : 0 ≤ 1 - u := by linarith
  have e1 : (area2 e.p e.q v : ℚ) =
      (1 - u) * ((area2 e.p e.q v : ℚ) - (area2 e.p e.q obs : ℚ)) := by
    simp only [area2, Int.cast_sub, Int.cast_mul] at *
    have k1 := hx.symm.trans hx'
    have k2 := hy.symm.trans hy'
    linear_combination ((e.q.lat : ℚ) - e.p.lat) * k1 - ((e.q.lon : ℚ) - e.p.lon) * k2
  have e2 : |x - v.lon| = (1 - u) * |((v.lon - obs.lon : ℤ) : ℚ)| := by
    rw [hx', ← abs_of_nonneg hu', ← abs_mul, abs_sub_comm]
    congr 1; push_cast; ring
  have e3 : |y - v.lat| = (1 - u) * |((v.lat - obs.lat : ℤ) : ℚ)| := by
    rw [hy', ← abs_of_nonneg hu', ← abs_mul, abs_sub_comm]
    congr 1; push_cast; ring
  have hD : (0 : ℚ) < |((area2 e.p e.q v - area2 e.p e.q obs : ℤ) : ℚ)| := by
    rw [abs_pos]; exact_mod_cast sub_ne_zero.2 h0
  have hq : |((area2 e.p e.q v - area2 e.p e.q obs : ℤ) : ℚ)| ≤
      |(area2 e.p e.q v : ℚ)| *
        max |((v.lon - obs.lon : ℤ) : ℚ)| |((v.lat - obs.lat : ℤ) : ℚ)| := by
    exact_mod_cast h
  rw [e1, abs_mul, abs_of_nonneg hu', ← Int.cast_sub] at hq
  rw [e2, e3]
  set M := |((v.lon - obs.lon : ℤ) : ℚ)|
  set N := |((v.lat - obs.lat : ℤ) : ℚ)|
  by_contra hc
  rw [not_or, not_le, not_le] at hc
  have : (1 - u) * max M N < 1 := by
    rcases max_choice M N with h | h <;> rw [h]
    · exact hc.1
    · exact hc.2
  nlinarith

/-- **C35** (false) Open edges are kept in the order of the distance at which they were opened:
an edge opened far away that comes nearer is overtaken by one behind it, and a vertex between the
two is reported; with all corners at different distances and the crossing well before the vertex. -/
theorem C35_order_false : ¬ NothingHidden fun ps obs v e =>
    ps.flatten.Nodup ∧ OwnDistances ps obs ∧ WellBefore obs v e := by
  intro h
  have := h [[⟨100, -10⟩, ⟨99, -8⟩, ⟨10, 30⟩], [⟨60, 10⟩, ⟨70, 70⟩, ⟨60, 70⟩],
      [⟨40, 40⟩, ⟨42, 45⟩, ⟨40, 45⟩]] _ _ _ (setup_self _ (by decide)) ⟨0, 0⟩ ⟨40, 40⟩
    ⟨⟨10, 30⟩, ⟨100, -10⟩⟩ (by decide)
    ⟨by decide, by decide, wellBefore_of (by decide) (by decide)⟩ (by decide) (by decide)
    (by decide) ⟨_, List.mem_cons_self, 2, by decide, by decide⟩ (by decide)
  exact this (by decide +kernel)

/-- **C35** (false) Two edges opened at the same distance cannot both be stored: a single convex
polygon seen from outside suffices for a vertex at its back to be reported. -/
theorem C35_tie_false : ¬ NothingHidden fun ps obs v e =>
    ps.length = 1 ∧ ps.flatten.Nodup ∧ WellBefore obs v e := by
  intro h
  have := h [[⟨16, -2⟩, ⟨24, 7⟩, ⟨30, 30⟩, ⟨24, 30⟩, ⟨20, 15⟩]] _ _ _ (setup_self _ (by decide))
    ⟨0, 0⟩ ⟨30, 30⟩ ⟨⟨24, 30⟩, ⟨20, 15⟩⟩ (by decide)
    ⟨by decide, by decide, wellBefore_of (by decide) (by decide)⟩ (by decide) (by decide)
    (by decide) ⟨_, List.mem_cons_self, 3, by decide, by decide⟩ (by decide)
  exact this (by decide +kernel)

/-- **C35** (false) The map holds the edges of one polygon per vertex: where two polygons share a
vertex, an edge of the first is never opened there. -/
theorem C35_shared_vertex_false : ¬ NothingHidden fun ps obs v e =>
    (∀ p ∈ ps, p.Nodup) ∧ OwnDistances ps obs ∧ WellBefore obs v e := by
  intro h
  have := h [[⟨10, 1⟩, ⟨20, 10⟩, ⟨10, 21⟩], [⟨10, 1⟩, ⟨8, -5⟩, ⟨12, -5⟩]] _ _ _
    (setup_self _ (by decide)) ⟨0, 0⟩ ⟨20, 10⟩ ⟨⟨10, 21⟩, ⟨10, 1⟩⟩ (by decide)
    ⟨by decide, by decide, wellBefore_of (by decide) (by decide)⟩ (by decide)
    (by decide) (by decide) ⟨_, List.mem_cons_self, 2, by decide, by decide⟩ (by decide)
  exact this (by decide +kernel)

/-- **C35** (false) A crossing less than a microdegree in front of the vertex is rounded to the
vertex itself, though the island in front lies wholly nearer. -/
theorem C35_rounding_false : ¬ NothingHidden fun ps obs _ e =>
    ps.flatten.Nodup ∧ OwnDistances ps obs ∧ ∃ A ∈ ps, e.p ∈ A ∧ e.q ∈ A ∧
      ∀ B ∈ ps, B ≠ A → ∀ a ∈ A, ∀ b ∈ B, dist2 obs a < dist2 obs b := by
  intro h
  have := h [[⟨1586, 1734⟩, ⟨1618, 1705⟩, ⟨1582, 1738⟩], [⟨1617, 1706⟩, ⟨1627, 1706⟩, ⟨1617, 1717⟩]]
    _ _ _ (setup_self _ (by decide)) ⟨0, 0⟩ ⟨1617, 1706⟩ ⟨⟨1586, 1734⟩, ⟨1618, 1705⟩⟩ (by decide)
    ⟨by decide, by decide, _, List.mem_cons_self, by decide, by decide, by decide⟩ (by decide)
    (by decide) (by decide) ⟨_, List.mem_cons_self, 0, by decide, by decide⟩ (by decide)
  exact this (by decide +kernel)

end Capi
