import Verif.Model.Fused
import Verif.Lemmas.DoubleLike

/-!
# Helper lemmas for fused multiply-add
-/

namespace Capi

open Polygon

theorem windingTermFused_err {vs : List Coord} (h : ∀ v ∈ vs, v.Per) (fused : ℕ → Bool)
    (h0 : vs ≠ []) (i : ℕ) : |windingTermFused fused vs i -
      (((ringAt vs (i + 1)).lon : ℚ) / 1000000 - (ringAt vs i).lon / 1000000) *
        ((ringAt vs (i + 1)).lat / 1000000 + (ringAt vs i).lat / 1000000)| ≤ 1400000 / 2 ^ 53 ∧
      |windingTermFused fused vs i| ≤ 195000 := by
  have := term_errs (h _ (ringAt_mem h0 i)) (h _ (ringAt_mem h0 (i + 1)))
  unfold windingTermFused
  cases fused i with
  | true => exact this.1
  | false => exact this.2

theorem windingOrientFused_correct {vs : List Coord} (h : ∀ v ∈ vs, v.Per) {T : SumTree}
    (fused : ℕ → Bool) (hT : T.leaves.Perm (List.range vs.length)) (hd : T.depth ≤ 2 ^ 40)
    (hA : AreaResolved T vs) :
    windingOrientFused T fused vs = (if 0 < twiceArea vs then .counterClockwise else .clockwise) :=
  orient_of_err (winding_err_of (windingTermFused_err h fused) hT hd) hA

theorem isReflexFused_iff (k : Contract) {v1 v2 v3 : Coord} (h : CornerResolved v1 v2 v3) :
    Polyline.isReflexFused k v1 v2 v3 = true ↔ area2 v1 v2 v3 < 0 := by
  unfold Polyline.isReflexFused Coord.lonDeg Coord.latDeg
  simp only [sub_lon, sub_lat]
  rw [decide_eq_true_eq]
  have p := prod_deg_errs (v2.lon - v1.lon) (v3.lat - v2.lat)
  have q := prod_deg_errs (v2.lat - v1.lat) (v3.lon - v2.lon)
  cases k <;> simp only [Contract.sub] <;> rw [fl_neg_iff, sub_neg]
  · exact det_sign h p.2 q.2
  · exact det_sign h p.1 q.2
  · exact det_sign h p.2 q.1

theorem magSqDegFused_err (k : Contract) (v : Coord) :
    |v.magSqDegFused k - (v.lon * v.lon + v.lat * v.lat : ℤ) / 1000000000000| ≤
      8 * ((v.lon * v.lon + v.lat * v.lat : ℤ) : ℚ) / 1000000000000 / 2 ^ 53 := by
  have p := prod_deg_errs v.lon v.lon
  have q := prod_deg_errs v.lat v.lat
  cases k
  · exact magSq_err_of p.2 q.2
  · exact magSq_err_of p.1 q.2
  · exact magSq_err_of p.2 q.1

theorem magSqDegFused_zero (k : Contract) {v : Coord} (h : v.magSq = 0) : v.magSqDegFused k = 0 := by
  unfold Coord.magSqDegFused Coord.lonDeg Coord.latDeg Coord.degOfMicro
  rw [(magSq_eq_zero h).1, (magSq_eq_zero h).2]
  cases k <;> simp [fl_zero, Contract.add]

end Capi
