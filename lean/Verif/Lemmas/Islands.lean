import Verif.Lemmas.Archipelago
import Verif.Props.ConvexSea

/-!
# Convex islands on the periodic plane
-/

namespace Capi

open Vistree

section

/-! ### Shifting -/

theorem shift_zero (c : Coord) : c.shift 0 = c := by cases c; simp [Coord.shift]

theorem shift_shift (j k : ℤ) (c : Coord) : (c.shift j).shift k = c.shift (j + k) := by
  cases c
  simp only [Coord.shift, Coord.mk.injEq, and_true]
  ring

theorem map_shift_zero (p : List Coord) : p.map (Coord.shift 0) = p := by
  rw [List.map_congr_left (g := id)]
  · simp
  · intro v _; exact shift_zero v

theorem area_shift (k : ℤ) (a b c : Coord) : area2 (a.shift k) (b.shift k) (c.shift k) = area2 a b c := by
  unfold area2 Coord.shift; ring

theorem resolved_shift (k : ℤ) (a b c : Coord) :
    CornerResolved (a.shift k) (b.shift k) (c.shift k) ↔ CornerResolved a b c := by
  unfold CornerResolved
  rw [area_shift]
  have e : ∀ x y : Coord, (x.shift k).lon - (y.shift k).lon = x.lon - y.lon := by
    intro x y; simp only [Coord.shift]; ring
  rw [e, e]
  rfl

theorem shift_pt (k : ℤ) (c : Coord) : (c.shift k).pt = c.pt + ((k * 360000001 : ℤ) : ℝ) := by
  apply Complex.ext
  · simp only [Coord.shift, Coord.pt, Complex.add_re, Complex.ofReal_re]
    push_cast
    ring
  · simp only [Coord.shift, Coord.pt, Complex.add_im, Complex.ofReal_im, add_zero]

theorem edge_shift {p : List Coord} {k : ℤ} {e : Seg} :
    EdgeOf [p.map (Coord.shift k)] e ↔ ∃ f, EdgeOf [p] f ∧ e = f.shift k := by
  constructor
  · rintro ⟨q, hq, i, hi, rfl⟩
    rw [List.mem_singleton] at hq
    subst hq
    rw [List.length_map] at hi
    have hp0 : p ≠ [] := by rintro rfl; simp at hi
    exact ⟨_, ⟨p, by simp, i, hi, rfl⟩, by rw [ringAt_map hp0, ringAt_map hp0]; rfl⟩
  · rintro ⟨f, ⟨q, hq, i, hi, rfl⟩, rfl⟩
    rw [List.mem_singleton] at hq
    subst hq
    have hp0 : q ≠ [] := by rintro rfl; simp at hi
    exact ⟨q.map (Coord.shift k), by simp, i, by simpa using hi,
      by rw [ringAt_map hp0, ringAt_map hp0]; rfl⟩

theorem convex_shift {p : List Coord} (k : ℤ) (h : Convex p) : Convex (p.map (Coord.shift k)) := by
  intro i hi w hw h1 h2
  rw [List.length_map] at hi
  have hp0 : p ≠ [] := by rintro rfl; simp at hi
  obtain ⟨v, hv, rfl⟩ := List.mem_map.1 hw
  rw [ringAt_map hp0] at h1 h2
  rw [ringAt_map hp0, ringAt_map hp0, area_shift]
  exact h i hi v hv (fun e => h1 (by rw [e])) fun e => h2 (by rw [e])

theorem outside_shift {p : List Coord} (k : ℤ) {c : Coord} (h : Outside p c) :
    Outside (p.map (Coord.shift k)) (c.shift k) := by
  obtain ⟨i, hi, h⟩ := h
  have hp0 : p ≠ [] := by rintro rfl; simp at hi
  refine ⟨i, by simpa using hi, ?_⟩
  rwa [ringAt_map hp0, ringAt_map hp0, area_shift]

theorem turn_add (p q x c : ℂ) : turn (p + c) (q + c) (x + c) = turn p q x := by
  simp only [turn, Complex.add_re, Complex.add_im]; ring

theorem inland_shift {p : List Coord} {k : ℤ} {x : ℂ} :
    x + ((k * 360000001 : ℤ) : ℝ) ∈ Inland (p.map (Coord.shift k)) ↔ x ∈ Inland p := by
  constructor
  · intro h e he
    have := h _ (edge_shift.2 ⟨e, he, rfl⟩)
    simp only [Seg.shift] at this
    rwa [shift_pt, shift_pt, turn_add] at this
  · rintro h e he
    obtain ⟨f, hf, rfl⟩ := edge_shift.1 he
    simp only [Seg.shift]
    rw [shift_pt, shift_pt, turn_add]
    exact h f hf

/-! ### The extent of an island -/

theorem corner_extent {a v b x : ℂ} (h0 : 0 < turn a v b) (h1 : 0 ≤ turn a v x)
    (h2 : 0 ≤ turn v b x) :
    ((a.re ≤ v.re ∧ b.re ≤ v.re) → x.re ≤ v.re) ∧ ((v.re ≤ a.re ∧ v.re ≤ b.re) → v.re ≤ x.re) := by
  have key : turn a v b * (x.re - v.re) = turn a v x * (b.re - v.re) - turn v b x * (v.re - a.re) := by
    simp only [turn]; ring
  constructor
  · rintro ⟨ha, hb⟩
    by_contra hc
    push Not at hc
    have k1 := mul_pos h0 (sub_pos.2 hc)
    have k2 := mul_nonneg h1 (sub_nonneg.2 hb)
    have k3 := mul_nonneg h2 (sub_nonneg.2 ha)
    linarith
  · rintro ⟨ha, hb⟩
    by_contra hc
    push Not at hc
    have k1 := mul_pos h0 (sub_pos.2 hc)
    have k2 := mul_nonneg h1 (sub_nonneg.2 hb)
    have k3 := mul_nonneg h2 (sub_nonneg.2 ha)
    linarith

/-- What is to the left of all edges is not east or west of all vertices. -/
theorem convex_extent {p : List Coord} (hc : Convex p) (hnd : p.Nodup) (hlen : 3 ≤ p.length) {x : ℂ}
    (h : ∀ e, EdgeOf [p] e → 0 ≤ turn e.p.pt e.q.pt x) :
    (∃ v ∈ p, x.re ≤ v.lon) ∧ ∃ v ∈ p, (v.lon : ℝ) ≤ x.re := by
  have hne : p.toFinset.Nonempty := by
    obtain ⟨c, hc⟩ := List.exists_mem_of_length_pos (show 0 < p.length by omega)
    exact ⟨c, List.mem_toFinset.2 hc⟩
  have key : ∀ v ∈ p, ∃ a b, a ∈ p ∧ b ∈ p ∧
      (a.lon ≤ v.lon ∧ b.lon ≤ v.lon → x.re ≤ v.lon) ∧
      (v.lon ≤ a.lon ∧ v.lon ≤ b.lon → (v.lon : ℝ) ≤ x.re) := by
    intro v hv
    obtain ⟨a, b, hcor⟩ := corner_of_mem hv
    have hpos := convex_corner hc hnd hlen hcor
    obtain ⟨ea, eb⟩ := corner_edges hcor
    have := corner_extent (a := a.pt) (v := v.pt) (b := b.pt) (x := x)
      (by rw [turn_pt]; exact_mod_cast hpos) (h _ ea) (h _ eb)
    simp only [Coord.pt, Int.cast_le] at this
    exact ⟨a, b, (edge_in ea).1, (edge_in eb).2, this⟩
  constructor
  · obtain ⟨v, hv, hmax⟩ := p.toFinset.exists_max_image (fun c => c.lon) hne
    rw [List.mem_toFinset] at hv
    obtain ⟨a, b, ha, hb, h1, -⟩ := key v hv
    exact ⟨v, hv, h1 ⟨hmax a (List.mem_toFinset.2 ha), hmax b (List.mem_toFinset.2 hb)⟩⟩
  · obtain ⟨v, hv, hmax⟩ := p.toFinset.exists_min_image (fun c => c.lon) hne
    rw [List.mem_toFinset] at hv
    obtain ⟨a, b, ha, hb, -, h1⟩ := key v hv
    exact ⟨v, hv, h1 ⟨hmax a (List.mem_toFinset.2 ha), hmax b (List.mem_toFinset.2 hb)⟩⟩

theorem outside_of_extent {p : List Coord} (hc : Convex p) (hnd : p.Nodup) (hlen : 3 ≤ p.length)
    {c : Coord} (h : (∀ v ∈ p, v.lon < c.lon) ∨ ∀ v ∈ p, c.lon < v.lon) : Outside p c := by
  by_contra hout
  unfold Outside at hout
  push Not at hout
  obtain ⟨⟨v, hv, h1⟩, w, hw, h2⟩ := convex_extent hc hnd hlen (x := c.pt) (by
    rintro e ⟨q, hq, i, hi, rfl⟩
    rw [List.mem_singleton] at hq
    subst hq
    rw [turn_pt]
    exact_mod_cast hout i hi)
  simp only [Coord.pt, Int.cast_le] at h1 h2
  rcases h with h | h
  · exact absurd (h v hv) (not_lt.2 h1)
  · exact absurd (h w hw) (not_lt.2 h2)

/-! ### All copies of the islands -/

/-- Copies have no vertices in common. -/
theorem periodic_nodup {T : ℕ → Polygon.SumTree} {ps : List (List Coord)} (hS : ps.flatten.Nodup)
    (hg : ∀ v ∈ ps.flatten, v.Geo) (hst : ∀ p ∈ ps, Stable T p) :
    (polygonsPeriodic T ps).flatten.Nodup := by
  have mem : ∀ q, q ∈ polygonsPeriodic T ps ↔ ∃ p ∈ ps, ∃ k, IsCopy k ∧ q = p.map (Coord.shift k) := by
    intro q
    rw [mem_polygonsPeriodic]
    refine exists_congr fun p => and_congr_right fun hp => exists_congr fun k =>
      and_congr_right fun hk => ?_
    rw [hst p hp k hk]
  have hnd : ∀ p ∈ ps, p.Nodup := (List.nodup_flatten.1 hS).1
  have e : polygonsPeriodic T ps = ps.flatMap fun p =>
      [p.map (Coord.shift 0), p.map (Coord.shift 1), p.map (Coord.shift (-1))] := by
    unfold polygonsPeriodic
    refine List.flatMap_congr fun p hp => ?_
    have := hst p hp
    have e : ∀ i : ℕ, i < 3 → ∀ v : Coord, (periodicCopies v).getD i v =
        v.shift (if i = 0 then 0 else if i = 1 then 1 else -1) := by
      intro i hi v
      have h := copy_getD v
      have := congrArg (fun l => l.getD i v) h
      rcases (by omega : i = 0 ∨ i = 1 ∨ i = 2) with rfl | rfl | rfl <;>
        simpa [List.range_succ] using this
    simp only [List.range_succ, List.range_zero, List.nil_append, List.map_cons,
      List.map_nil, List.cons_append]
    rw [List.map_congr_left fun v _ => e 0 (by omega) v, List.map_congr_left fun v _ => e 1 (by omega) v,
      List.map_congr_left fun v _ => e 2 (by omega) v]
    simp only [if_true, one_ne_zero, if_false, OfNat.ofNat_ne_zero, OfNat.ofNat_ne_one]
    rw [this 0 (by decide), this 1 (by decide), this (-1) (by decide)]
  rw [e, List.nodup_flatten]
  constructor
  · intro q hq
    rw [← e] at hq
    obtain ⟨p, hp, k, -, rfl⟩ := (mem q).1 hq
    exact (hnd p hp).map fun a b h => shift_inj h
  · have far : ∀ {a b : Coord} {j k : ℤ}, a.Geo → b.Geo → a.shift j = b.shift k → j = k := by
      intro a b j k ha hb h
      cases a; cases b
      simp only [Coord.shift, Coord.Geo, Coord.mk.injEq] at *
      omega
    rw [List.pairwise_flatMap]
    constructor
    · intro p hp
      have hgp : ∀ v ∈ p, v.Geo := fun v hv => hg v (mem_flat hp hv)
      have dj : ∀ j k : ℤ, j ≠ k → List.Disjoint (p.map (Coord.shift j)) (p.map (Coord.shift k)) := by
        intro j k hjk x h1 h2
        obtain ⟨a, ha, rfl⟩ := List.mem_map.1 h1
        obtain ⟨b, hb, hab⟩ := List.mem_map.1 h2
        exact hjk (far (hgp a ha) (hgp b hb) hab.symm)
      simp only [List.pairwise_cons, List.mem_cons, List.not_mem_nil, or_false, forall_eq_or_imp,
        forall_eq, IsEmpty.forall_iff, implies_true, List.Pairwise.nil, and_true]
      exact ⟨⟨dj _ _ (by decide), dj _ _ (by decide)⟩, dj _ _ (by decide)⟩
    · refine (List.nodup_flatten.1 hS).2.imp_of_mem fun {p q} hp hq hd => ?_
      have dj : ∀ j k : ℤ, List.Disjoint (p.map (Coord.shift j)) (q.map (Coord.shift k)) := by
        intro j k x h1 h2
        obtain ⟨a, ha, rfl⟩ := List.mem_map.1 h1
        obtain ⟨b, hb, hab⟩ := List.mem_map.1 h2
        obtain rfl := far (hg a (mem_flat hp ha)) (hg b (mem_flat hq hb)) hab.symm
        exact hd ha (shift_inj hab ▸ hb)
      intro x hx y hy
      simp only [List.mem_cons, List.not_mem_nil, or_false] at hx hy
      rcases hx with rfl | rfl | rfl <;> rcases hy with rfl | rfl | rfl <;> exact dj _ _

/-- The islands with their copies are islands. -/
theorem Islands.periodic {T : ℕ → Polygon.SumTree} {ps : List (List Coord)} (hI : Islands ps)
    (hg : ∀ v ∈ ps.flatten, v.Geo) (hst : ∀ p ∈ ps, Stable T p) :
    Islands (polygonsPeriodic T ps) := by
  have mem : ∀ q, q ∈ polygonsPeriodic T ps ↔ ∃ p ∈ ps, ∃ k, IsCopy k ∧ q = p.map (Coord.shift k) := by
    intro q
    rw [mem_polygonsPeriodic]
    refine exists_congr fun p => and_congr_right fun hp => exists_congr fun k =>
      and_congr_right fun hk => ?_
    rw [hst p hp k hk]
  have hnd : ∀ p ∈ ps, p.Nodup := (List.nodup_flatten.1 hI.nodup).1
  refine ⟨?_, ?_, ?_, ?_⟩
  · intro q hq
    obtain ⟨p, hp, k, -, rfl⟩ := (mem q).1 hq
    exact convex_shift k (hI.convex p hp)
  · intro q hq
    obtain ⟨p, hp, k, -, rfl⟩ := (mem q).1 hq
    rw [List.length_map]
    exact hI.size p hp
  · exact periodic_nodup hI.nodup hg hst
  · intro q hq v hv hvq
    obtain ⟨p, hp, k, hk, rfl⟩ := (mem q).1 hq
    obtain ⟨w, hw, j, hj, rfl⟩ := periodic_vertex hv
    by_cases hjk : j = k
    · subst hjk
      exact outside_shift j (hI.apart p hp w hw fun h => hvq (List.mem_map_of_mem h))
    · refine outside_of_extent (convex_shift k (hI.convex p hp)) ((hnd p hp).map fun a b h => shift_inj h)
        (by rw [List.length_map]; exact hI.size p hp) ?_
      have hwg := hg w hw
      have hgp : ∀ v ∈ p, v.Geo := fun v hv => hg v (mem_flat hp hv)
      rcases lt_or_gt_of_ne hjk with h | h
      · right
        intro x hx
        obtain ⟨y, hy, rfl⟩ := List.mem_map.1 hx
        have := hgp y hy
        simp only [Coord.Geo, Coord.shift] at *
        omega
      · left
        intro x hx
        obtain ⟨y, hy, rfl⟩ := List.mem_map.1 hx
        have := hgp y hy
        simp only [Coord.Geo, Coord.shift] at *
        omega

/-! ### Lines of sight are lines over the sea -/

/-- Off the inside of an island of which `c` is a vertex or outside. -/
theorem off_inland {p : List Coord} {c : Coord} (h : c ∉ p → Outside p c) : c.pt ∉ Inland p := by
  intro hin
  by_cases hc : c ∈ p
  · obtain ⟨n, hn⟩ := edge_to hc
    have := hin _ hn
    rw [turn_pt, area_zero₂] at this
    simp at this
  · obtain ⟨i, hi, hlt⟩ := h hc
    have := hin _ ⟨p, by simp, i, hi, rfl⟩
    rw [turn_pt] at this
    have : 0 < area2 (ringAt p i) (ringAt p (i + 1)) c := by exact_mod_cast this
    omega

theorem Islands.off {ps : List (List Coord)} (hI : Islands ps) {p : List Coord} (hp : p ∈ ps)
    {c : Coord} (hc : c ∈ ps.flatten) : c.pt ∉ Inland p := off_inland (hI.apart p hp c hc)

theorem orderly_off {ps : List (List Coord)} {obs : Coord} (hO : Orderly ps obs)
    {p : List Coord} (hp : p ∈ ps) : obs.pt ∉ Inland p := off_inland (hO.off p hp)

/-- A vertex on the way is in line. -/
theorem inLine_of_open {a b v : Coord} (hab : a ≠ b) (h : v.pt ∈ openSegment ℝ a.pt b.pt) :
    InLine a b v := by
  obtain ⟨t', t, t0', t0, ht, he⟩ := h
  have q1 := congrArg Complex.re he
  have q2 := congrArg Complex.im he
  simp only [Coord.pt, Complex.add_re, Complex.add_im, Complex.smul_re, Complex.smul_im,
    smul_eq_mul] at q1 q2
  obtain rfl : t' = 1 - t := by linarith
  have e1 : (v.lon : ℝ) - a.lon = t * (b.lon - a.lon) := by linarith
  have e2 : (v.lat : ℝ) - a.lat = t * (b.lat - a.lat) := by linarith
  constructor
  · have : ((area2 a b v : ℤ) : ℝ) = 0 := by
      unfold area2
      push_cast
      rw [e1, e2]
      ring
    exact_mod_cast this
  · have : (0 : ℝ) < ((b.lon - a.lon) * (v.lon - a.lon) + (b.lat - a.lat) * (v.lat - a.lat) : ℤ) := by
      push_cast
      rw [e1, e2]
      have hsq : (0 : ℝ) < (b.lon - a.lon) ^ 2 + (b.lat - a.lat) ^ 2 := by
        by_contra hn
        push Not at hn
        apply hab
        have a1 : (b.lon : ℝ) - a.lon = 0 := by nlinarith
        have a2 : (b.lat : ℝ) - a.lat = 0 := by nlinarith
        have b1 : (a.lon : ℝ) = b.lon := by linarith
        have b2 : (a.lat : ℝ) = b.lat := by linarith
        exact Coord.ext' (by exact_mod_cast b1) (by exact_mod_cast b2)
      have := mul_pos t0 hsq
      nlinarith
    exact_mod_cast this

theorem atSea_symm {land : Set ℂ} {a b : ℂ} (h : AtSea land a b) : AtSea land b a := by
  intro z hz
  rw [segment_symm] at hz
  exact h z hz

theorem segment_add {a b c z : ℂ} (h : z ∈ segment ℝ (a + c) (b + c)) : z - c ∈ segment ℝ a b := by
  obtain ⟨r, s, hr, hs, hrs, rfl⟩ := h
  refine ⟨r, s, hr, hs, hrs, ?_⟩
  have : r • c + s • c = c := by rw [← add_smul, hrs, one_smul]
  rw [smul_add, smul_add]
  linear_combination -this

theorem segment_re {a b z : ℂ} (h : z ∈ segment ℝ a b) :
    min a.re b.re ≤ z.re ∧ z.re ≤ max a.re b.re := by
  obtain ⟨r, s, hr, hs, hrs, rfl⟩ := h
  simp only [Complex.add_re, Complex.smul_re, smul_eq_mul]
  have h1 := mul_le_mul_of_nonneg_left (min_le_left a.re b.re) hr
  have h2 := mul_le_mul_of_nonneg_left (min_le_right a.re b.re) hs
  have h3 := mul_le_mul_of_nonneg_left (le_max_left a.re b.re) hr
  have h4 := mul_le_mul_of_nonneg_left (le_max_right a.re b.re) hs
  have e1 : min a.re b.re = r * min a.re b.re + s * min a.re b.re := by rw [← add_mul, hrs, one_mul]
  have e2 : max a.re b.re = r * max a.re b.re + s * max a.re b.re := by rw [← add_mul, hrs, one_mul]
  constructor <;> linarith

end

end Capi
