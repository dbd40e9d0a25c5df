import Verif.Lemmas.NearestCheck
import Verif.Props.Charted

/-!
# C91: what the scan reports, exactly

Whether or not it is right, the scan from a position off the lines through two vertices reports just
the vertices outside the observer's own corner that are not behind the one edge it met nearest.
-/

namespace Capi

open Vistree

section

variable {ps : List (List Coord)} {obs : Coord}

theorem scan_sublist (look : Seg → Seg → Bool) (m : VisMap) (segs : List Seg) (half : Bool) :
    (scanRaw look m obs (vertices m) segs half).Sublist (AngleSorter.sort obs (vertices m)) ∧
      obs ∉ scanRaw look m obs (vertices m) segs half := by
  unfold scanRaw
  split_ifs
  · exact ⟨List.nil_sublist _, by simp⟩
  · exact loop_sublist look m obs half _ _

/-- What the scan finds. -/
theorem scan_iff (m : VisMap) (segs : List Seg) (look : Seg → Seg → Bool) (hS : Simple ps)
    (hoff : ∀ s, EdgeOf ps s → obs ≠ s.p → obs ≠ s.q → ¬ OnSeg s obs.lon obs.lat)
    (hlin : ∀ v ∈ ps.flatten, ∀ w ∈ ps.flatten, v ≠ w → ¬ InLine obs v w) (hroom : Roomy ps)
    (R : Ranked ps obs) (h : Setup ps m segs look) (ho : obs.Per)
    (hlon : obs.lon < 540000001) (hres : ∀ a b, CornerOf ps a obs b → CornerResolved a obs b)
    (half : Bool) (v : Coord) :
    v ∈ scanRaw look m obs (vertices m) segs half ↔
      v ∈ ps.flatten ∧ v ≠ obs ∧ (∀ a b, CornerOf ps a obs b → ¬ InsideCorner a obs b v) ∧
        (∀ e, Nearest ps obs v e → ¬ Crosses obs v e) ∧ (half = true → obs.lat ≤ v.lat) := by
  by_cases hv : v ∈ ps.flatten
  swap
  · refine ⟨fun hm => ?_, fun hm => absurd hm.1 hv⟩
    exact absurd ((h.mapOf.keys v).1 ((sort_perm obs _).subset ((scan_sublist look m segs half).1.subset hm))) hv
  by_cases hv0 : v = obs
  · exact ⟨fun hm => absurd (hv0 ▸ hm) (scan_sublist look m segs half).2, fun hm => absurd hv0 hm.2.1⟩
  have W := h.world hS ho hlon hoff
  have hk := (h.mapOf.keys v).2 hv
  have hmne : m.isEmpty = false := by
    cases m with
    | nil => simp [vertices] at hk
    | cons a r => rfl
  have O : Order ps obs (AngleSorter.sort obs (vertices m)) :=
    ⟨sort_sorted ho h.per h.mapOf.nodup,
      (sort_perm obs (vertices m)).nodup_iff.2 h.mapOf.nodup,
      fun c => (sort_perm obs (vertices m)).mem_iff.trans (h.mapOf.keys c)⟩
  have full : v ∈ loop look m obs false (AngleSorter.sort obs (vertices m)) (initialOpen look obs segs) ↔
      (∀ a b, CornerOf ps a obs b → ¬ InsideCorner a obs b v) ∧
        ∀ e, Nearest ps obs v e → ¬ Crosses obs v e := by
    obtain ⟨pre, post, hsplit⟩ := List.append_of_mem ((O.mem v).2 hv)
    rw [hsplit] at O ⊢
    rw [loop_mem pre post v hv0 _ O.nodup]
    have hcl := W.closest_iff R hlin hv0 O
    generalize closeAt look m obs v
      (pre.foldl (sweepStep look m obs) (initialOpen look obs segs)) = o at hcl
    have hblock : unblocked o obs v = true ↔ ∀ e, Nearest ps obs v e → ¬ Crosses obs v e := by
      unfold unblocked
      cases hc : o.closest with
      | none =>
        refine iff_of_true rfl fun e hN => ?_
        rw [← hcl, hc] at hN
        cases hN
      | some c =>
        have hN := (hcl c).1 hc
        obtain ⟨⟨hce, ⟨hb, hside⟩, -⟩, -⟩ := id hN
        have hm := edge_mem hce
        have huniq : ∀ e, Nearest ps obs v e → e = c := fun e he => by
          have := (hcl e).2 he
          rw [hc] at this
          exact (Option.some.inj this).symm
        simp only
        by_cases hcr : Crosses obs v c
        · have hF := crosses_filed hcr
          obtain ⟨K, hF⟩ := hF
          have hne := filed_off hF
          obtain ⟨x, hx, hxv⟩ := crosses_blocks (h.range _ hm.1) (h.range _ hm.2) ho (h.range _ hv) hcr
            (fun x y hx _ => hroom v hv c hce hne.1 hne.2 x y hx)
          rw [hx]
          exact iff_of_false (by simpa using hxv) (fun hall => hall c hN hcr)
        · refine iff_of_true ?_ (fun e he => by rw [huniq e he]; exact hcr)
          rcases unblocked_of_clear ho (h.range v hv) (h.range _ hm.1) (h.range _ hm.2) hb.ne.1 hb.ne.2
            (sight_clear hoff (fun w hw hne hl _ => hlin v hv w hw hne.symm hl) hv0 c hce hcr hb.ne.1 hb.ne.2) with hi | hi
          · simp only [hi]
          · simp only [hi, beq_self_eq_true]
    unfold isVisible
    rw [(bne_iff_ne).2 hv0, Bool.true_and, Bool.and_eq_true, hblock]
    refine and_congr_left fun _ => ⟨fun hb => not_inside hS hres h.mapOf hb, fun hno => ?_⟩
    exact barrier_of_allows h.mapOf (corner_allows (fun w hw hne hl _ => hlin v hv w hw hne.symm hl) hres hv0 hno)
  unfold scanRaw
  rw [hmne]
  simp only [Bool.false_eq_true, if_false]
  cases half with
  | false => rw [full]; simp [hv, hv0]
  | true =>
    rw [loop_half _ _ _ _ (sorted_below ho hlon h.per h.mapOf.nodup), List.mem_filter, full,
      Bool.not_eq_true', ← Bool.not_eq_true, below_iff hlon]
    simp only [hv, hv0, ne_eq, not_false_eq_true, true_and, not_lt, forall_const]
    tauto

theorem report_all (raw : List Coord) : List.Forall₂ ReportOf raw (raw.map report) := by
  induction raw with
  | nil => exact .nil
  | cons v r ih => exact .cons (reportOf_report v) ih

/-- **C91** The scan reports, in the order of the sweep, just the vertices that are not inside the
observer's own corner and not behind the edge met nearest among those between whose ends they
are. -/
theorem C91_scan (m : VisMap) (segs : List Seg) (look : Seg → Seg → Bool) (hnd : ps.flatten.Nodup)
    (hlen : ∀ p ∈ ps, 3 ≤ p.length)
    (hoff : ∀ s, EdgeOf ps s → obs ≠ s.p → obs ≠ s.q → ¬ OnSeg s obs.lon obs.lat)
    (hlin : ∀ v ∈ ps.flatten, ∀ w ∈ ps.flatten, v ≠ w → ¬ InLine obs v w) (hroom : Roomy ps)
    (R : Ranked ps obs) (h : Setup ps m segs look) (ho : obs.Per)
    (hlon : obs.lon < 540000001) (hres : ∀ a b, CornerOf ps a obs b → CornerResolved a obs b)
    (half : Bool) :
    ∃ raw : List Coord, raw.Pairwise (SweepBefore obs) ∧
      List.Forall₂ ReportOf raw (visible look m segs obs half) ∧
      ∀ v, v ∈ raw ↔ v ∈ ps.flatten ∧ v ≠ obs ∧
        (∀ a b, CornerOf ps a obs b → ¬ InsideCorner a obs b v) ∧
        (∀ e, Nearest ps obs v e → ¬ Crosses obs v e) ∧ (half = true → obs.lat ≤ v.lat) :=
  ⟨scanRaw look m obs (vertices m) segs half,
    (sort_sorted ho h.per h.mapOf.nodup).sublist (scan_sublist look m segs half).1, report_all _,
    scan_iff m segs look ⟨hnd, hlen⟩ hoff hlin hroom R h ho hlon hres half⟩

/-- **C91** The full scan is right, reporting each vertex that is seen once and no other, just if
every vertex behind an edge and not inside the observer's own corner is behind the edge met
nearest. -/
theorem C91_right (m : VisMap) (segs : List Seg) (look : Seg → Seg → Bool) (hnd : ps.flatten.Nodup)
    (hlen : ∀ p ∈ ps, 3 ≤ p.length)
    (hoff : ∀ s, EdgeOf ps s → obs ≠ s.p → obs ≠ s.q → ¬ OnSeg s obs.lon obs.lat)
    (hlin : ∀ v ∈ ps.flatten, ∀ w ∈ ps.flatten, v ≠ w → ¬ InLine obs v w) (hroom : Roomy ps)
    (R : Ranked ps obs) (h : Setup ps m segs look) (ho : obs.Per)
    (hlon : obs.lon < 540000001) (hres : ∀ a b, CornerOf ps a obs b → CornerResolved a obs b) :
    (∃ raw : List Coord, raw.Nodup ∧ List.Forall₂ ReportOf raw (visible look m segs obs false) ∧
      ∀ v, v ∈ raw ↔ v ∈ ps.flatten ∧ v ≠ obs ∧ Sees ps obs v) ↔
    ∀ v ∈ ps.flatten, ∀ s, EdgeOf ps s → Crosses obs v s →
      (∃ a b, CornerOf ps a obs b ∧ InsideCorner a obs b v) ∨
        ∃ e, Nearest ps obs v e ∧ Crosses obs v e := by
  have hS : Simple ps := ⟨hnd, hlen⟩
  have hiff := scan_iff m segs look hS hoff hlin hroom R h ho hlon hres false
  have hrn : (scanRaw look m obs (vertices m) segs false).Nodup :=
    ((sort_perm obs (vertices m)).nodup_iff.2 h.mapOf.nodup).sublist (scan_sublist look m segs false).1
  have hcross : ∀ {v s}, EdgeOf ps s → Crosses obs v s → v ≠ obs := by
    rintro v s - hc rfl
    have := hc.1
    unfold area2 at this; simp at this
  have sees : ∀ {v}, v ∈ ps.flatten → v ≠ obs → (Sees ps obs v ↔
      (∀ a b, CornerOf ps a obs b → ¬ InsideCorner a obs b v) ∧ ∀ s, EdgeOf ps s → ¬ Crosses obs v s) := by
    intro v hv hv0
    constructor
    · rintro ⟨h1, h2⟩
      refine ⟨fun a b => not_inside hS hres h.mapOf (barrier_of_allows h.mapOf h2) a b, fun s hs hc => ?_⟩
      have hb := (crosses_facing hc).1
      obtain ⟨x, y, hx, hy⟩ := crosses_meets hc
      obtain ⟨rfl, rfl⟩ := h1 s hs hb.ne.1 hb.ne.2 x y hx hy
      obtain ⟨t, -, -, e1, e2⟩ := hx
      have : ((area2 s.p s.q v : ℤ) : ℚ) = 0 := by
        unfold area2
        push_cast
        rw [e1, e2]
        ring
      have h0 : area2 s.p s.q v = 0 := by exact_mod_cast this
      have := hc.2
      rw [h0] at this
      simp at this
    · rintro ⟨h1, h2⟩
      exact ⟨fun s hs n1 n2 => sight_clear hoff (fun w hw hne hl _ => hlin v hv w hw hne.symm hl) hv0 s hs (h2 s hs) n1 n2,
        corner_allows (fun w hw hne hl _ => hlin v hv w hw hne.symm hl) hres hv0 h1⟩
  constructor
  · rintro ⟨raw, hn, hR, hmem⟩ v hv s hs hc
    by_contra hcon
    push Not at hcon
    obtain ⟨hcon1, hcon2⟩ := hcon
    have hlen' : raw.length = (scanRaw look m obs (vertices m) segs false).length := by
      have := hR.length_eq
      unfold visible scan at this
      rw [this, List.length_map]
    have hsub : raw ⊆ scanRaw look m obs (vertices m) segs false := by
      intro w hw
      obtain ⟨hw1, hw2, hw3⟩ := (hmem w).1 hw
      obtain ⟨k1, k2⟩ := (sees hw1 hw2).1 hw3
      exact (hiff w).2 ⟨hw1, hw2, k1, fun e he => k2 e he.1.1, by simp⟩
    have hp := (List.subperm_of_subset hn hsub).perm_of_length_le hlen'.ge
    have hin : v ∈ raw := hp.mem_iff.2 ((hiff v).2 ⟨hv, hcross hs hc, hcon1, hcon2, by simp⟩)
    obtain ⟨hw1, hw2, hw3⟩ := (hmem v).1 hin
    exact ((sees hw1 hw2).1 hw3).2 s hs hc
  · intro hall
    refine ⟨_, hrn, report_all _, fun v => ?_⟩
    rw [hiff]
    constructor
    · rintro ⟨h1, h2, h3, h4, -⟩
      refine ⟨h1, h2, (sees h1 h2).2 ⟨h3, fun s hs hc => ?_⟩⟩
      rcases hall v h1 s hs hc with ⟨a, b, hab, hin⟩ | ⟨e, he, hce⟩
      · exact h3 a b hab hin
      · exact h4 e he hce
    · rintro ⟨h1, h2, h3⟩
      obtain ⟨k1, k2⟩ := (sees h1 h2).1 h3
      exact ⟨h1, h2, k1, fun e he => k2 e he.1.1, by simp⟩

open Visgraph

variable {T : ℕ → Polygon.SumTree}

/-- The hypotheses on a map: no vertices in common, and from every vertex no two in line, room around
all of them and all edges met at different distances, copies included. -/
structure Surveyed (T : ℕ → Polygon.SumTree) (ps : List (List Coord)) : Prop where
  nodup : ps.flatten.Nodup
  size : ∀ p ∈ ps, 3 ≤ p.length
  geo : ∀ v ∈ ps.flatten, v.Geo
  stable : ∀ p ∈ ps, Stable T p
  off : ∀ v ∈ ps.flatten, ∀ s, EdgeOf (polygonsPeriodic T ps) s → v ≠ s.p → v ≠ s.q →
    ¬ OnSeg s v.lon v.lat
  line : ∀ c ∈ ps.flatten, ∀ v ∈ (polygonsPeriodic T ps).flatten, ∀ w ∈ (polygonsPeriodic T ps).flatten,
    v ≠ w → ¬ InLine c v w
  roomy : Roomy (polygonsPeriodic T ps)
  ranked : ∀ v ∈ ps.flatten, Ranked (polygonsPeriodic T ps) v
  corners : ∀ v ∈ ps.flatten, ∀ a b, CornerOf (polygonsPeriodic T ps) a v b → CornerResolved a v b

/-- Not inside the observer's own corner and not behind the edge met nearest. -/
def Passed (ps : List (List Coord)) (obs v : Coord) : Prop :=
  (∀ a b, CornerOf ps a obs b → ¬ InsideCorner a obs b v) ∧
    ∀ e, Nearest ps obs v e → ¬ Crosses obs v e

theorem Surveyed.size' (h : Surveyed T ps) : ∀ q ∈ polygonsPeriodic T ps, 3 ≤ q.length := by
  intro q hq
  obtain ⟨p, hp, k, hk, rfl⟩ := mem_polygonsPeriodic.1 hq
  rw [h.stable p hp k hk, List.length_map]
  exact h.size p hp

theorem Surveyed.scan_iff (h : Surveyed T ps) {m : VisMap} {segs : List Seg} {look : Seg → Seg → Bool}
    (hs : Setup (polygonsPeriodic T ps) m segs look) {a b : Coord} (ha : a ∈ ps.flatten)
    (hab : a ≠ b) (o : Bool) :
    (b, o) ∈ visible look m segs a true ↔ b ∈ ps.flatten ∧ a.lat ≤ b.lat ∧
      ∃ k, IsCopy k ∧ (o = true ↔ k ≠ 0) ∧ Passed (polygonsPeriodic T ps) a (b.shift k) := by
  have hag := h.geo a ha
  have hne : ∀ (b : Coord) (k : ℤ), b ∈ ps.flatten → a ≠ b → b.shift k ≠ a := by
    intro b k hb hab e
    apply hab
    have hbg := h.geo b hb
    cases a; cases b
    simp only [Coord.shift, Coord.Geo, Coord.mk.injEq] at *
    omega
  have hiff := Capi.scan_iff m segs look ⟨periodic_nodup h.nodup h.geo h.stable, h.size'⟩ (h.off a ha)
    (h.line a ha) h.roomy (h.ranked a ha) hs (geo_per hag) (by unfold Coord.Geo at hag; omega)
    (h.corners a ha) true
  unfold visible scan
  rw [List.mem_map]
  constructor
  · rintro ⟨w, hw, e⟩
    obtain ⟨h1, h2, h3, h4, h5⟩ := (hiff w).1 hw
    obtain ⟨v, hv, k, hk, rfl⟩ := periodic_vertex h1
    have hR := reportOf_report (v.shift k)
    rw [e] at hR
    obtain ⟨rfl, e'⟩ := reportOf_shift (h.geo v hv) hR
    exact ⟨hv, h5 rfl, k, hk, e', h3, h4⟩
  · rintro ⟨hb, hl, k, hk, ho, h3, h4⟩
    exact ⟨b.shift k, (hiff _).2 ⟨stable_vertex h.stable hb hk, hne b k hb hab, h3, h4, fun _ => hl⟩,
      reportOf_unique (reportOf_report _) ((reportOf_copy (h.geo b hb) o).2 ho)⟩

/-- **C91** The generated graph joins two vertices just if a copy of one passes the test from the
other, seen northward or level, and marks the connections without a direct one. -/
theorem C91_graph (h : Surveyed T ps) (scanner : Coord → Res (List (Coord × Bool)))
    (hs : IsScanner T ps scanner) (order : List Coord → List Coord) (ho : ∀ l, (order l).Perm l) :
    ∃ g, generate ps scanner order = .ok g ∧ ∀ a b,
      (g.hasEdge a b = .ok true ↔ a ≠ b ∧ a ∈ ps.flatten ∧ b ∈ ps.flatten ∧
        ∃ k, IsCopy k ∧ (a.lat ≤ b.lat ∧ Passed (polygonsPeriodic T ps) a (b.shift k) ∨
          b.lat ≤ a.lat ∧ Passed (polygonsPeriodic T ps) b (a.shift k))) ∧
      (g.isCrossing a b = .ok true ↔ g.hasEdge a b = .ok true ∧
        ¬ (a.lat ≤ b.lat ∧ Passed (polygonsPeriodic T ps) a b) ∧
        ¬ (b.lat ≤ a.lat ∧ Passed (polygonsPeriodic T ps) b a)) := by
  obtain ⟨g, f, h1, h2, -, -, -, h3⟩ := C38_edges T ps h.geo scanner hs order ho
  obtain ⟨f', h4, -, h5⟩ := hs.answers h.geo
  have hf : ∀ a ∈ ps.flatten, ∀ b, a ≠ b → ∀ o, (b, o) ∈ f a ↔ b ∈ ps.flatten ∧ a.lat ≤ b.lat ∧
      ∃ k, IsCopy k ∧ (o = true ↔ k ≠ 0) ∧ Passed (polygonsPeriodic T ps) a (b.shift k) := by
    intro a ha b hab o
    have e : f a = f' a := by
      have := h2 a ha
      rw [h4 a ha] at this
      exact (Except.ok.inj this).symm
    obtain ⟨m, segs, look, hset, hv⟩ := h5 a ha
    rw [e, hv]
    exact h.scan_iff hset ha hab o
  have edge : ∀ a b, (g.hasEdge a b = .ok true ↔ a ≠ b ∧ a ∈ ps.flatten ∧ b ∈ ps.flatten ∧
      ∃ k, IsCopy k ∧ (a.lat ≤ b.lat ∧ Passed (polygonsPeriodic T ps) a (b.shift k) ∨
        b.lat ≤ a.lat ∧ Passed (polygonsPeriodic T ps) b (a.shift k))) := by
    intro a b
    rw [(h3 a b).1]
    refine and_congr_right fun hab => and_congr_right fun ha => and_congr_right fun hb => ?_
    constructor
    · rintro ⟨o, ho | ho⟩
      · obtain ⟨-, hl, k, hk, -, hp⟩ := (hf a ha b hab o).1 ho
        exact ⟨k, hk, Or.inl ⟨hl, hp⟩⟩
      · obtain ⟨-, hl, k, hk, -, hp⟩ := (hf b hb a hab.symm o).1 ho
        exact ⟨k, hk, Or.inr ⟨hl, hp⟩⟩
    · rintro ⟨k, hk, ⟨hl, hp⟩ | ⟨hl, hp⟩⟩
      · exact ⟨decide (k ≠ 0), Or.inl ((hf a ha b hab _).2 ⟨hb, hl, k, hk, by simp, hp⟩)⟩
      · exact ⟨decide (k ≠ 0), Or.inr ((hf b hb a hab.symm _).2 ⟨ha, hl, k, hk, by simp, hp⟩)⟩
  refine ⟨g, h1, fun a b => ⟨edge a b, ?_⟩⟩
  have plain : ∀ {a b : Coord}, a ≠ b → a ∈ ps.flatten → b ∈ ps.flatten →
      ((b, false) ∈ f a ↔ a.lat ≤ b.lat ∧ Passed (polygonsPeriodic T ps) a b) := by
    intro a b hab ha hb
    rw [hf a ha b hab false]
    constructor
    · rintro ⟨-, hl, k, -, hk, hp⟩
      obtain rfl : k = 0 := by simpa using hk
      rw [shift_zero] at hp
      exact ⟨hl, hp⟩
    · rintro ⟨hl, hp⟩
      exact ⟨hb, hl, 0, Or.inl rfl, by simp, by rwa [shift_zero]⟩
  rw [(h3 a b).2.1]
  refine and_congr_right fun he => ?_
  obtain ⟨hab, ha, hb, -⟩ := (edge a b).1 he
  rw [plain hab ha hb, plain hab.symm hb ha]

end

/-! ### A hidden vertex that is reported, and one that is not -/

/-- Three islands north-east of the observer. -/
def exSkerries : List (List Coord) :=
  [[⟨1000, -100⟩, ⟨990, -80⟩, ⟨100, 300⟩], [⟨600, 100⟩, ⟨700, 680⟩, ⟨600, 700⟩],
    [⟨400, 400⟩, ⟨420, 450⟩, ⟨400, 450⟩]]

theorem exSkerries_simple : Simple exSkerries := ⟨by decide, by decide⟩

theorem exSkerries_off : ∀ s, EdgeOf exSkerries s → (⟨0, 0⟩ : Coord) ≠ s.p → (⟨0, 0⟩ : Coord) ≠ s.q →
    ¬ OnSeg s ((⟨0, 0⟩ : Coord).lon : ℚ) ((⟨0, 0⟩ : Coord).lat : ℚ) := fun s hs _ _ =>
  OffEdge.not_on ((by decide : ∀ s ∈ edgeList exSkerries, OffEdge s ⟨0, 0⟩) s (mem_edgeList.2 hs))

theorem exSkerries_line : ∀ v ∈ exSkerries.flatten, ∀ w ∈ exSkerries.flatten, v ≠ w →
    ¬ InLine ⟨0, 0⟩ v w := by decide

theorem exSkerries_roomy : Roomy exSkerries := RoomyBy.roomy (by decide)

theorem exSkerries_ranked : Ranked exSkerries ⟨0, 0⟩ := RankedBy.ranked (by decide) exSkerries_simple

theorem exSkerries_corner : ∀ a b, ¬ CornerOf exSkerries a ⟨0, 0⟩ b := fun _ _ h =>
  absurd (corner_mem h).2.1 (by decide)

/-- The edge met nearest on the way to the third island is one of the second. -/
theorem exSkerries_nearest {e : Seg} (h : Nearest exSkerries ⟨0, 0⟩ ⟨400, 400⟩ e) :
    e = ⟨⟨600, 700⟩, ⟨600, 100⟩⟩ := by
  by_contra hne
  have hl : Listed exSkerries ⟨0, 0⟩ ⟨400, 400⟩ ⟨⟨600, 700⟩, ⟨600, 100⟩⟩ := by decide
  have := (by decide : ∀ e ∈ edgeList exSkerries, e ≠ ⟨⟨600, 700⟩, ⟨600, 100⟩⟩ →
    Listed exSkerries ⟨0, 0⟩ ⟨400, 400⟩ e → NotNearer ⟨0, 0⟩ ⟨400, 400⟩ ⟨⟨600, 700⟩, ⟨600, 100⟩⟩ e) e
    (mem_edgeList.2 h.1.1) hne h.1
  exact not_nearest hl (by decide) (Ne.symm hne) this h

/-- **C91** (false) With every hypothesis met the scan need not be right: on this map it reports a
vertex of the third island, which is behind the first. -/
theorem C91_always_false : ¬ ∀ (ps : List (List Coord)) (obs : Coord) (m : VisMap) (segs : List Seg)
    (look : Seg → Seg → Bool), ps.flatten.Nodup → (∀ p ∈ ps, 3 ≤ p.length) →
    (∀ s, EdgeOf ps s → obs ≠ s.p → obs ≠ s.q → ¬ OnSeg s obs.lon obs.lat) →
    (∀ v ∈ ps.flatten, ∀ w ∈ ps.flatten, v ≠ w → ¬ InLine obs v w) → Roomy ps → Ranked ps obs →
    Setup ps m segs look → obs.Geo → (∀ a b, CornerOf ps a obs b → CornerResolved a obs b) →
    ∃ raw : List Coord, raw.Nodup ∧ List.Forall₂ ReportOf raw (visible look m segs obs false) ∧
      ∀ v, v ∈ raw ↔ v ∈ ps.flatten ∧ v ≠ obs ∧ Sees ps obs v := by
  intro hall
  have hset := setup_self exSkerries (by decide)
  have := hall exSkerries ⟨0, 0⟩ _ _ _ exSkerries_simple.nodup exSkerries_simple.len exSkerries_off exSkerries_line
    exSkerries_roomy exSkerries_ranked hset (by decide) (fun a b h => absurd h (exSkerries_corner a b))
  rw [C91_right _ _ _ exSkerries_simple.nodup exSkerries_simple.len exSkerries_off exSkerries_line
    exSkerries_roomy exSkerries_ranked hset (by decide) (by decide)
    (fun a b h => absurd h (exSkerries_corner a b))] at this
  rcases this ⟨400, 400⟩ (by decide) ⟨⟨100, 300⟩, ⟨1000, -100⟩⟩
    ⟨_, List.mem_cons_self, 2, by decide, by decide⟩ (by decide) with ⟨a, b, h, -⟩ | ⟨e, he, hc⟩
  · exact exSkerries_corner a b h
  · rw [exSkerries_nearest he] at hc
    exact absurd hc (by decide)

theorem exHarbour_surveyed : Surveyed Polygon.SumTree.sequential exHarbour := by
  have key : ∀ v ∈ exHarbour.flatten,
      RankedBy (polygonsPeriodic Polygon.SumTree.sequential exHarbour) v := by
    decide +kernel
  have lines : ∀ o ∈ exHarbour.flatten,
      ∀ v ∈ (polygonsPeriodic Polygon.SumTree.sequential exHarbour).flatten,
      ∀ w ∈ (polygonsPeriodic Polygon.SumTree.sequential exHarbour).flatten,
      v ≠ w → ¬ InLine o v w := by
    decide +kernel
  have C := exHarbour_charted
  exact ⟨C.nodup, fun p hp => (C.simple p hp).size, C.geo, C.stable, fun v hv => (C.legible v hv).off,
    fun v hv => lines v hv, RoomyBy.roomy (by decide +kernel),
    fun v hv => (key v hv).ranked ⟨periodic_nodup C.nodup C.geo C.stable, C.size'⟩,
    fun v _ a b => C.corners' a v b⟩

/-- Of the same map the scan does not report the far corner of the second island, behind the edge
met nearest. -/
example : Nearest exSkerries ⟨0, 0⟩ ⟨700, 680⟩ ⟨⟨600, 700⟩, ⟨600, 100⟩⟩ ∧
    Crosses ⟨0, 0⟩ ⟨700, 680⟩ ⟨⟨600, 700⟩, ⟨600, 100⟩⟩ := by
  refine ⟨⟨by decide, fun s hs hne k K hk hK => ?_⟩, by decide⟩
  have hl : Listed exSkerries ⟨0, 0⟩ ⟨700, 680⟩ ⟨⟨600, 700⟩, ⟨600, 100⟩⟩ := by decide
  have hv : (⟨700, 680⟩ : Coord) ∈ exSkerries.flatten := by decide
  have hn := (by decide : ∀ e ∈ edgeList exSkerries, e ≠ ⟨⟨600, 700⟩, ⟨600, 100⟩⟩ →
    Listed exSkerries ⟨0, 0⟩ ⟨700, 680⟩ e → NotNearer ⟨0, 0⟩ ⟨700, 680⟩ ⟨⟨600, 700⟩, ⟨600, 100⟩⟩ e) s
    (mem_edgeList.2 hs.1) hne hs
  have hle := hn.le_key hk.key hK.key
  rcases exSkerries_ranked.apart _ hv (by decide) s _ hs hl hne with h | h
  · have := h _ _ hk hK; omega
  · exact h _ _ hk hK

end Capi
