import Verif.Lemmas.Vistree
import Verif.Props.Periodicity
import Verif.Props.Polyline

/-!
# C33–C37: the visibility scan

`m` is the map of vertices to incident edges in any iteration order, `segs` the list of all edges
in any order, `look` any behaviour of the hash table of open edges.
-/

namespace Capi

open Vistree

/-- The data a generator built from `ps` works with. -/
structure Setup (ps : List (List Coord)) (m : VisMap) (segs : List Seg)
    (look : Seg → Seg → Bool) : Prop where
  map : m.Perm (ofPolygons ps)
  segs : segs.Perm (segments m)
  look : LookOk look
  range : ∀ v ∈ ps.flatten, v.Per

/-- What is returned for the obstacle vertex `v`. -/
def ReportOf (v : Coord) (x : Coord × Bool) : Prop :=
  SamePeriodicPoint x.1 v ∧ -180000000 ≤ x.1.lon ∧ x.1.lon ≤ 180000000 ∧
    (x.2 = true ↔ v.lon < -180000000 ∨ 180000000 < v.lon)

theorem reportOf_report (v : Coord) : ReportOf v (report v) := by
  refine ⟨⟨rfl, -((v.lon - minLon) / period), ?_⟩, (normalize_range v).1, (normalize_range v).2, ?_⟩
  · simp only [report, normalize, minLon, period]; omega
  · simp only [report, overMeridian, Bool.or_eq_true, decide_eq_true_eq]
    rfl

theorem Setup.mapOf {ps : List (List Coord)} {m : VisMap} {segs : List Seg}
    {look : Seg → Seg → Bool} (h : Setup ps m segs look) : MapOf ps m := ⟨h.map⟩

theorem Setup.per {ps : List (List Coord)} {m : VisMap} {segs : List Seg}
    {look : Seg → Seg → Bool} (h : Setup ps m segs look) : ∀ v ∈ vertices m, v.Per :=
  fun v hv => h.range v ((h.mapOf.keys v).1 hv)

theorem Setup.walls {ps : List (List Coord)} {m : VisMap} {segs : List Seg}
    {look : Seg → Seg → Bool} (h : Setup ps m segs look) {obs : Coord} :
    AllOpen (Wall ps obs) (initialOpen look obs segs) :=
  initial_walls fun _ hs => h.mapOf.segs (h.segs.mem_iff.1 hs)

/-- A square, for the examples. -/
def exSquare : List Coord := [⟨0, 0⟩, ⟨10, 0⟩, ⟨10, 10⟩, ⟨0, 10⟩]

/-- Lookup by exact equality. -/
def exLook : Seg → Seg → Bool := fun s t => decide (s = t)

theorem exLook_ok : LookOk exLook := by
  refine ⟨fun s => by simp [exLook], fun s t h => ?_⟩
  have : s = t := by simpa [exLook] using h
  subst this
  simp [Seg.sameAs]

/-- The generator with its own iteration order. -/
theorem setup_self (ps : List (List Coord)) (h : ∀ v ∈ ps.flatten, v.Per) :
    Setup ps (ofPolygons ps) (segments (ofPolygons ps)) exLook :=
  ⟨List.Perm.refl _, List.Perm.refl _, exLook_ok, h⟩

example : Setup [exSquare] (ofPolygons [exSquare]) (segments (ofPolygons [exSquare])) exLook :=
  setup_self _ (by decide)

/-- **C33** The answer lists, for obstacle vertices other than the observer, each at most once,
the in-range form and whether the vertex is out of range. -/
theorem C33_reported (ps : List (List Coord)) (m : VisMap) (segs : List Seg)
    (look : Seg → Seg → Bool) (h : Setup ps m segs look) (obs : Coord) (half : Bool) :
    ∃ raw : List Coord, raw.Nodup ∧ (∀ v ∈ raw, v ∈ ps.flatten ∧ v ≠ obs) ∧
      List.Forall₂ ReportOf raw (visible look m segs obs half) := by
  have hraw : ∀ raw : List Coord, List.Forall₂ ReportOf raw (raw.map report) := by
    intro raw
    induction raw with
    | nil => exact .nil
    | cons v r ih => exact .cons (reportOf_report v) ih
  refine ⟨scanRaw look m obs (vertices m) segs half, ?_, ?_, hraw _⟩
  · unfold scanRaw
    split_ifs
    · exact List.nodup_nil
    · refine (loop_sublist _ _ _ _ _ _).1.nodup ?_
      exact (sort_perm obs (vertices m)).nodup_iff.2 h.mapOf.nodup
  · intro v hv
    unfold scanRaw at hv
    split_ifs at hv
    · simp at hv
    · have hs := loop_sublist look m obs half (AngleSorter.sort obs (vertices m))
        (initialOpen look obs segs)
      exact ⟨(h.mapOf.keys v).1 ((sort_perm obs _).subset (hs.1.subset hv)), fun e => hs.2 (e ▸ hv)⟩

example : visible exLook (ofPolygons [exSquare]) (segments (ofPolygons [exSquare])) ⟨-5, 5⟩ false =
    [(⟨0, 10⟩, false), (⟨0, 0⟩, false)] := by decide +kernel

/-- The corner of the observer, if it is an obstacle vertex, is not degenerate and does not
hide `v`. -/
def CornerAllows (ps : List (List Coord)) (obs v : Coord) : Prop :=
  ∀ a b, CornerOf ps a obs b → CornerResolved a obs b ∧
    (OutsideCorner a obs b v ∨ ∃ k : ℚ, 0 < k ∧ k ≤ 1 ∧ (OnRay obs a v k ∨ OnRay obs b v k))

theorem barrier_of_allows {ps : List (List Coord)} {m : VisMap} (hm : MapOf ps m) {obs v : Coord}
    (h : CornerAllows ps obs v) : barrier m obs v = true := by
  unfold barrier
  by_cases ho : obs ∈ ps.flatten
  · obtain ⟨a, b, hc, hg⟩ := hm.get ho
    rw [hg]
    obtain ⟨hr, h1 | ⟨k, hk0, hk1, hon⟩⟩ := h a b hc
    · exact (C16_corner_partial a obs b v hr).2 h1
    · exact (C16_along_edges a obs b v hr k hk0 hon).1 (by linarith)
  · rw [hm.get_none ho]

/-- Vertices in clear view are kept by the sweep. -/
theorem clear_kept (ps : List (List Coord)) (m : VisMap) (segs : List Seg)
    (look : Seg → Seg → Bool) (h : Setup ps m segs look) (obs v : Coord) (ho : obs.Per)
    (hv : v ∈ ps.flatten) (hne : v ≠ obs)
    (hclear : ∀ s, EdgeOf ps s → obs ≠ s.p → obs ≠ s.q → Clear obs v s)
    (hcorner : CornerAllows ps obs v) (half : Bool)
    (hhalf : half = true → obs.lon < 540000001 ∧ obs.lat ≤ v.lat) :
    v ∈ scanRaw look m obs (vertices m) segs half := by
  unfold scanRaw
  have hk := (h.mapOf.keys v).2 hv
  have hmne : m.isEmpty = false := by
    cases m with
    | nil => simp [vertices] at hk
    | cons a r => rfl
  rw [hmne]
  simp only [Bool.false_eq_true, if_false]
  have hin : v ∈ loop look m obs false (AngleSorter.sort obs (vertices m))
      (initialOpen look obs segs) := by
    refine loop_complete h.mapOf hne (fun o hw => ?_) _ ((sort_perm obs _).symm.subset hk) _ h.walls
    unfold isVisible
    rw [barrier_of_allows h.mapOf hcorner, (bne_iff_ne).2 hne]
    simp only [Bool.true_and]
    unfold unblocked
    cases hcl : o.closest with
    | none => rfl
    | some e =>
      have he : Wall ps obs e := by
        unfold OpenEdges.closest at hcl
        cases hb : o.byDist with
        | nil => rw [hb] at hcl; simp at hcl
        | cons x r =>
          rw [hb] at hcl
          simp only [List.head?_cons, Option.map_some, Option.some.injEq] at hcl
          rw [← hcl]
          exact hw x (by rw [hb]; simp)
      have hm := edge_mem he.1
      rcases unblocked_of_clear ho (h.range v hv) (h.range _ hm.1) (h.range _ hm.2) he.2.1 he.2.2
        (hclear e he.1 he.2.1 he.2.2) with hi | hi
      · simp only [hi]
      · simp only [hi, beq_self_eq_true]
  cases half with
  | false => exact hin
  | true =>
    obtain ⟨h1, h2⟩ := hhalf rfl
    rw [loop_half _ _ _ _ (sorted_below ho h1 h.per h.mapOf.nodup), List.mem_filter]
    refine ⟨hin, ?_⟩
    rw [Bool.not_eq_true', ← Bool.not_eq_true, below_iff h1]
    omega

/-- **C34** An obstacle vertex whose sight line has no point but itself in common with any edge
not ending at the observer, and that is not behind the observer's own corner, is reported by the
full scan, and by the half scan if it is not south of the observer. -/
theorem C34_clear_is_reported (ps : List (List Coord)) (m : VisMap) (segs : List Seg)
    (look : Seg → Seg → Bool) (h : Setup ps m segs look) (obs v : Coord) (ho : obs.Per)
    (hv : v ∈ ps.flatten) (hne : v ≠ obs)
    (hclear : ∀ s, EdgeOf ps s → obs ≠ s.p → obs ≠ s.q → Clear obs v s)
    (hcorner : CornerAllows ps obs v) (half : Bool)
    (hhalf : half = true → obs.lon < 540000001 ∧ obs.lat ≤ v.lat) :
    ∃ x ∈ visible look m segs obs half, ReportOf v x :=
  ⟨report v, List.mem_map_of_mem (clear_kept ps m segs look h obs v ho hv hne hclear hcorner half
    hhalf), reportOf_report v⟩

example : (∀ s, EdgeOf [exSquare] s → Clear ⟨-5, 5⟩ ⟨0, 0⟩ s) ∧
    CornerAllows [exSquare] ⟨-5, 5⟩ ⟨0, 0⟩ := by
  constructor
  · rintro s ⟨p, hp, i, hi, rfl⟩ x y ⟨t, t0, t1, hx, hy⟩ ⟨u, u0, u1, hx', hy'⟩
    rw [List.mem_singleton] at hp
    subst hp
    have hx0 : 0 ≤ x := by
      have : i = 0 ∨ i = 1 ∨ i = 2 ∨ i = 3 := by
        have : exSquare.length = 4 := rfl
        omega
      rcases this with rfl | rfl | rfl | rfl <;> norm_num [ringAt, exSquare] at hx <;> linarith
    norm_num at hx' hy'
    simp only [Int.cast_zero]
    constructor <;> linarith
  · rintro a b ⟨p, hp, i, hi, -, hv, -⟩
    have hm : (⟨-5, 5⟩ : Coord) ∈ exSquare := by
      rw [List.mem_singleton] at hp
      subst hp
      rw [hv]
      exact Vistree.ringAt_mem (by decide)
    exact absurd hm (by decide)

example : CornerResolved ⟨0, 10⟩ ⟨0, 0⟩ ⟨10, 0⟩ ∧ OnRay ⟨0, 0⟩ ⟨10, 0⟩ ⟨10, 0⟩ 1 :=
  ⟨by decide, by norm_num [OnRay]⟩

/-- **C36** The half scan returns the full scan's answer cut off where it passes south of the
observer: one list of vertices, all of them for the full scan, those not south for the half. -/
theorem C36_half (ps : List (List Coord)) (m : VisMap) (segs : List Seg)
    (look : Seg → Seg → Bool) (h : Setup ps m segs look) (obs : Coord) (ho : obs.Per)
    (hlon : obs.lon < 540000001) :
    visible look m segs obs true =
      (visible look m segs obs false).filter (fun x => decide (obs.lat ≤ x.1.lat)) ∧
    ∃ north south, visible look m segs obs false = north ++ south ∧
      visible look m segs obs true = north ∧ ∀ x ∈ south, x.1.lat < obs.lat := by
  have hs := sorted_below ho hlon h.per h.mapOf.nodup
  have key : visible look m segs obs true =
      (visible look m segs obs false).filter (fun x => decide (obs.lat ≤ x.1.lat)) := by
    unfold visible scan scanRaw
    cases m.isEmpty with
    | true => rfl
    | false =>
      simp only [Bool.false_eq_true, if_false]
      rw [loop_half _ _ _ _ hs, List.filter_map]
      congr 1
      refine List.filter_congr fun v _ => ?_
      have hb := below_iff (v := v) hlon
      have e : (report v).1.lat = v.lat := rfl
      rw [Function.comp_apply, e]
      cases hbv : below obs v with
      | true =>
        have := hb.1 hbv
        simp only [Bool.not_true]
        rw [eq_comm, decide_eq_false_iff_not]; omega
      | false =>
        have : ¬ v.lat < obs.lat := fun hc => by rw [hb.2 hc] at hbv; simp at hbv
        simp only [Bool.not_false]
        rw [eq_comm, decide_eq_true_eq]; omega
  refine ⟨key, ?_⟩
  have hpair : (visible look m segs obs false).Pairwise
      fun x y => x.1.lat < obs.lat → y.1.lat < obs.lat := by
    unfold visible scan scanRaw
    split_ifs
    · exact List.Pairwise.nil
    · rw [List.pairwise_map]
      have hl := loop_sublist look m obs false (AngleSorter.sort obs (vertices m))
        (initialOpen look obs segs)
      have := (hs.sublist hl.1)
      refine List.Pairwise.imp_of_mem ?_ this
      intro a b ha hb hab h1
      have h2 := hab (fun e => hl.2 (e ▸ ha)) (fun e => hl.2 (e ▸ hb)) ((below_iff hlon).2 h1)
      exact (below_iff (v := b) hlon).1 h2
  refine ⟨_, (visible look m segs obs false).filter (fun x => !decide (obs.lat ≤ x.1.lat)), ?_,
    key, ?_⟩
  · generalize visible look m segs obs false = l at hpair
    induction l with
    | nil => rfl
    | cons x r ih =>
      rw [List.pairwise_cons] at hpair
      by_cases hx : obs.lat ≤ x.1.lat
      · rw [List.filter_cons_of_pos (by simpa using hx), List.filter_cons_of_neg (by simpa using hx),
          List.cons_append, ← ih hpair.2]
      · have hall : ∀ y ∈ r, y.1.lat < obs.lat := fun y hy => hpair.1 y hy (by omega)
        rw [List.filter_cons_of_neg (by simpa using hx), List.filter_cons_of_pos (by simpa using hx)]
        have e1 : r.filter (fun x => decide (obs.lat ≤ x.1.lat)) = [] := by
          rw [List.filter_eq_nil_iff]
          intro y hy; have := hall y hy; simp; omega
        have e2 : r.filter (fun x => !decide (obs.lat ≤ x.1.lat)) = r := by
          rw [List.filter_eq_self]
          intro y hy; have := hall y hy; simp; omega
        rw [e1, e2]; rfl
  · intro x hx
    have := (List.mem_filter.1 hx).2
    rw [Bool.not_eq_true', decide_eq_false_iff_not] at this
    omega

example : visible exLook (ofPolygons [exSquare]) (segments (ofPolygons [exSquare])) ⟨-5, 5⟩ true =
    [(⟨0, 10⟩, false)] := by decide +kernel

/-- **C37** No comparison of the sort overflows, and the form with all checks agrees with the plain
one. -/
theorem C37_compare (obs a b : Coord) (ho : obs.Per) (ha : a.Per) (hb : b.Per) :
    lessC obs a b = .ok (AngleSorter.less obs a b) := lessC_eq ho ha hb

/-- Non-vacuity: both answers occur, from the far corners of the range. -/
example : (⟨-540000000, -90000000⟩ : Coord).Per ∧
    lessC ⟨-540000000, -90000000⟩ ⟨540000000, 0⟩ ⟨540000000, 90000000⟩ = .ok true ∧
    lessC ⟨-540000000, -90000000⟩ ⟨540000000, 90000000⟩ ⟨540000000, 0⟩ = .ok false := by
  refine ⟨?_, by decide +kernel, by decide +kernel⟩
  unfold Coord.Per
  decide +kernel

/-- A difference can leave the range outside those limits. -/
example : lessC ⟨-2147483648, 0⟩ ⟨2147483647, 0⟩ ⟨0, 1⟩ = .error .ub := by decide +kernel

/-- **C37** The scan neither overflows nor throws nor reads outside a container, and the form
with all checks returns the answer of the plain form; also for polygons with repeated or few
vertices, and for observers on obstacles. -/
theorem C37_safe (ps : List (List Coord)) (m : VisMap) (segs : List Seg)
    (look : Seg → Seg → Bool) (h : Setup ps m segs look) (obs : Coord) (ho : obs.Per)
    (half : Bool) :
    scanC look m obs (vertices m) segs half = .ok (visible look m segs obs half) := by
  unfold scanC visible scan scanRaw
  cases m.isEmpty with
  | true => rfl
  | false =>
    simp only [Bool.false_eq_true, if_false]
    rw [sortC_ok ho h.per h.mapOf.nodup, scanline_tangentC ho]
    simp only [Res.bind_ok]
    rw [initialOpenC_ok ho segs (fun s hs => by
      have := edge_mem (h.mapOf.segs (h.segs.mem_iff.1 hs))
      exact ⟨h.range _ this.1, h.range _ this.2⟩)]
    simp only [Res.bind_ok]
    exact loopC_ok h.mapOf h.range ho half _
      (fun v hv => (h.mapOf.keys v).1 ((sort_perm obs _).subset hv)) _ h.walls

end Capi
