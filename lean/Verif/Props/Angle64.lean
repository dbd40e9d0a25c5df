import Verif.Lemmas.Angle64
import Verif.Props.Angle
import Verif.Props.Query
import Verif.Props.Visgraph

/-!
# C71: the scans with the angles the code computes

The theorems about visibility use a model that compares exact angles.  Here the angles are the
doubles of `angle_to_horizontal`, for every `atan2` off by at most one unit in the last place.
-/

namespace Capi

open AngleSorter

/-- **C71** The computed angle of every vector is a double within `2⁻⁴⁹` of its real angle. -/
theorem C71_angle (atan2 : ℚ → ℚ → ℚ) (h : Atan2Ok atan2) (v : Coord) :
    fl (horizontal atan2 v) = horizontal atan2 v ∧
      |(horizontal atan2 v : ℝ) - ccwAngle v| ≤ 1 / 2 ^ 49 :=
  ⟨horizontal_double h v, horizontal_near h v⟩

/-- **C71** Vectors whose directions are equal or more than `2⁻⁴⁷` radians apart are compared right
(see `Apart`). -/
theorem C71_compare (atan2 : ℚ → ℚ → ℚ) (h : Atan2Ok atan2) (obs a b : Coord)
    (hs : Apart (offset obs a) (offset obs b)) : lessAt atan2 obs a b = less obs a b := by
  unfold lessAt less lessWith
  by_cases h1 : a = obs
  · rw [if_pos h1, if_pos h1]
  by_cases h2 : b = obs
  · rw [if_neg h1, if_neg h1, if_pos h2, if_pos h2]
  rw [if_neg h1, if_neg h1, if_neg h2, if_neg h2]
  simp only
  have n1 : a.sub obs ≠ ⟨0, 0⟩ := fun hh => h1 (sub_eq_zero_iff.1 hh)
  have n2 : b.sub obs ≠ ⟨0, 0⟩ := fun hh => h2 (sub_eq_zero_iff.1 hh)
  rw [offset_eq, offset_eq] at hs
  split
  · rename_i hc
    have hcol := (orient_cases (a.sub obs) (b.sub obs)).2.2
    have key := C11_atan2_partial (fun v => (horizontal atan2 v : ℝ)) _ (horizontal_near h)
      (by norm_num) (a.sub obs) (b.sub obs) n1 n2 (by
        rcases apart_gap hs with hz | hd | hg
        · rcases hc with hc | hc
          · exact absurd (hcol.2 (by exact_mod_cast hz)) hc
          · exact .inr hc
        · exact .inr hd
        · exact .inl hg)
    rw [Rat.cast_lt] at key
    by_cases hl : angleLt (a.sub obs) (b.sub obs) = true
    · rw [hl]; exact decide_eq_true (key.2 hl)
    · rw [Bool.not_eq_true] at hl
      rw [hl]
      exact decide_eq_false fun hh => by rw [key.1 hh] at hl; exact absurd hl (by simp)
  · rfl

/-- **C71** For separated vertices `std::sort` is given a strict weak order and can return one list
only, the vertices in sweep order. -/
theorem C71_sort (atan2 : ℚ → ℚ → ℚ) (h : Atan2Ok atan2) (obs : Coord) (vs : List Coord)
    (ho : obs.Per) (hp : ∀ v ∈ vs, v.Per) (hn : vs.Nodup) (hs : Separated obs vs)
    (r : Res (List Coord)) :
    SortsTo atan2 obs vs r ↔ ∃ l, r = .ok l ∧ l.Perm vs ∧ l.Pairwise (SweepBefore obs) := by
  have heq : ∀ a ∈ vs, ∀ b ∈ vs, lessAt atan2 obs a b = less obs a b := fun a ha b hb =>
    C71_compare atan2 h obs a b (hs a ha b hb)
  have hiff : ∀ a ∈ vs, ∀ b ∈ vs, a ≠ b →
      (lessAt atan2 obs a b = true ↔ SweepBefore obs a b) := fun a ha b hb hab => by
    rw [heq a ha b hb, less_iff ho (hp a ha) (hp b hb) hab]
  have hno : ∀ a b, SweepBefore obs a b → ¬ SweepBefore obs b a := fun a b h1 h2 =>
    sweep_irrefl obs a (sweep_trans h1 h2)
  have hw : WeakOrder (lessAt atan2 obs) vs := by
    refine ⟨?_, ?_⟩
    · refine List.Pairwise.imp_of_mem (R := (· ≠ ·)) ?_ hn
      intro a b ha hb hab ⟨h1, h2⟩
      exact hno a b ((hiff a ha b hb hab).1 h1) ((hiff b hb a ha hab.symm).1 h2)
    · intro a ha b hb c hc hab hbc hac
      refine ⟨fun h1 h2 => ?_, fun h1 h2 => ?_⟩
      · rw [hiff a ha c hc hac]
        exact sweep_trans ((hiff a ha b hb hab).1 h1) ((hiff b hb c hc hbc).1 h2)
      · rcases sweep_total (obs := obs) hab with h3 | h3
        · rw [(hiff a ha b hb hab).2 h3] at h1; exact absurd h1 (by simp)
        · rw [(hiff b hb a ha hab.symm).2 h3] at h2; exact absurd h2 (by simp)
  unfold SortsTo
  rw [if_pos ⟨fun a ha b hb => Vistree.lessC_ok ho (hp a ha) (hp b hb), hw⟩]
  refine exists_congr fun l => and_congr_right fun _ => and_congr_right fun hl => ?_
  have hln : l.Nodup := hl.nodup_iff.2 hn
  constructor
  · intro h1
    refine List.Pairwise.imp_of_mem ?_ (h1.and hln)
    rintro a b ha hb ⟨h2, h3⟩
    rcases sweep_total (obs := obs) h3 with h4 | h4
    · exact h4
    · rw [(hiff b (hl.subset hb) a (hl.subset ha) h3.symm).2 h4] at h2
      exact absurd h2 (by simp)
  · intro h1
    refine List.Pairwise.imp_of_mem ?_ (h1.and hln)
    rintro a b ha hb ⟨h2, h3⟩
    cases hc : lessAt atan2 obs b a with
    | false => rfl
    | true => exact absurd ((hiff b (hl.subset hb) a (hl.subset ha) h3.symm).1 hc) (hno a b h2)

/-- **C71** For separated vertices a scan with computed angles is the scan of the model. -/
theorem C71_scan (atan2 : ℚ → ℚ → ℚ) (h : Atan2Ok atan2) (look : Seg → Seg → Bool)
    (m : VisMap) (obs : Coord) (vs : List Coord) (segs : List Seg) (half : Bool)
    (ho : obs.Per) (hp : ∀ v ∈ vs, v.Per) (hn : vs.Nodup) (hs : Separated obs vs)
    (r : Res (List (Coord × Bool))) :
    Vistree.ScanAt atan2 look m obs vs segs half r ↔
      r = Vistree.scanC look m obs vs segs half := by
  unfold Vistree.ScanAt Vistree.scanC
  split
  · rfl
  · rw [Vistree.sortC_ok ho hp hn]
    have hsort : ∀ x, SortsTo atan2 obs vs x ↔ x = .ok (sort obs vs) := by
      intro x
      rw [C71_sort atan2 h obs vs ho hp hn hs]
      constructor
      · rintro ⟨l, rfl, hl, hw⟩
        rw [(hl.trans (sort_perm obs vs).symm).eq_of_pairwise
          (fun a b _ _ h1 h2 => absurd (sweep_trans h1 h2) (sweep_irrefl obs a)) hw
          (sort_sorted ho hp hn)]
      · rintro rfl
        exact ⟨_, rfl, sort_perm obs vs, sort_sorted ho hp hn⟩
    constructor
    · rintro ⟨x, hx, rfl⟩
      rw [(hsort x).1 hx]
    · intro hr
      exact ⟨_, (hsort _).2 rfl, hr⟩

/-- A scan of the vertices of a map built from polygons. -/
theorem scanAt_eq {atan2 : ℚ → ℚ → ℚ} (h : Atan2Ok atan2) {ps : List (List Coord)}
    (hps : ∀ v ∈ ps.flatten, v.Per) {m : VisMap} (hm : m.Perm (Vistree.ofPolygons ps))
    {look : Seg → Seg → Bool} {obs : Coord} (ho : obs.Per) (hs : Separated obs ps.flatten)
    {segs : List Seg} {half : Bool} {r : Res (List (Coord × Bool))}
    (hr : Vistree.ScanAt atan2 look m obs (Vistree.vertices m) segs half r) :
    r = Vistree.scanC look m obs (Vistree.vertices m) segs half := by
  have hmo : Vistree.MapOf ps m := ⟨hm⟩
  refine (C71_scan atan2 h look m obs _ segs half ho (fun v hv => hps v ((hmo.keys v).1 hv))
    hmo.nodup (fun a ha b hb => hs a ((hmo.keys a).1 ha) b ((hmo.keys b).1 hb)) r).1 hr

/-- The loop over the vertices consults the scanner at these vertices only. -/
theorem sweepAll_congr {f f' : Coord → Res (List (Coord × Bool))} (us : List Coord) (g : Graph)
    (h : ∀ v ∈ us, f v = f' v) : Visgraph.sweepAll f g us = Visgraph.sweepAll f' g us := by
  induction us generalizing g with
  | nil => rfl
  | cons a r ih =>
    unfold Visgraph.sweepAll
    rw [h a List.mem_cons_self]
    cases f' a with
    | error e => rfl
    | ok vis =>
      simp only [Res.bind_ok]
      cases Visgraph.link g a vis with
      | error e => rfl
      | ok g1 =>
        simp only [Res.bind_ok]
        exact ih g1 fun v hv => h v (List.mem_cons_of_mem _ hv)

/-- Generation consults the scanner at the vertices only. -/
theorem generate_of_scans {T : ℕ → Polygon.SumTree} {ps : List (List Coord)}
    {scanner : Coord → Res (List (Coord × Bool))} {m : Coord → VisMap} {segs : Coord → List Seg}
    {look : Coord → Seg → Seg → Bool}
    (h1 : ∀ obs, (m obs).Perm (Vistree.ofPolygons (polygonsPeriodic T ps)))
    (h2 : ∀ obs, (segs obs).Perm (Vistree.segments (m obs))) (h3 : ∀ obs, LookOk (look obs))
    (key : ∀ v ∈ ps.flatten, scanner v =
      Vistree.scanC (look v) (m v) v (Vistree.vertices (m v)) (segs v) true) :
    ∃ scanner', Visgraph.IsScanner T ps scanner' ∧
      (∀ order : List Coord → List Coord, (∀ l, (order l).Perm l) →
        Visgraph.generate ps scanner order = Visgraph.generate ps scanner' order) ∧
      ∀ order shuffle : List Coord → List Coord, (∀ l, (order l).Perm l) →
        (∀ l, (shuffle l).Perm l) → ∀ lo hi,
        Visgraph.generateRange ps scanner order shuffle lo hi =
          Visgraph.generateRange ps scanner' order shuffle lo hi := by
  refine ⟨fun obs =>
    Vistree.scanC (look obs) (m obs) obs (Vistree.vertices (m obs)) (segs obs) true,
    fun obs => ⟨m obs, segs obs, look obs, h1 obs, h2 obs, h3 obs, rfl⟩, ?_, ?_⟩
  · intro order ho
    unfold Visgraph.generate
    refine sweepAll_congr _ _ fun v hv => key v ?_
    rw [Visgraph.polygonVertices_eq] at hv
    exact (ho _).mem_iff.1 hv
  · intro order shuffle ho hsh lo hi
    unfold Visgraph.generateRange
    simp only [Visgraph.polygonVertices_eq]
    split
    · rfl
    split
    · rfl
    rename_i hr
    have hh : hi ≤ (shuffle ps.flatten).length := by
      rw [(hsh _).length_eq]; omega
    obtain ⟨us, h5, h6⟩ := Visgraph.slice_ok (vs := shuffle ps.flatten) (lo := lo) (hi := hi) hh
    rw [h5]
    simp only [Res.bind_ok]
    refine sweepAll_congr _ _ fun v hv => key v ?_
    obtain ⟨i, _, _, hv'⟩ := (h6 v).1 ((ho us).mem_iff.1 hv)
    exact (hsh _).mem_iff.1 (List.mem_of_getElem? hv')

/-- **C71** If the vertices of the map and their copies are separated as seen from every vertex,
generation with computed angles, of the whole graph or of a range, does what the model does for
some scanner; so everything proved about generated graphs holds. -/
theorem C71_generate (atan2 : ℚ → ℚ → ℚ) (h : Atan2Ok atan2) (T : ℕ → Polygon.SumTree)
    (ps : List (List Coord)) (hg : ∀ v ∈ ps.flatten, v.Geo)
    (hs : ∀ v ∈ ps.flatten, Separated v (polygonsPeriodic T ps).flatten)
    (scanner : Coord → Res (List (Coord × Bool)))
    (hsc : Visgraph.IsScannerAt atan2 T ps scanner) :
    ∃ scanner', Visgraph.IsScanner T ps scanner' ∧
      (∀ order : List Coord → List Coord, (∀ l, (order l).Perm l) →
        Visgraph.generate ps scanner order = Visgraph.generate ps scanner' order) ∧
      ∀ order shuffle : List Coord → List Coord, (∀ l, (order l).Perm l) →
        (∀ l, (shuffle l).Perm l) → ∀ lo hi,
        Visgraph.generateRange ps scanner order shuffle lo hi =
          Visgraph.generateRange ps scanner' order shuffle lo hi := by
  choose m segs look h1 h2 h3 h4 using hsc
  have key : ∀ v ∈ ps.flatten, scanner v =
      Vistree.scanC (look v) (m v) v (Vistree.vertices (m v)) (segs v) true := fun v hv =>
    scanAt_eq h (periodic_range hg) (h1 v) (geo_per (hg v hv)) (hs v hv) (h4 v)
  exact generate_of_scans h1 h2 h3 key

/-- A query consults the scan at the corrected endpoints only. -/
theorem query_of_scans {D : Type} [LinearOrder D] (A : ShortestPath.Arith D) (E : ShortestPath.Env)
    {ps : List (List Coord)} {m : Coord → VisMap} {segs : Coord → List Seg}
    {look : Coord → Seg → Seg → Bool} (h1 : ∀ obs, (m obs).Perm (Vistree.ofPolygons ps))
    (h2 : ∀ obs, (segs obs).Perm (Vistree.segments (m obs))) (h3 : ∀ obs, LookOk (look obs))
    {s d : Coord} {allow : Bool}
    (key : ∀ ns nd c, normalizeC s = .ok ns → normalizeC d = .ok nd →
      ShortestPath.correct E ns nd allow = .ok c → ∀ v, v = c.src ∨ v = c.dst → E.reach v =
        Vistree.scanC (look v) (m v) v (Vistree.vertices (m v)) (segs v) false) :
    ∃ reach', ShortestPath.IsReach ps reach' ∧ ∀ r, ShortestPath.Query A E s d allow r ↔
      ShortestPath.Query A { E with reach := reach' } s d allow r := by
  let reach' : Coord → Res (List (Coord × Bool)) := fun obs =>
    Vistree.scanC (look obs) (m obs) obs (Vistree.vertices (m obs)) (segs obs) false
  refine ⟨reach', fun obs => ⟨m obs, segs obs, look obs, h1 obs, h2 obs, h3 obs, rfl⟩, fun r => ?_⟩
  have hend : ∀ (M : Modified) (v : Coord) (edge : Option Seg), E.reach v = reach' v →
      ShortestPath.addEndpoint E M v edge =
        ShortestPath.addEndpoint { E with reach := reach' } M v edge := by
    intro M v edge hv
    unfold ShortestPath.addEndpoint
    simp only
    rw [hv]
  have hprep : ShortestPath.prepare E s d allow =
      ShortestPath.prepare { E with reach := reach' } s d allow := by
    have hcor : ∀ a b, ShortestPath.correct { E with reach := reach' } a b allow =
        ShortestPath.correct E a b allow := fun _ _ => rfl
    unfold ShortestPath.prepare
    cases hns : normalizeC s with
    | error e => rfl
    | ok ns =>
      cases hnd : normalizeC d with
      | error e => rfl
      | ok nd =>
        simp only [Res.bind_ok]
        rw [hcor]
        cases hc : ShortestPath.correct E ns nd allow with
        | error e => rfl
        | ok c =>
          obtain ⟨p1, p2⟩ := And.intro (key ns nd c hns hnd hc _ (.inl rfl)) (key ns nd c hns hnd hc _ (.inr rfl))
          have hnet : ShortestPath.net E c =
              ShortestPath.net { E with reach := reach' } c := by
            unfold ShortestPath.net
            simp only
            split
            · rfl
            · rw [hend _ _ _ p1]
              congr 1
              funext M
              rw [hend _ _ _ p2]
          simp only [Res.bind_ok]
          rw [hnet]
          rfl
  unfold ShortestPath.Query
  rw [hprep]

/-- **C71** If the polygons' vertices are separated as seen from the corrected endpoints, a query
with computed angles has the outcomes it has in the model for some scan; so everything proved about
queries holds. -/
theorem C71_query {D : Type} [LinearOrder D] (A : ShortestPath.Arith D) (atan2 : ℚ → ℚ → ℚ)
    (h : Atan2Ok atan2) (E : ShortestPath.Env) (ps : List (List Coord))
    (hps : ∀ v ∈ ps.flatten, v.Geo) (hr : ShortestPath.IsReachAt atan2 ps E.reach) (s d : Coord)
    (allow : Bool)
    (hs : ∀ ns nd c, normalizeC s = .ok ns → normalizeC d = .ok nd →
      ShortestPath.correct E ns nd allow = .ok c →
      (c.src.Per ∧ Separated c.src ps.flatten) ∧ c.dst.Per ∧ Separated c.dst ps.flatten) :
    ∃ reach', ShortestPath.IsReach ps reach' ∧ ∀ r, ShortestPath.Query A E s d allow r ↔
      ShortestPath.Query A { E with reach := reach' } s d allow r := by
  choose m segs look h1 h2 h3 h4 using hr
  have key : ∀ v : Coord, v.Per → Separated v ps.flatten → E.reach v =
      Vistree.scanC (look v) (m v) v (Vistree.vertices (m v)) (segs v) false := fun v hv hv' =>
    scanAt_eq h (fun w hw => geo_per (hps w hw)) (h1 v) hv hv' (h4 v)
  refine query_of_scans A E h1 h2 h3 fun ns nd c a1 a2 a3 v hv => ?_
  obtain ⟨⟨p1, p2⟩, p3, p4⟩ := hs ns nd c a1 a2 a3
  rcases hv with rfl | rfl
  · exact key _ p1 p2
  · exact key _ p3 p4

/-! ### Maps that are separated -/

/-- **C71** Points within 16.7 degrees of the observer are separated. -/
theorem C71_near (obs : Coord) (vs : List Coord)
    (h : ∀ v ∈ vs, (v.lon - obs.lon) ^ 2 + (v.lat - obs.lat) ^ 2 < 2 ^ 48) : Separated obs vs := by
  intro a ha b hb
  have h1 := h a ha
  have h2 := h b hb
  unfold Apart offset
  simp only
  generalize a.lon - obs.lon = x at *
  generalize a.lat - obs.lat = y at *
  generalize b.lon - obs.lon = z at *
  generalize b.lat - obs.lat = w at *
  by_cases hc : x * w - y * z = 0
  · exact .inl hc
  · right; right
    have h3 : 1 ≤ (x * w - y * z) ^ 2 := by
      have : 0 < (x * w - y * z) ^ 2 := by positivity
      omega
    generalize (x * w - y * z) ^ 2 = k at h3
    have e1 : x * x + y * y = x ^ 2 + y ^ 2 := by ring
    have e2 : z * z + w * w = z ^ 2 + w ^ 2 := by ring
    rw [e1, e2]
    have p1 : 0 ≤ x ^ 2 + y ^ 2 := by positivity
    have p2 : 0 ≤ z ^ 2 + w ^ 2 := by positivity
    generalize x ^ 2 + y ^ 2 = p at *
    generalize z ^ 2 + w ^ 2 = q at *
    have : p * q < 2 ^ 48 * 2 ^ 48 := mul_lt_mul'' h1 h2 p1 p2
    norm_num at this ⊢
    linarith

/-- **C71** Points whose coordinates are whole multiples of 100 microdegrees are separated, anywhere
on the map and its copies. -/
theorem C71_lattice (obs : Coord) (vs : List Coord) (ho : obs.Per) (hp : ∀ v ∈ vs, v.Per)
    (hl : OnLattice 100 obs) (h : ∀ v ∈ vs, OnLattice 100 v) : Separated obs vs := by
  intro a ha b hb
  obtain ⟨a1, a2⟩ := h a ha
  obtain ⟨b1, b2⟩ := h b hb
  obtain ⟨l1, l2⟩ := hl
  obtain ⟨x, hx⟩ := dvd_sub a1 l1
  obtain ⟨y, hy⟩ := dvd_sub a2 l2
  obtain ⟨z, hz⟩ := dvd_sub b1 l1
  obtain ⟨w, hw⟩ := dvd_sub b2 l2
  obtain ⟨o1, o2, o3, o4⟩ := ho
  obtain ⟨p1, p2, p3, p4⟩ := hp a ha
  obtain ⟨q1, q2, q3, q4⟩ := hp b hb
  unfold Apart offset
  simp only
  rw [hx, hy, hz, hw]
  have bx : x ^ 2 ≤ 10800001 ^ 2 := sq_le_sq' (by omega) (by omega)
  have bz : z ^ 2 ≤ 10800001 ^ 2 := sq_le_sq' (by omega) (by omega)
  have by' : y ^ 2 ≤ 1800000 ^ 2 := sq_le_sq' (by omega) (by omega)
  have bw : w ^ 2 ≤ 1800000 ^ 2 := sq_le_sq' (by omega) (by omega)
  by_cases hc : x * w - y * z = 0
  · left; linear_combination 10000 * hc
  · right; right
    have h3 : 1 ≤ (x * w - y * z) ^ 2 := by
      have : 0 < (x * w - y * z) ^ 2 := by positivity
      omega
    have e1 : 100 * x * (100 * x) + 100 * y * (100 * y) = 10000 * (x ^ 2 + y ^ 2) := by ring
    have e2 : 100 * z * (100 * z) + 100 * w * (100 * w) = 10000 * (z ^ 2 + w ^ 2) := by ring
    have e3 : (100 * x * (100 * w) - 100 * y * (100 * z)) ^ 2 =
        100000000 * (x * w - y * z) ^ 2 := by ring
    rw [e1, e2, e3]
    have n1 : 0 ≤ x ^ 2 + y ^ 2 := by positivity
    have n2 : 0 ≤ z ^ 2 + w ^ 2 := by positivity
    have m1 : x ^ 2 + y ^ 2 ≤ 10800001 ^ 2 + 1800000 ^ 2 := add_le_add bx by'
    have m2 : z ^ 2 + w ^ 2 ≤ 10800001 ^ 2 + 1800000 ^ 2 := add_le_add bz bw
    generalize (x * w - y * z) ^ 2 = k at h3
    generalize x ^ 2 + y ^ 2 = p at *
    generalize z ^ 2 + w ^ 2 = q at *
    have : p * q ≤ (10800001 ^ 2 + 1800000 ^ 2) * (10800001 ^ 2 + 1800000 ^ 2) :=
      mul_le_mul m1 m2 n2 (by norm_num)
    norm_num at this ⊢
    linarith

/-- **C71** The vertices of a map whose coordinates are whole multiples of some `g ≥ 2000`
microdegrees, for instance of a hundredth of a degree, are separated from all copies: the hypothesis
of `C71_generate` is met.  (The copies are 360.000001 degrees apart, so they do not have such
coordinates.) -/
theorem C71_copies (T : ℕ → Polygon.SumTree) (ps : List (List Coord))
    (hg : ∀ v ∈ ps.flatten, v.Geo) (g : ℤ) (hg2 : 2000 ≤ g) (hl : ∀ v ∈ ps.flatten, OnLattice g v)
    (v : Coord) (hv : v ∈ ps.flatten) : Separated v (polygonsPeriodic T ps).flatten := by
  intro a ha b hb
  obtain ⟨a', ha', i, hi, rfl⟩ := periodic_vertex ha
  obtain ⟨b', hb', j, hj, rfl⟩ := periodic_vertex hb
  have hi' := (show i = 0 ∨ i = 1 ∨ i = -1 from hi)
  have hj' := (show j = 0 ∨ j = 1 ∨ j = -1 from hj)
  obtain ⟨l1, l2⟩ := hl v hv
  obtain ⟨y, hy⟩ := dvd_sub (hl a' ha').2 l2
  obtain ⟨w, hw⟩ := dvd_sub (hl b' hb').2 l2
  obtain ⟨o1, o2, o3, o4⟩ := hg v hv
  obtain ⟨p1, p2, p3, p4⟩ := hg a' ha'
  obtain ⟨q1, q2, q3, q4⟩ := hg b' hb'
  unfold Apart offset Coord.shift
  simp only
  rw [hy, hw]
  have bx : (a'.lon + i * 360000001 - v.lon) ^ 2 ≤ 720000001 ^ 2 :=
    sq_le_sq' (by omega) (by omega)
  have bz : (b'.lon + j * 360000001 - v.lon) ^ 2 ≤ 720000001 ^ 2 :=
    sq_le_sq' (by omega) (by omega)
  have by' : (g * y) ^ 2 ≤ 180000000 ^ 2 := by rw [← hy]; exact sq_le_sq' (by omega) (by omega)
  have bw : (g * w) ^ 2 ≤ 180000000 ^ 2 := by rw [← hw]; exact sq_le_sq' (by omega) (by omega)
  generalize a'.lon + i * 360000001 - v.lon = x at *
  generalize b'.lon + j * 360000001 - v.lon = z at *
  have e3 : x * (g * w) - g * y * z = g * (x * w - y * z) := by ring
  by_cases hc : x * w - y * z = 0
  · left; rw [e3, hc]; ring
  · right; right
    have h3 : 1 ≤ (x * w - y * z) ^ 2 := by
      have : 0 < (x * w - y * z) ^ 2 := by positivity
      omega
    have h4 : 2000 ^ 2 ≤ g ^ 2 := by nlinarith
    rw [e3, mul_pow]
    have n1 : 0 ≤ x * x + g * y * (g * y) := add_nonneg (mul_self_nonneg _) (mul_self_nonneg _)
    have n2 : 0 ≤ z * z + g * w * (g * w) := add_nonneg (mul_self_nonneg _) (mul_self_nonneg _)
    have m1 : x * x + g * y * (g * y) ≤ 720000001 ^ 2 + 180000000 ^ 2 := by linarith
    have m2 : z * z + g * w * (g * w) ≤ 720000001 ^ 2 + 180000000 ^ 2 := by linarith
    have m3 : (2000 : ℤ) ^ 2 * 1 ≤ g ^ 2 * (x * w - y * z) ^ 2 :=
      mul_le_mul h4 h3 (by norm_num) (by positivity)
    generalize g ^ 2 * (x * w - y * z) ^ 2 = k at m3 ⊢
    generalize x * x + g * y * (g * y) = p at *
    generalize z * z + g * w * (g * w) = q at *
    have : p * q ≤ (720000001 ^ 2 + 180000000 ^ 2) * (720000001 ^ 2 + 180000000 ^ 2) :=
      mul_le_mul m1 m2 n2 (by norm_num)
    norm_num at this m3 ⊢
    linarith

/-! ### Maps that are not -/

/-- A point other than the observer does not precede itself. -/
theorem lessWith_self (lt : Coord → Coord → Bool) {obs a : Coord} (h : a ≠ obs) :
    lessWith lt obs a a = false := by
  unfold lessWith
  rw [if_neg h, if_neg h]
  simp only
  rw [if_neg]
  · simp
  · push Not
    refine ⟨(orient_cases _ _).2.2.2 ?_, ?_⟩
    · unfold Coord.cross; push_cast; ring
    · unfold Coord.dot; nlinarith [sq_nonneg (a.sub obs).lon, sq_nonneg (a.sub obs).lat]

/-- **C71 does not hold for all maps.**  Take any `atan2` as above that gives the same for `2y`,
`2x` as for `y`, `x`.  There are an observer and three points of the map for which `std::sort` is
given a comparison that is not a strict weak order: the scan has undefined behaviour. -/
theorem C71_all_maps_false (atan2 : ℚ → ℚ → ℚ) (h : Atan2Ok atan2)
    (h2 : ∀ x y : ℚ, atan2 (2 * y) (2 * x) = atan2 y x) :
    ∃ (obs : Coord) (vs : List Coord), obs.Geo ∧ (∀ v ∈ vs, v.Geo) ∧ vs.Nodup ∧
      ∀ r, SortsTo atan2 obs vs r ↔ r = .error .ub := by
  obtain ⟨obs, a, b, c, ho, ha, hb, hc, k1, k2, k3, k4, k5⟩ :=
    C11_weak_order_false (horizontal atan2) (horizontal_double h) (horizontal_near h) (by
      intro v
      unfold horizontal
      simp only
      push_cast
      rw [h2])
  have first : ∀ x y : Coord, lessWith
      (fun u v => decide (horizontal atan2 u < horizontal atan2 v)) obs x y = false → x ≠ obs := by
    intro x y hxy hx
    unfold lessWith at hxy
    rw [if_pos hx] at hxy
    exact absurd hxy (by simp)
  have na := first a b k2
  have hab : a ≠ b := by
    rintro rfl
    rw [k1] at k4; exact absurd k4 (by simp)
  have hbc : b ≠ c := by
    rintro rfl
    rw [k1] at k2; exact absurd k2 (by simp)
  have hac : a ≠ c := by
    rintro rfl
    rw [lessWith_self _ na] at k1; exact absurd k1 (by simp)
  refine ⟨obs, [a, b, c], ho, by simp [ha, hb, hc], by simp [hab, hbc, hac], fun r => ?_⟩
  unfold SortsTo
  rw [if_neg]
  rintro ⟨_, _, hw⟩
  have := ((hw a (by simp) b (by simp) c (by simp) hab hbc hac).2 k2 k3 k4 k5).1
  rw [lessAt, k1] at this
  exact absurd this (by simp)

/-! ### Non-vacuity -/

/-- A real number rounded to a double. -/
theorem exists_double (x : ℝ) : ∃ q : ℚ, fl q = q ∧ |(q : ℝ) - x| ≤ |x| / 2 ^ 52 := by
  rcases eq_or_ne x 0 with rfl | hx
  · exact ⟨0, fl_zero, by simp⟩
  have hp : 0 < |x| := abs_pos.2 hx
  obtain ⟨p, p1, p2⟩ := exists_rat_btwn (show x - |x| / 2 ^ 60 < x + |x| / 2 ^ 60 by
    have : 0 < |x| / 2 ^ 60 := by positivity
    linarith)
  refine ⟨fl p, fl_idem p, ?_⟩
  have e : ((|fl p - p| : ℚ) : ℝ) ≤ ((|p| / 2 ^ 53 : ℚ) : ℝ) := by exact_mod_cast fl_err p
  push_cast at e
  have hpx : |(p : ℝ) - x| ≤ |x| / 2 ^ 60 := by rw [abs_le]; constructor <;> linarith
  have hpa : |(p : ℝ)| ≤ |x| + |x| / 2 ^ 60 := by
    have := abs_sub_abs_le_abs_sub (p : ℝ) x
    linarith
  have t : |(fl p : ℝ) - x| ≤ |(fl p : ℝ) - p| + |(p : ℝ) - x| := abs_sub_le _ _ _
  norm_num at e hpx hpa t ⊢
  linarith

/-- An `atan2` that meets all assumptions. -/
theorem atan2_exists : ∃ atan2 : ℚ → ℚ → ℚ, Atan2Ok atan2 ∧
    ∀ x y : ℚ, atan2 (2 * y) (2 * x) = atan2 y x := by
  choose g g1 g2 using exists_double
  refine ⟨fun y x => g (Complex.arg ⟨x, y⟩), ⟨fun x y => g1 _, fun x y => g2 _⟩, fun x y => ?_⟩
  have : (⟨((2 * x : ℚ) : ℝ), ((2 * y : ℚ) : ℝ)⟩ : ℂ) = ((2 : ℝ) : ℂ) * ⟨(x : ℝ), (y : ℝ)⟩ := by
    apply Complex.ext <;> simp
  simp only
  rw [this, Complex.arg_real_mul _ (by norm_num : (0 : ℝ) < 2)]

/-- A list can be sorted by a comparison as `std::sort` asks for. -/
theorem exists_sorted {lt : Coord → Coord → Bool} {vs : List Coord} (hn : vs.Nodup)
    (hw : WeakOrder lt vs) :
    ∃ l : List Coord, l.Perm vs ∧ l.Pairwise fun a b => lt b a = false := by
  induction vs with
  | nil => exact ⟨[], List.Perm.refl _, List.Pairwise.nil⟩
  | cons a r ih =>
    obtain ⟨hw1, hw2⟩ := hw
    rw [List.pairwise_cons] at hw1
    rw [List.nodup_cons] at hn
    obtain ⟨l, hl, hs⟩ := ih hn.2 ⟨hw1.2, fun x hx y hy z hz => hw2 x (List.mem_cons_of_mem _ hx) y
      (List.mem_cons_of_mem _ hy) z (List.mem_cons_of_mem _ hz)⟩
    have hmem : ∀ x ∈ l, x ∈ a :: r := fun x hx => List.mem_cons_of_mem _ (hl.subset hx)
    have hne : ∀ x ∈ l, x ≠ a := fun x hx he => hn.1 (he ▸ hl.subset hx)
    have hln : l.Nodup := hl.nodup_iff.2 hn.2
    clear ih
    suffices H : ∃ l' : List Coord, l'.Perm (a :: l) ∧ l'.Pairwise fun a b => lt b a = false by
      obtain ⟨l', h1, h2⟩ := H
      exact ⟨l', h1.trans (hl.cons a), h2⟩
    have hasym : ∀ x ∈ l, lt x a = true → lt a x = false := by
      intro x hx h
      cases hc : lt a x with
      | false => rfl
      | true => exact absurd ⟨hc, h⟩ (hw1.1 x (hl.subset hx))
    clear hl
    induction l with
    | nil => exact ⟨[a], List.Perm.refl _, List.pairwise_singleton _ _⟩
    | cons z t iht =>
      rw [List.pairwise_cons] at hs
      rw [List.nodup_cons] at hln
      cases hz : lt z a with
      | true =>
        obtain ⟨l', h1, h2⟩ := iht hs.2 (fun x hx => hmem x (List.mem_cons_of_mem _ hx))
          (fun x hx => hne x (List.mem_cons_of_mem _ hx)) hln.2
          (fun x hx => hasym x (List.mem_cons_of_mem _ hx))
        refine ⟨z :: l', (h1.cons z).trans (List.Perm.swap a z t), ?_⟩
        rw [List.pairwise_cons]
        refine ⟨fun y hy => ?_, h2⟩
        rcases List.mem_cons.1 (h1.subset hy) with rfl | hy'
        · exact hasym z List.mem_cons_self hz
        · exact hs.1 y hy'
      | false =>
        refine ⟨a :: z :: t, List.Perm.refl _, ?_⟩
        rw [List.pairwise_cons, List.pairwise_cons]
        refine ⟨fun y hy => ?_, hs⟩
        rcases List.mem_cons.1 hy with rfl | hy'
        · exact hz
        cases hya : lt y a with
        | false => rfl
        | true =>
          have hyz : lt y z = false := hs.1 y hy'
          have my := hmem y hy
          have mz := hmem z List.mem_cons_self
          have ma : a ∈ a :: r := List.mem_cons_self
          have n1 : y ≠ z := fun e => hln.1 (e ▸ hy')
          have n2 := hne y hy
          have n3 := hne z List.mem_cons_self
          cases hzy : lt z y with
          | true =>
            rw [(hw2 z mz y my a ma n1.symm n2 n3).1 hzy hya] at hz
            exact absurd hz (by simp)
          | false =>
            cases haz : lt a z with
            | true =>
              rw [(hw2 y my a ma z mz n2 n3.symm n1).1 hya haz] at hyz
              exact absurd hyz (by simp)
            | false =>
              rw [((hw2 y my z mz a ma n1 n3 n2).2 hyz hzy hz haz).1] at hya
              exact absurd hya (by simp)

/-- Every scan has an outcome, separated or not. -/
theorem scanAt_exists (atan2 : ℚ → ℚ → ℚ) (look : Seg → Seg → Bool) (m : VisMap) (obs : Coord)
    (vs : List Coord) (hn : vs.Nodup) (segs : List Seg) (half : Bool) :
    ∃ r, Vistree.ScanAt atan2 look m obs vs segs half r := by
  unfold Vistree.ScanAt
  split
  · exact ⟨_, rfl⟩
  · have : ∃ x, SortsTo atan2 obs vs x := by
      unfold SortsTo
      split
      · rename_i h
        obtain ⟨l, h1, h2⟩ := exists_sorted hn h.2
        exact ⟨_, l, rfl, h1, h2⟩
      · exact ⟨_, rfl⟩
    obtain ⟨x, hx⟩ := this
    exact ⟨_, x, hx, rfl⟩

/-- There are scanners and scans as assumed, for every map. -/
example (atan2 : ℚ → ℚ → ℚ) (T : ℕ → Polygon.SumTree) (ps : List (List Coord)) :
    (∃ scanner, Visgraph.IsScannerAt atan2 T ps scanner) ∧
      ∃ reach, ShortestPath.IsReachAt atan2 ps reach := by
  have key : ∀ (qs : List (List Coord)) (half : Bool), ∃ f : Coord → Res (List (Coord × Bool)),
      ∀ obs, Vistree.ScanAt atan2 exLook (Vistree.ofPolygons qs) obs
        (Vistree.vertices (Vistree.ofPolygons qs)) (Vistree.segments (Vistree.ofPolygons qs)) half
        (f obs) := by
    intro qs half
    have hm : Vistree.MapOf qs (Vistree.ofPolygons qs) := ⟨List.Perm.refl _⟩
    choose f hf using fun obs => scanAt_exists atan2 exLook (Vistree.ofPolygons qs) obs
      (Vistree.vertices (Vistree.ofPolygons qs)) hm.nodup
      (Vistree.segments (Vistree.ofPolygons qs)) half
    exact ⟨f, hf⟩
  obtain ⟨f, hf⟩ := key (polygonsPeriodic T ps) true
  obtain ⟨f', hf'⟩ := key ps false
  exact ⟨⟨f, fun obs => ⟨_, _, exLook, List.Perm.refl _, List.Perm.refl _, exLook_ok, hf obs⟩⟩,
    f', fun obs => ⟨_, _, exLook, List.Perm.refl _, List.Perm.refl _, exLook_ok, hf' obs⟩⟩

/-- Two islands to two decimals, and their copies as seen from a corner. -/
example : (∀ v ∈ [exSquare.map fun c => (⟨10000 * c.lon, 10000 * c.lat⟩ : Coord),
      [⟨179000000, 80000⟩, ⟨179990000, 90000⟩, ⟨179000000, 120000⟩]].flatten,
      v.Geo ∧ OnLattice 10000 v) ∧
    Separated ⟨0, 0⟩ (polygonsPeriodic Polygon.SumTree.sequential
      [exSquare.map fun c => (⟨10000 * c.lon, 10000 * c.lat⟩ : Coord),
      [⟨179000000, 80000⟩, ⟨179990000, 90000⟩, ⟨179000000, 120000⟩]]).flatten := by
  have h : ∀ v ∈ [exSquare.map fun c => (⟨10000 * c.lon, 10000 * c.lat⟩ : Coord),
      [⟨179000000, 80000⟩, ⟨179990000, 90000⟩, ⟨179000000, 120000⟩]].flatten,
      v.Geo ∧ OnLattice 10000 v := by unfold OnLattice; decide +kernel
  exact ⟨h, C71_copies _ _ (fun v hv => (h v hv).1) 10000 (by norm_num) (fun v hv => (h v hv).2) _
    (by decide +kernel)⟩

/-- Islands to six decimals that happen to be separated, from every corner. -/
example : ∀ v ∈ [[⟨0, 3⟩, ⟨100007, 0⟩, ⟨100001, 99998⟩, ⟨2, 100013⟩],
      [⟨179000000, 80001⟩, ⟨179999999, 90007⟩, ⟨179000001, 120003⟩]].flatten,
    Separated v (polygonsPeriodic Polygon.SumTree.sequential
      [[⟨0, 3⟩, ⟨100007, 0⟩, ⟨100001, 99998⟩, ⟨2, 100013⟩],
      [⟨179000000, 80001⟩, ⟨179999999, 90007⟩, ⟨179000001, 120003⟩]]).flatten := by decide +kernel

/-- Points that are not separated: nearly in the same direction, far away. -/
example : ¬ Separated ⟨0, 0⟩ [⟨179999999, 89999999⟩, ⟨179999997, 89999998⟩] := by decide +kernel

end Capi
