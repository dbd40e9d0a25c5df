import Verif.Lemmas.Fused
import Verif.Props.Angle64
import Verif.Props.EndToEnd

/-!
# C72: fused multiply-add

The other theorems round after every operation.  Here every product that is added to something may
be fused into the addition, in any combination.
-/

namespace Capi

open ShortestPath AngleSorter

/-- **C72** Polygons are built alike, whichever summands are fused and however they are grouped, if
the area exceeds the rounding error. -/
theorem C72_polygon (T T' : ℕ → Polygon.SumTree) (hT : Polygon.PlanOk T) (hT' : Polygon.PlanOk T')
    (fused : ℕ → Bool) (vs : List Coord) (h : ∀ v ∈ vs, v.Per)
    (hd : (T (Polygon.removeCollinear vs).length).depth ≤ 2 ^ 40)
    (hd' : (T' (Polygon.removeCollinear vs).length).depth ≤ 2 ^ 40)
    (hA : AreaResolved (T (Polygon.removeCollinear vs).length) (Polygon.removeCollinear vs))
    (hA' : AreaResolved (T' (Polygon.removeCollinear vs).length) (Polygon.removeCollinear vs)) :
    Polygon.mkFused T fused vs = Polygon.mk T' vs := by
  have hc : ∀ v ∈ Polygon.removeCollinear vs, v.Per := fun v hv =>
    h v ((removeCollinear_sublist vs).subset hv)
  unfold Polygon.mkFused Polygon.mk Polygon.normalizeOrientFused Polygon.normalizeOrient
  rw [windingOrientFused_correct hc fused (hT _) hd hA, windingOrient_correct hc (hT' _) hd' hA']

/-- **C72** At a corner that exceeds the rounding error the same points are visible. -/
theorem C72_corner (k : Contract) (v1 v2 v3 c : Coord) (h : CornerResolved v1 v2 v3) :
    Polyline.visibleFused k v1 v2 v3 c = Polyline.visible v1 v2 v3 c := by
  have e : Polyline.isReflexFused k v1 v2 v3 = Polyline.isReflex v1 v2 v3 := by
    rw [Bool.eq_iff_iff, isReflexFused_iff k h, isReflex_iff h]
  unfold Polyline.visibleFused Polyline.visible
  rw [e]

example : Polyline.visibleFused .left ⟨0, 0⟩ ⟨1000000, 3000000⟩ ⟨3000000, 1000000⟩ ⟨5, 5⟩ =
    Polyline.visible ⟨0, 0⟩ ⟨1000000, 3000000⟩ ⟨3000000, 1000000⟩ ⟨5, 5⟩ :=
  C72_corner _ _ _ _ _ (by decide +kernel)

/-- **C72** The comparison of the sort is the same function on the whole range, whatever is used to
compare angles. -/
theorem C72_compare (k : Contract) (lt : Coord → Coord → Bool) (obs a b : Coord) (ho : obs.Per)
    (ha : a.Per) (hb : b.Per) : lessFused k lt obs a b = lessWith lt obs a b := by
  unfold lessFused lessWith
  by_cases h1 : a = obs
  · rw [if_pos h1, if_pos h1]
  by_cases h2 : b = obs
  · rw [if_neg h1, if_neg h1, if_pos h2, if_pos h2]
  rw [if_neg h1, if_neg h1, if_neg h2, if_neg h2]
  simp only
  split
  · rfl
  rename_i hc
  have n1 : a.sub obs ≠ ⟨0, 0⟩ := fun hh => h1 (sub_eq_zero_iff.1 hh)
  have n2 : b.sub obs ≠ ⟨0, 0⟩ := fun hh => h2 (sub_eq_zero_iff.1 hh)
  have hs : SD (a.sub obs) (b.sub obs) := by
    have hcol := (orient_cases (a.sub obs) (b.sub obs)).2.2
    push Not at hc
    have hz : (a.sub obs).cross (b.sub obs) = 0 := by exact_mod_cast hcol.1 hc.1
    refine ⟨hz, lt_of_le_of_ne hc.2 fun hd => ?_⟩
    have p := mul_pos (magSq_pos n1) (magSq_pos n2)
    have e : ((a.sub obs).lon * (a.sub obs).lon + (a.sub obs).lat * (a.sub obs).lat) *
      ((b.sub obs).lon * (b.sub obs).lon + (b.sub obs).lat * (b.sub obs).lat) =
      (a.sub obs).cross (b.sub obs) ^ 2 + (a.sub obs).dot (b.sub obs) ^ 2 := by
      simp only [Coord.cross, Coord.dot]; ring
    rw [e, hz, ← hd] at p
    simp at p
  have f1 := fits_vec (Coord.Per.vec_sub ha ho)
  have f2 := fits_vec (Coord.Per.vec_sub hb ho)
  rw [Bool.eq_iff_iff, decide_eq_true_eq, decide_eq_true_eq,
    magSq_lt_iff_of (magSqDegFused_err k) f1 f2 hs, magSqDeg_lt_iff f1 f2 hs]

example (lt : Coord → Coord → Bool) : lessFused .right lt ⟨1, 2⟩ ⟨540000001, 3⟩ ⟨-7, 90000000⟩ =
    lessWith lt ⟨1, 2⟩ ⟨540000001, 3⟩ ⟨-7, 90000000⟩ :=
  C72_compare _ _ _ _ _ (by decide) (by decide) (by decide)

/-- **C72** A scan has the same outcomes, if the corner at the observer exceeds the rounding
error. -/
theorem C72_scan (k k' : Contract) (atan2 : ℚ → ℚ → ℚ) (look : Seg → Seg → Bool) (m : VisMap)
    (obs : Coord) (vs : List Coord) (segs : List Seg) (half : Bool) (ho : obs.Per)
    (hp : ∀ v ∈ vs, v.Per)
    (hm : ∀ s0 s1 l, Assoc.get m obs = some (s0 :: s1 :: l) → CornerResolved s0.p s1.p s1.q)
    (r : Res (List (Coord × Bool))) :
    Vistree.ScanFused k k' atan2 look m obs vs segs half r ↔
      Vistree.ScanAt atan2 look m obs vs segs half r := by
  have hb : ∀ v, Vistree.barrierFusedC k' m obs v = Vistree.barrierC m obs v := by
    intro v
    unfold Vistree.barrierFusedC Vistree.barrierC
    rcases hg : Assoc.get m obs with _ | (_ | ⟨s0, _ | ⟨s1, l⟩⟩)
    · rfl
    · rfl
    · rfl
    · simp only
      unfold Vistree.cornerFusedC Vistree.cornerC
      rw [C72_corner k' _ _ _ _ (hm s0 s1 l hg)]
  have hv : ∀ o v, Vistree.isVisibleFusedC k' m o obs v = Vistree.isVisibleC m o obs v := by
    intro o v
    unfold Vistree.isVisibleFusedC Vistree.isVisibleC
    rw [hb v]
    rfl
  have hl : ∀ l o, Vistree.loopFusedC k' look m obs half l o = Vistree.loopC look m obs half l o := by
    intro l
    induction l with
    | nil => intro o; rfl
    | cons v t ih =>
      intro o
      unfold Vistree.loopFusedC Vistree.loopC
      simp only [ih, hv]
      rfl
  have hlt : ∀ a ∈ vs, ∀ b ∈ vs,
      lessFused k (fun u v => decide (horizontal atan2 u < horizontal atan2 v)) obs a b =
        lessAt atan2 obs a b := fun a ha b hb' => C72_compare k _ obs a b ho (hp a ha) (hp b hb')
  have hw : WeakOrder (lessFused k
      (fun u v => decide (horizontal atan2 u < horizontal atan2 v)) obs) vs ↔
      WeakOrder (lessAt atan2 obs) vs := by
    unfold WeakOrder
    refine and_congr ?_ ?_
    · constructor <;> intro h <;> refine List.Pairwise.imp_of_mem ?_ h <;> intro a b ha hb' h
      · rwa [← hlt a ha b hb', ← hlt b hb' a ha]
      · rwa [hlt a ha b hb', hlt b hb' a ha]
    · refine forall₂_congr fun a ha => forall₂_congr fun b hb' => forall₂_congr fun c hc => ?_
      rw [hlt a ha b hb', hlt b hb' c hc, hlt a ha c hc, hlt b hb' a ha, hlt c hc b hb',
        hlt c hc a ha]
  have hs : ∀ x, SortsToFused k atan2 obs vs x ↔ SortsTo atan2 obs vs x := by
    intro x
    unfold SortsToFused SortsTo
    have hw' := and_congr_right_iff (a := ∀ a ∈ vs, ∀ b ∈ vs, ∃ x, Vistree.lessC obs a b = .ok x).2
      fun _ => hw
    by_cases hc : (∀ a ∈ vs, ∀ b ∈ vs, ∃ x, Vistree.lessC obs a b = .ok x) ∧
      WeakOrder (lessAt atan2 obs) vs
    · rw [if_pos (hw'.2 hc), if_pos hc]
      refine exists_congr fun l => and_congr_right fun _ => and_congr_right fun hl => ?_
      constructor <;> intro h <;> refine List.Pairwise.imp_of_mem ?_ h <;> intro a b ha hb' h
      · rwa [← hlt b (hl.subset hb') a (hl.subset ha)]
      · rwa [hlt b (hl.subset hb') a (hl.subset ha)]
    · rw [if_neg fun hf => hc (hw'.1 hf), if_neg hc]
  unfold Vistree.ScanFused Vistree.ScanAt
  simp only [hs, hl]

/-- The corner seen at `obs` in a map built from polygons exceeds the rounding error. -/
def CornerClear (ps : List (List Coord)) (obs : Coord) : Prop :=
  match Assoc.get (Vistree.ofPolygons ps) obs with
  | some (s0 :: s1 :: _) => CornerResolved s0.p s1.p s1.q
  | _ => True

instance (ps : List (List Coord)) (obs : Coord) : Decidable (CornerClear ps obs) := by
  unfold CornerClear
  split <;> infer_instance

/-- A scan of the vertices of a map built from polygons. -/
theorem scanFused_eq {k k' : Contract} {atan2 : ℚ → ℚ → ℚ} (h : Atan2Ok atan2)
    {ps : List (List Coord)}
    (hps : ∀ v ∈ ps.flatten, v.Per) {m : VisMap} (hm : m.Perm (Vistree.ofPolygons ps))
    {look : Seg → Seg → Bool} {obs : Coord} (ho : obs.Per) (hs : Separated obs ps.flatten)
    (hc : CornerClear ps obs) {segs : List Seg} {half : Bool} {r : Res (List (Coord × Bool))}
    (hr : Vistree.ScanFused k k' atan2 look m obs (Vistree.vertices m) segs half r) :
    r = Vistree.scanC look m obs (Vistree.vertices m) segs half := by
  have hmo : Vistree.MapOf ps m := ⟨hm⟩
  refine scanAt_eq h hps hm ho hs ((C72_scan k k' atan2 look m obs _ segs half ho
    (fun v hv => hps v ((hmo.keys v).1 hv)) (fun s0 s1 l hg => ?_) r).1 hr)
  rw [Modified.get_perm hm (Vistree.ofPolygons_facts ps).1] at hg
  unfold CornerClear at hc
  rw [hg] at hc
  exact hc

/-- **C72** Generation with the angles the code computes and fused operations does what the model
does for some scanner, if the vertices are separated and the corners exceed the rounding error. -/
theorem C72_generate (k k' : Contract) (atan2 : ℚ → ℚ → ℚ) (h : Atan2Ok atan2)
    (T : ℕ → Polygon.SumTree) (ps : List (List Coord)) (hg : ∀ v ∈ ps.flatten, v.Geo)
    (hs : ∀ v ∈ ps.flatten, Separated v (polygonsPeriodic T ps).flatten)
    (hc : ∀ v ∈ ps.flatten, CornerClear (polygonsPeriodic T ps) v)
    (scanner : Coord → Res (List (Coord × Bool)))
    (hsc : Visgraph.IsScannerFused k k' atan2 T ps scanner) :
    ∃ scanner', Visgraph.IsScanner T ps scanner' ∧
      (∀ order : List Coord → List Coord, (∀ l, (order l).Perm l) →
        Visgraph.generate ps scanner order = Visgraph.generate ps scanner' order) ∧
      ∀ order shuffle : List Coord → List Coord, (∀ l, (order l).Perm l) →
        (∀ l, (shuffle l).Perm l) → ∀ lo hi,
        Visgraph.generateRange ps scanner order shuffle lo hi =
          Visgraph.generateRange ps scanner' order shuffle lo hi := by
  choose m segs look h1 h2 h3 h4 using hsc
  exact generate_of_scans h1 h2 h3 fun v hv => scanFused_eq h (periodic_range hg) (h1 v)
    (geo_per (hg v hv)) (hs v hv) (hc v hv) (h4 v)

/-- **C72** A query with fused scans has the outcomes it has in the model for some scan, under the
same conditions at the corrected endpoints. -/
theorem C72_query {D : Type} [LinearOrder D] (A : ShortestPath.Arith D) (k k' : Contract)
    (atan2 : ℚ → ℚ → ℚ) (h : Atan2Ok atan2) (E : ShortestPath.Env) (ps : List (List Coord))
    (hps : ∀ v ∈ ps.flatten, v.Geo) (hr : ShortestPath.IsReachFused k k' atan2 ps E.reach)
    (s d : Coord) (allow : Bool)
    (hs : ∀ ns nd c, normalizeC s = .ok ns → normalizeC d = .ok nd →
      ShortestPath.correct E ns nd allow = .ok c → ∀ v, v = c.src ∨ v = c.dst →
        v.Per ∧ Separated v ps.flatten ∧ CornerClear ps v) :
    ∃ reach', ShortestPath.IsReach ps reach' ∧ ∀ r, ShortestPath.Query A E s d allow r ↔
      ShortestPath.Query A { E with reach := reach' } s d allow r := by
  choose m segs look h1 h2 h3 h4 using hr
  refine query_of_scans A E h1 h2 h3 fun ns nd c a1 a2 a3 v hv => ?_
  obtain ⟨p1, p2, p3⟩ := hs ns nd c a1 a2 a3 v hv
  exact scanFused_eq h (fun w hw => geo_per (hps w hw)) (h1 v) p1 p2 p3 (h4 v)

/-- The arithmetic of the search with fused operations computes lengths up to rounding. -/
theorem fused_like (sq : ℚ → Dbl) (hsq : SqrtOk fun q => (sq q).1) (hsq0 : ∀ x, 0 ≤ (sq x).1)
    (k : Contract) (fw : Bool) (w : Dbl) (hw : 0 ≤ w.1) (limit : Option Dbl) :
    (fusedArith sq k fw w limit).DoubleLike w limit where
  sound := by
    refine ⟨fun d c => ?_, fun d d' c h => ?_⟩
    · change d.1 ≤ fl (d.1 + (sq (c.magSqDegFused k)).1)
      calc d.1 = fl d.1 := d.2.symm
        _ ≤ _ := fl_mono (by linarith [hsq0 (c.magSqDegFused k)])
    · change fl (d.1 + (sq (c.magSqDegFused k)).1) ≤ fl (d'.1 + (sq (c.magSqDegFused k)).1)
      have h' : d.1 ≤ d'.1 := h
      exact fl_mono (by linarith)
  mag v := mag_near hsq (fun _ => magSqDegFused_zero k) (magSqDegFused_err k) v
  add := rfl
  zero := rfl
  weigh d h hd hh := by
    simp only [fusedArith]
    cases fw with
    | true => exact weigh_fused_near hw hd hh
    | false => exact weigh_near hw hd hh
  over := rfl

/-- **C72** Every query has an outcome, and every path consists of the direct line or of known
edges, as in C42 and C43. -/
theorem C72_paths (sq : ℚ → Dbl) (hsq : SqrtOk fun q => (sq q).1) (hsq0 : ∀ x, 0 ≤ (sq x).1)
    (k : Contract) (fw : Bool) (w : Dbl) (hw : 0 ≤ w.1) (limit : Option Dbl) (E : Env)
    (hg : UserGraph E.graph) (hord : ∀ l, (E.ord l).Perm l) (s d : Coord) (allow : Bool) :
    (∃ r, Query (fusedArith sq k fw w limit) E s d allow r) ∧
    ∀ path, Query (fusedArith sq k fw w limit) E s d allow (.ok path) →
      ∃ ns nd c, normalizeC s = .ok ns ∧ normalizeC d = .ok nd ∧
        correct E ns nd allow = .ok c ∧
        ((blocking E c = [] ∧ path = [c.src, c.dst]) ∨
          (blocking E c ≠ [] ∧ IsWalk (RouteEdge E c) c.src c.dst path)) :=
  ⟨(C43_outcome _ (fused_like sq hsq hsq0 k fw w hw limit).sound E hg hord s d allow).1,
    C42_paths _ (fused_like sq hsq hsq0 k fw w hw limit).sound E hg hord s d allow⟩

/-- **C72** The bound on the length of the path found is that of `C64_bounded`. -/
theorem C72_length (sq : ℚ → Dbl) (hsq : SqrtOk fun q => (sq q).1) (hsq0 : ∀ x, 0 ≤ (sq x).1)
    (k : Contract) (fw : Bool)
    (E : Env) (hg : UserGraph E.graph) (hord : ∀ l, (E.ord l).Perm l)
    (s d : Coord) (allow : Bool) (N : Net) (c : Correction)
    (hp : prepare E s d allow = .ok (.inr (N, c))) (hr : InRange E c) (w : Dbl) (hw : 0 ≤ w.1)
    (limit : Option Dbl) (path : List Coord)
    (h : Query (fusedArith sq k fw w limit) E s d allow (.ok path))
    (places : Finset Coord) (hsrc : c.src ∈ places)
    (hplaces : ∀ u ∈ places, ∀ v, RouteEdge E c u v → v ∈ places) (hcard : places.card ≤ 500000)
    (route : List Coord) (hroute : IsWalk (RouteEdge E c) c.src c.dst route)
    (hfar : ∀ v ∈ route.tail,
      exceeds limit (heuristic (fusedArith sq k fw w limit) c.src v) = false) :
    walkLength (legLength E) path ≤
      (1 + 1 / 10 ^ 8) * (max 1 ((w.1 : ℚ) : ℝ) * walkLength (legLength E) route) :=
  bounded_of (fused_like sq hsq hsq0 k fw w hw limit) hw E hg hord s d allow N c hp hr path h places
    hsrc hplaces hcard route hroute hfar

/-- **C72** The bound for a voyage is that of `C66_rounded`. -/
theorem C72_voyage (sq : ℚ → Dbl) (hsq : SqrtOk fun q => (sq q).1) (hsq0 : ∀ x, 0 ≤ (sq x).1)
    (k : Contract) (fw : Bool) (T : ℕ → Polygon.SumTree) (ps : List (List Coord))
    (scanner : Coord → Res (List (Coord × Bool))) (order : List Coord → List Coord) (E : Env)
    (s d : Coord) (h : Voyage T ps scanner order E s d) (hsize : ps.flatten.length ≤ 499998)
    (chain : List Coord) (hw : IsWalk (SightLeg ps) s d chain)
    (hin : ∀ v ∈ chain, v = s ∨ v = d ∨ v ∈ ps.flatten) (w : Dbl) (h0 : 0 ≤ w.1) (allow : Bool)
    (r : Res (List Coord)) (hq : Query (fusedArith sq k fw w none) E s d allow r) :
    ∃ path, r = .ok path ∧ (path = [s, d] ∨ walkLength (legLength E) path ≤ (1 + 1 / 10 ^ 8) *
      (max 1 ((w.1 : ℚ) : ℝ) * walkLength (fun u v => planeDist u v 0) chain)) :=
  voyage_length (fused_like sq hsq hsq0 k fw w h0 none) T ps scanner order E s d h hsize chain hw hin
    h0 allow r hq

/-- **C72** Corrected points obey the bounds of `C59_margin`. -/
theorem C72_project (sq : ℚ → ℚ) (hsq : SqrtOk sq) (k : Contract) (near point : Coord)
    (hn : near.Geo) (hp : point.Geo) (margin : ℚ) (h0 : 0 ≤ margin) (h1 : margin ≤ 1000) :
    ∃ c : Coord, projectFusedC sq k near point margin = .ok c ∧
      ((near.sub point).magSq ≤ 1 ∧ c = near ∨
        let d := near.sub point
        let r := √((d.lon : ℝ) ^ 2 + (d.lat : ℝ) ^ 2)
        |(c.lon - near.lon : ℝ) - margin * (1000000 * (d.lon / r))| ≤
          1 / 2 + margin * (1 / 2 + 1 / 1000000) ∧
        |(c.lat - near.lat : ℝ) - margin * (1000000 * (d.lat / r))| ≤
          1 / 2 + margin * (1 / 2 + 1 / 1000000) ∧
        0 ≤ (c.lon - near.lon) * d.lon ∧ 0 ≤ (c.lat - near.lat) * d.lat) :=
  margin_of_len ⟨fun v h => by rw [magSqDegFused_zero k h, hsq.zero],
    fun v h => length_close_of hsq h (magSqDegFused_err k v)⟩ near point hn hp margin h0 h1

/-- **C72** It is not so for every corner: at the tip of an obstacle that is a mere line, everything
off the line is visible when each product is rounded and nothing is when the first is fused. -/
theorem C72_all_corners_false :
    ¬ ∀ (k : Contract) (v1 v2 v3 c : Coord), v1.Geo → v2.Geo → v3.Geo → c.Geo →
      Polyline.visibleFused k v1 v2 v3 c = Polyline.visible v1 v2 v3 c := by
  intro h
  exact absurd (h .left ⟨0, 0⟩ ⟨100000, 300000⟩ ⟨0, 0⟩ ⟨1000000, 0⟩ (by decide) (by decide)
    (by decide) (by decide)) (by decide +kernel)

/-- Such a tip is a corner of a polygon as the code builds it. -/
example : Polygon.mk Polygon.SumTree.sequential [⟨0, 0⟩, ⟨100000, 300000⟩] =
    [⟨0, 0⟩, ⟨100000, 300000⟩] := by decide +kernel

/-- Non-vacuity of C72: a clockwise triangle is turned round with every second summand fused. -/
example : Polygon.mkFused Polygon.SumTree.sequential (fun i => i % 2 = 0)
    [⟨0, 0⟩, ⟨1000000, 3000000⟩, ⟨3000000, 1000000⟩] =
    [⟨3000000, 1000000⟩, ⟨1000000, 3000000⟩, ⟨0, 0⟩] := by
  have e := C72_polygon Polygon.SumTree.sequential Polygon.SumTree.sequential sequential_ok
    sequential_ok (fun i => i % 2 = 0) [⟨0, 0⟩, ⟨1000000, 3000000⟩, ⟨3000000, 1000000⟩]
    (by decide) (by decide +kernel) (by decide +kernel)
    (by unfold AreaResolved; decide +kernel) (by unfold AreaResolved; decide +kernel)
  rw [e]
  decide +kernel

/-- The computed square of a length and its fused form do differ. -/
example : Coord.magSqDegFused .left ⟨200000, 300000⟩ ≠ Coord.magSqDeg ⟨200000, 300000⟩ := by
  decide +kernel

/-- Islands to six decimals that meet the conditions of `C72_generate`. -/
example : ∀ v ∈ [[⟨0, 3⟩, ⟨100007, 0⟩, ⟨100001, 99998⟩, ⟨2, 100013⟩],
      [⟨179000000, 80001⟩, ⟨179999999, 90007⟩, ⟨179000001, 120003⟩]].flatten,
    v.Geo ∧ Separated v (polygonsPeriodic Polygon.SumTree.sequential
      [[⟨0, 3⟩, ⟨100007, 0⟩, ⟨100001, 99998⟩, ⟨2, 100013⟩],
      [⟨179000000, 80001⟩, ⟨179999999, 90007⟩, ⟨179000001, 120003⟩]]).flatten ∧
    CornerClear (polygonsPeriodic Polygon.SumTree.sequential
      [[⟨0, 3⟩, ⟨100007, 0⟩, ⟨100001, 99998⟩, ⟨2, 100013⟩],
      [⟨179000000, 80001⟩, ⟨179999999, 90007⟩, ⟨179000001, 120003⟩]]) v := by decide +kernel

end Capi
