import Verif.Props.Fused

/-!
# C73: the whole program with the arithmetic of the code

C66 for scans that sort by computed angles, with products fused into additions in any combination.
-/

namespace Capi

open Frontend ShortestPath Visgraph

/-- Corners that exceed the rounding error are clear for the observer. -/
theorem cornerClear_of {ps : List (List Coord)} {obs : Coord}
    (h : ∀ a b, CornerOf ps a obs b → CornerResolved a obs b) : CornerClear ps obs := by
  unfold CornerClear
  cases hg : Assoc.get (Vistree.ofPolygons ps) obs with
  | none => trivial
  | some l =>
    obtain ⟨a, b, hc, he⟩ := (Vistree.ofPolygons_facts ps).2.1 (obs, l) 
      ((Assoc.get_eq_some _ _ _ (Vistree.ofPolygons_facts ps).1).1 hg)
    simp only at he
    subst he
    exact h _ _ hc

/-- The same corners are met among the copies. -/
theorem cornerClear_copies {T : ℕ → Polygon.SumTree} {ps : List (List Coord)}
    (hs : ∀ p ∈ ps, Stable T p) (hg : ∀ v ∈ ps.flatten, v.Geo)
    (h : ∀ a v b, CornerOf ps a v b → CornerResolved a v b) {v : Coord} (hv : v ∈ ps.flatten) :
    CornerClear (polygonsPeriodic T ps) v :=
  cornerClear_of fun a b hc => h a v b (stable_corner hs hg (hg v hv) hc)

/-- The first part of C73 and C76: the parts are made, merged and loaded, and the query runs like one
that scans in exact order on a graph made in one go. -/
theorem whole_voyage {D : ℕ → ℕ} {ps : List (List Coord)} (r2 : ∀ v ∈ ps.flatten, v.Geo)
    (r : ∀ T, Within D T → (∀ p ∈ ps, Stable T p) ∧ ∀ p ∈ ps, Serial.polygonC T p = .ok p)
    (hne : ps ≠ []) (hnd : ps.flatten.Nodup) (hl : ps.length < 2 ^ 64)
    (hsize : ps.flatten.length ≤ 499998)
    (hcor : ∀ a v b, CornerOf ps a v b → CornerResolved a v b) {N : Type} [DecidableEq N]
    {T1 T2 : ℕ → Polygon.SumTree} {Ts : ℕ → ℕ → Polygon.SumTree} {k : ℕ} {c1 c2 : ℕ → Contract}
    {angle : ℕ → ℚ → ℚ → ℚ} {sc : ℕ → Coord → Res (List (Coord × Bool))}
    {order shuffle : List Coord → List Coord} {porder : List Graph → List (List Coord)}
    {schedule : List Graph.Op → List Graph.Op} {disk : Disk N} {name : ℕ → N} {out : N}
    {js ins : List ℕ} (hT1 : Within D T1) (hT2 : Within D T2) (hTs : ∀ i < k, Within D (Ts i))
    (hk : 1 ≤ k)
    (hsep : ∀ i < k, ∀ v ∈ ps.flatten, Separated v (polygonsPeriodic (Ts i) ps).flatten)
    (hangle : ∀ i < k, Atan2Ok (angle i))
    (hsc : ∀ i < k, IsScannerFused (c1 i) (c2 i) (angle i) (Ts i) ps (sc i))
    (ho : ∀ l, (order l).Perm l) (hsh : ∀ l, (shuffle l).Perm l)
    (hpo : ∀ gs, Graph.MergeOrder gs (porder gs)) (hsch : ∀ l, (schedule l).Perm l)
    (hinj : ∀ i < k, ∀ j < k, name i = name j → i = j) (hout : ∀ i < k, name i ≠ out)
    (hf : ∀ i < k, disk (name i) = none) (hfo : disk out = none) (hjs : js.Perm (List.range k))
    (hins : ∀ i, i ∈ ins ↔ i < k) :
    ∃ scanner disk1 disk2 G,
      runJobs disk (js.map fun (i : ℕ) => splitJob ps (sc i) order shuffle k i (name i)) =
        (.ok (), disk1) ∧
      mergeJob T1 porder schedule (ins.map name) out disk1 = (.ok (), disk2) ∧
      disk2.load T2 out = .ok G ∧ UserGraph G ∧ G.polygons.flatten.Nodup ∧
      ∀ (E : Env) (d1 d2 : Contract) (atan2 : ℚ → ℚ → ℚ), E.graph = G → Atan2Ok atan2 →
        IsReachFused d1 d2 atan2 G.polygons E.reach → (∀ l, (E.ord l).Perm l) →
        ∀ a b : Coord, a.Geo → b.Geo → E.onLand a = false → E.onLand b = false →
        Separated a ps.flatten → Separated b ps.flatten →
        ∀ (W : Type) [LinearOrder W] (A : Arith W) (allow : Bool), ∃ reach',
          Voyage T1 ps scanner order { E with reach := reach' } a b ∧
          ∀ q, Query A E a b allow q ↔ Query A { E with reach := reach' } a b allow q := by
  have hsc' : ∀ i, ∃ sc', i < k → IsScanner (Ts i) ps sc' ∧ ∀ lo hi,
      generateRange ps (sc i) order shuffle lo hi = generateRange ps sc' order shuffle lo hi := by
    intro i
    by_cases hi : i < k
    · obtain ⟨f, f1, -, f2⟩ := C72_generate (c1 i) (c2 i) (angle i) (hangle i hi) (Ts i) ps r2
        (hsep i hi) (fun v hv => cornerClear_copies (r _ (hTs i hi)).1 r2 hcor hv) (sc i)
        (hsc i hi)
      exact ⟨f, fun _ => ⟨f1, f2 order shuffle ho hsh⟩⟩
    · exact ⟨sc i, fun h => absurd h hi⟩
  choose sc' hsc' using hsc'
  obtain ⟨scanner, p0, d1, d2, G, g, p1, p2, p3, p4, p5, p6, p8, p7⟩ := C60_separate T1 T1 T2 ps hne
    hnd r2 (r T1 hT1).2 (r T2 hT2).2 hl (by omega) k hk sc'
    (fun i hi => IsScanner.change (r _ (hTs i hi)).1 (r T1 hT1).1 (hsc' i hi).1) order shuffle
    ho hsh porder hpo schedule hsch disk name hinj out hout hf hfo js ins hjs hins
  have ejobs : (js.map fun (i : ℕ) => splitJob ps (sc i) order shuffle k i (name i)) =
      js.map fun (i : ℕ) => splitJob ps (sc' i) order shuffle k i (name i) := by
    refine List.map_congr_left fun i hi => ?_
    have hi' : i < k := List.mem_range.1 (hjs.mem_iff.1 hi)
    funext dk
    unfold splitJob generateSplit
    simp only [(hsc' i hi').2]
  have hdup : G.polygons.flatten.Nodup := by
    have : Std.Symm (List.Disjoint (α := Coord)) := ⟨fun _ _ h => h.symm⟩
    rw [List.nodup_flatten] at hnd ⊢
    refine ⟨fun p hp => hnd.1 p ((p7 p).1 hp), ?_⟩
    exact p8.imp_of_mem fun {p q} hp hq hpq =>
      hnd.2.forall ((p7 p).1 hp) ((p7 q).1 hq) hpq
  refine ⟨scanner, d1, d2, G, by rw [ejobs]; exact p1, p2, p3, p6, hdup, ?_⟩
  rintro E m1 m2 atan2 rfl hatan hreach hord a b hag hbg la lb sa sb W _ A allow
  have hflat : ∀ v, v ∈ E.graph.polygons.flatten ↔ v ∈ ps.flatten := fun v => by
    simp only [List.mem_flatten, p7]
  have hcorner : ∀ x y z, CornerOf E.graph.polygons x y z → CornerOf ps x y z := by
    rintro x y z ⟨p, hp, hrest⟩
    exact ⟨p, (p7 p).1 hp, hrest⟩
  obtain ⟨reach', hr', hq'⟩ := C72_query A m1 m2 atan2 hatan E
    E.graph.polygons (fun v hv => r2 v ((hflat v).1 hv)) hreach a b allow (by
      intro ns nd c n1 n2 n3 v hv
      rw [C01_normalize_id a hag.1 hag.2.1] at n1
      rw [C01_normalize_id b hbg.1 hbg.2.1] at n2
      cases n1
      cases n2
      have hc : correct E a b allow = .ok ⟨a, b, none, none⟩ := by
        unfold correct correctOne
        rw [la, lb]
        simp only [Bool.or_self, Bool.and_false, Bool.false_eq_true, if_false]
        rfl
      rw [hc] at n3
      cases n3
      refine ⟨?_, ?_, cornerClear_of fun x y hc => hcor _ _ _ (hcorner _ _ _ hc)⟩
      · rcases hv with rfl | rfl
        · exact geo_per hag
        · exact geo_per hbg
      · intro x hx y hy
        rcases hv with rfl | rfl
        · exact sa x ((hflat x).1 hx) y ((hflat y).1 hy)
        · exact sb x ((hflat x).1 hx) y ((hflat y).1 hy))
  exact ⟨reach', ⟨r2, (r T1 hT1).1, p0, ho, ⟨g, p4, p5⟩, p6, p7, hr', hord, hag, hbg, la, lb⟩, hq'⟩

/-- **C73** The theorem of C66 for the scans as computed: every process has its own `atan2`, sorts
by the angles computed with it and fuses products as it likes; so does the query.  The vertices have
to be separated as seen from each vertex and from the endpoints, and the corners have to exceed the
rounding error. -/
theorem C73_end_to_end (D : ℕ → ℕ) (shapes : List Shape) (h : SoundFile D shapes) :
    ∃ ps : List (List Coord), (∀ T, Within D T → (readShapes shapes >>= toPolygons T) = .ok ps) ∧
    (ps ≠ [] → ps.flatten.Nodup → ps.length < 2 ^ 64 → ps.flatten.length ≤ 499998 →
    (∀ a v b, CornerOf ps a v b → CornerResolved a v b) →
    ∀ (N : Type) [DecidableEq N] (T1 T2 : ℕ → Polygon.SumTree) (Ts : ℕ → ℕ → Polygon.SumTree)
      (k : ℕ) (c1 c2 : ℕ → Contract) (angle : ℕ → ℚ → ℚ → ℚ)
      (sc : ℕ → Coord → Res (List (Coord × Bool)))
      (order shuffle : List Coord → List Coord) (porder : List Graph → List (List Coord))
      (schedule : List Graph.Op → List Graph.Op) (disk : Disk N) (name : ℕ → N) (out : N)
      (js ins : List ℕ), Within D T1 → Within D T2 → (∀ i < k, Within D (Ts i)) → 1 ≤ k →
      (∀ i < k, ∀ v ∈ ps.flatten, Separated v (polygonsPeriodic (Ts i) ps).flatten) →
      (∀ i < k, Atan2Ok (angle i)) →
      (∀ i < k, IsScannerFused (c1 i) (c2 i) (angle i) (Ts i) ps (sc i)) →
      (∀ l, (order l).Perm l) →
      (∀ l, (shuffle l).Perm l) → (∀ gs, Graph.MergeOrder gs (porder gs)) →
      (∀ l, (schedule l).Perm l) → (∀ i < k, ∀ j < k, name i = name j → i = j) →
      (∀ i < k, name i ≠ out) → (∀ i < k, disk (name i) = none) → disk out = none →
      js.Perm (List.range k) → (∀ i, i ∈ ins ↔ i < k) →
    ∃ disk1 disk2 G,
      runJobs disk (js.map fun (i : ℕ) => splitJob ps (sc i) order shuffle k i (name i)) =
        (.ok (), disk1) ∧
      mergeJob T1 porder schedule (ins.map name) out disk1 = (.ok (), disk2) ∧
      disk2.load T2 out = .ok G ∧
      ∀ (E : Env) (d1 d2 d3 : Contract) (fw : Bool) (atan2 : ℚ → ℚ → ℚ), E.graph = G →
      Atan2Ok atan2 → IsReachFused d1 d2 atan2 G.polygons E.reach → (∀ l, (E.ord l).Perm l) →
      ∀ sq : ℚ → Dbl, (SqrtOk fun q => (sq q).1) → (∀ x, 0 ≤ (sq x).1) → ∀ w : Dbl, 0 ≤ w.1 →
      ∀ s d : ℚ × ℚ, (|s.1| ≤ 180 ∧ |s.2| ≤ 90) → (|d.1| ≤ 180 ∧ |d.2| ≤ 90) →
      ∃ a b, Coord.ofDegreesC s.1 s.2 = .ok a ∧ Coord.ofDegreesC d.1 d.2 = .ok b ∧
        (E.onLand a = false → E.onLand b = false →
        Separated a ps.flatten → Separated b ps.flatten →
        ∀ chain, IsWalk (SightLeg ps) a b chain →
        (∀ v ∈ chain, v = a ∨ v = b ∨ v ∈ ps.flatten) → ∀ allow,
        (∃ r, Interpolate (fusedArith sq d3 fw w none) E s d allow r) ∧
        ∀ r, Interpolate (fusedArith sq d3 fw w none) E s d allow r →
          ∃ path, r = .ok (toDegrees path) ∧
            (path = [a, b] ∨ walkLength (legLength E) path ≤ (1 + 1 / 10 ^ 8) *
              (max 1 ((w.1 : ℚ) : ℝ) * walkLength (fun u v => planeDist u v 0) chain)))) := by
  obtain ⟨ps, r2, r⟩ := C66_read D shapes h
  refine ⟨ps, fun T hT => (r T hT).1, ?_⟩
  intro hne hnd hl hsize hcor N _ T1 T2 Ts k c1 c2 angle sc order shuffle porder schedule disk name
    out js ins hT1 hT2 hTs hk hsep hangle hsc ho hsh hpo hsch hinj hout hf hfo hjs hins
  obtain ⟨scanner, d1, d2, G, p1, p2, p3, p4, -, p5⟩ := whole_voyage r2 (fun T hT => (r T hT).2) hne
    hnd hl hsize hcor hT1 hT2 hTs hk hsep hangle hsc ho hsh hpo hsch hinj hout hf hfo hjs hins
  refine ⟨d1, d2, G, p1, p2, p3, ?_⟩
  rintro E m1 m2 m3 fw atan2 rfl hatan hreach hord sq hsq hsq0 w hw s d ⟨s1, s2⟩ ⟨e1, e2⟩
  obtain ⟨a, ha, hag⟩ := ofDegrees_geo s1 s2
  obtain ⟨b, hb, hbg⟩ := ofDegrees_geo e1 e2
  refine ⟨a, b, ha, hb, ?_⟩
  intro la lb sa sb chain hwalk hin allow
  obtain ⟨reach', hV, hq'⟩ := p5 E m1 m2 atan2 rfl hatan hreach hord a b hag hbg la lb sa sb Dbl
    (fusedArith sq m3 fw w none) allow
  unfold Interpolate
  rw [ha, Res.bind_ok, hb, Res.bind_ok]
  obtain ⟨⟨q0, hq0⟩, -⟩ := C43_outcome _ (fused_like sq hsq hsq0 m3 fw w hw none).sound E p4 hord a b
    allow
  refine ⟨⟨_, q0, hq0, rfl⟩, ?_⟩
  intro r hr
  obtain ⟨q, hq, rfl⟩ := hr
  obtain ⟨path, rfl, hpath⟩ := C72_voyage sq hsq hsq0 m3 fw T1 ps scanner order _ a b hV hsize chain
    hwalk hin w hw allow q ((hq' q).1 hq)
  exact ⟨path, rfl, hpath⟩

/-- **C73** The corners of a map whose coordinates are whole multiples of 10 microdegrees exceed the
rounding error, unless they are straight or spikes. -/
theorem C73_corners (ps : List (List Coord)) (hg : ∀ v ∈ ps.flatten, v.Geo) (g : ℤ) (hg2 : 10 ≤ g)
    (hl : ∀ v ∈ ps.flatten, OnLattice g v) (h : ∀ a v b, CornerOf ps a v b → area2 a v b ≠ 0)
    (a v b : Coord) (hc : CornerOf ps a v b) : CornerResolved a v b := by
  have h0 := h a v b hc
  obtain ⟨p, hp, i, hi, rfl, rfl, rfl⟩ := hc
  have hm : ∀ j, ringAt p j ∈ ps.flatten := fun j =>
    List.mem_flatten.2 ⟨p, hp, Vistree.ringAt_mem (by omega)⟩
  obtain ⟨a1, a2, a3, a4⟩ := hg _ (hm (i + p.length - 1))
  obtain ⟨v1, v2, v3, v4⟩ := hg _ (hm i)
  obtain ⟨b1, b2, b3, b4⟩ := hg _ (hm (i + 1))
  obtain ⟨la, la'⟩ := hl _ (hm (i + p.length - 1))
  obtain ⟨lv, lv'⟩ := hl _ (hm i)
  obtain ⟨lb, lb'⟩ := hl _ (hm (i + 1))
  generalize ringAt p (i + p.length - 1) = a at *
  generalize ringAt p i = v at *
  generalize ringAt p (i + 1) = b at *
  have e : area2 a v b =
      (v.lon - a.lon) * (b.lat - v.lat) - (v.lat - a.lat) * (b.lon - v.lon) := by
    unfold area2; ring
  unfold CornerResolved
  rw [e] at h0 ⊢
  obtain ⟨x, hx⟩ := dvd_sub lv la
  obtain ⟨y, hy⟩ := dvd_sub lv' la'
  obtain ⟨z, hz⟩ := dvd_sub lb lv
  obtain ⟨t, ht⟩ := dvd_sub lb' lv'
  have m1 : |(v.lon - a.lon) * (b.lat - v.lat)| ≤ 360000000 * 180000000 := by
    rw [abs_mul]
    exact mul_le_mul (abs_le.2 ⟨by omega, by omega⟩) (abs_le.2 ⟨by omega, by omega⟩)
      (abs_nonneg _) (by norm_num)
  have m2 : |(v.lat - a.lat) * (b.lon - v.lon)| ≤ 180000000 * 360000000 := by
    rw [abs_mul]
    exact mul_le_mul (abs_le.2 ⟨by omega, by omega⟩) (abs_le.2 ⟨by omega, by omega⟩)
      (abs_nonneg _) (by norm_num)
  have m3 : 100 ≤ |(v.lon - a.lon) * (b.lat - v.lat) - (v.lat - a.lat) * (b.lon - v.lon)| := by
    rw [hx, hy, hz, ht] at h0 ⊢
    have e2 : g * x * (g * t) - g * y * (g * z) = g ^ 2 * (x * t - y * z) := by ring
    rw [e2] at h0 ⊢
    have h1 : x * t - y * z ≠ 0 := fun h => h0 (by rw [h, mul_zero])
    have h2 : 1 ≤ |x * t - y * z| := Int.one_le_abs h1
    rw [abs_mul, abs_pow, abs_of_nonneg (by omega : 0 ≤ g)]
    nlinarith
  generalize |(v.lon - a.lon) * (b.lat - v.lat)| = X at *
  generalize |(v.lat - a.lat) * (b.lon - v.lon)| = Y at *
  generalize |(v.lon - a.lon) * (b.lat - v.lat) - (v.lat - a.lat) * (b.lon - v.lon)| = Z at *
  norm_num
  omega

/-- Every scan has an outcome, whatever is fused. -/
theorem scanFused_exists (k k' : Contract) (atan2 : ℚ → ℚ → ℚ) (look : Seg → Seg → Bool)
    (m : VisMap) (obs : Coord) (vs : List Coord) (hn : vs.Nodup) (segs : List Seg) (half : Bool) :
    ∃ r, Vistree.ScanFused k k' atan2 look m obs vs segs half r := by
  unfold Vistree.ScanFused
  split
  · exact ⟨_, rfl⟩
  · have : ∃ x, AngleSorter.SortsToFused k atan2 obs vs x := by
      unfold AngleSorter.SortsToFused
      simp only
      split
      · rename_i h
        obtain ⟨l, h1, h2⟩ := exists_sorted hn h.2
        exact ⟨_, l, rfl, h1, h2⟩
      · exact ⟨_, rfl⟩
    obtain ⟨x, hx⟩ := this
    exact ⟨_, x, hx, rfl⟩

/-- There are scanners and scans as assumed, for every map. -/
theorem fused_exists (k k' : Contract) (atan2 : ℚ → ℚ → ℚ) (T : ℕ → Polygon.SumTree)
    (ps : List (List Coord)) : (∃ scanner, IsScannerFused k k' atan2 T ps scanner) ∧
      ∃ reach, IsReachFused k k' atan2 ps reach := by
  have key : ∀ (qs : List (List Coord)) (half : Bool), ∃ f : Coord → Res (List (Coord × Bool)),
      ∀ obs, Vistree.ScanFused k k' atan2 exLook (Vistree.ofPolygons qs) obs
        (Vistree.vertices (Vistree.ofPolygons qs)) (Vistree.segments (Vistree.ofPolygons qs)) half
        (f obs) := by
    intro qs half
    have hm : Vistree.MapOf qs (Vistree.ofPolygons qs) := ⟨List.Perm.refl _⟩
    choose f hf using fun obs => scanFused_exists k k' atan2 exLook (Vistree.ofPolygons qs) obs
      (Vistree.vertices (Vistree.ofPolygons qs)) hm.nodup
      (Vistree.segments (Vistree.ofPolygons qs)) half
    exact ⟨f, hf⟩
  obtain ⟨f, hf⟩ := key (polygonsPeriodic T ps) true
  obtain ⟨f', hf'⟩ := key ps false
  exact ⟨⟨f, fun obs => ⟨_, _, exLook, List.Perm.refl _, List.Perm.refl _, exLook_ok, hf obs⟩⟩,
    f', fun obs => ⟨_, _, exLook, List.Perm.refl _, List.Perm.refl _, exLook_ok, hf' obs⟩⟩

/-- Non-vacuity of C73: the island of C66, generated in two parts, the second with products fused;
then there is an answer to the query from half a degree west of it to half a degree east, with a
fused search, and every answer is about as short as the way round the north. -/
example (k : Contract) (fw : Bool) :
    ∃ (disk2 : Disk ℕ) (G : Graph) (E : Env) (sq : ℚ → Dbl) (w : Dbl),
    disk2.load Polygon.SumTree.sequential 2 = .ok G ∧ E.graph = G ∧ w.1 = 1 ∧
    (∃ r, Interpolate (fusedArith sq k fw w none) E (-1 / 2, 1 / 2) (3 / 2, 1 / 2) false r) ∧
    ∀ r, Interpolate (fusedArith sq k fw w none) E (-1 / 2, 1 / 2) (3 / 2, 1 / 2) false r →
      ∃ path, r = .ok (toDegrees path) ∧ (path = [⟨-500000, 500000⟩, ⟨1500000, 500000⟩] ∨
        walkLength (legLength E) path ≤ (1 + 1 / 10 ^ 8) *
          (max 1 ((w.1 : ℚ) : ℝ) * walkLength (fun u v => planeDist u v 0)
            [⟨-500000, 500000⟩, ⟨0, 1000000⟩, ⟨1000000, 1000000⟩, ⟨1500000, 500000⟩])) := by
  obtain ⟨sq, q1, q2⟩ := exists_sqrt_dbl
  obtain ⟨at2, hat, -⟩ := atan2_exists
  obtain ⟨ps, h1, h2⟩ := C73_end_to_end _ exFile exFile_sound
  have hT : Within (fun n => (Polygon.SumTree.sequential n).depth) Polygon.SumTree.sequential :=
    ⟨sequential_ok, fun _ => le_refl _⟩
  have h1 := h1 _ hT
  rw [exFile_read] at h1
  cases h1
  have hgeo : ∀ v ∈ [exDegree].flatten, v.Geo := by decide
  have hlat : ∀ v ∈ [exDegree].flatten, OnLattice 10000 v := by unfold OnLattice; decide
  have hcor := C73_corners [exDegree] hgeo 10000 (by norm_num) hlat (by
    rintro a v b ⟨p, hp, i, hi, rfl, rfl, rfl⟩
    obtain rfl := List.mem_singleton.1 hp
    have hi : i < 4 := hi
    interval_cases i <;> decide)
  have hsep := C71_copies Polygon.SumTree.sequential [exDegree] hgeo 10000 (by norm_num) hlat
  choose sc hsc using fun i : ℕ => (fused_exists (if i = 0 then .none else k) k at2
    Polygon.SumTree.sequential [exDegree]).1
  obtain ⟨-, disk2, G, -, -, h3, h4⟩ := h2 (by decide) (by decide) (by decide) (by decide) hcor ℕ
    Polygon.SumTree.sequential Polygon.SumTree.sequential (fun _ => Polygon.SumTree.sequential) 2
    _ _ _ sc id id (fun gs => (gs.flatMap Graph.polygons).dedup) id (fun _ => none) id 2 [1, 0]
    [0, 1] hT hT (fun _ _ => hT) (by decide) (fun _ _ => hsep) (fun _ _ => hat)
    (fun i _ => hsc i) (fun _ => .refl _) (fun _ => .refl _)
    (fun gs => ⟨List.nodup_dedup _, fun p => by rw [List.mem_dedup, List.mem_flatMap]⟩)
    (fun _ => .refl _) (fun _ _ _ _ h => h) (by decide) (by simp) rfl (by decide)
    (by intro i; simp; omega)
  obtain ⟨reach, hreach⟩ := (fused_exists k k at2 Polygon.SumTree.sequential G.polygons).2
  have fl1 : fl 1 = 1 := by
    have := fl_int 1 (by norm_num)
    rwa [Int.cast_one] at this
  let w : Dbl := Dbl.round 1
  have hw : w.1 = 1 := fl1
  let E : Env :=
    { graph := G
      onLand := fun _ => false
      closest := fun _ => .error .exn
      project := fun _ c => .ok c
      crossings := fun _ => [⟨⟨0, 0⟩, ⟨0, 1000000⟩⟩]
      reach := reach
      ord := id }
  obtain ⟨a, b, ha, hb, h5⟩ := h4 E k k k fw at2 rfl hat hreach (fun _ => .refl _)
    sq q1 q2 w (by rw [hw]; norm_num) (-1 / 2, 1 / 2) (3 / 2, 1 / 2)
    (by constructor <;> rw [abs_le] <;> norm_num) (by constructor <;> rw [abs_le] <;> norm_num)
  have ea : Coord.ofDegreesC (-1 / 2) (1 / 2) = .ok ⟨-500000, 500000⟩ := by decide +kernel
  have eb : Coord.ofDegreesC (3 / 2) (1 / 2) = .ok ⟨1500000, 500000⟩ := by decide +kernel
  rw [ea] at ha
  rw [eb] at hb
  cases ha
  cases hb
  exact ⟨disk2, G, E, sq, w, h3, rfl, hw, h5 rfl rfl (by decide) (by decide) _ exFile_chain
    (by decide) false⟩

end Capi
