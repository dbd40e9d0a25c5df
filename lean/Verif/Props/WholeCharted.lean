import Verif.Props.Charted
import Verif.Props.Whole

/-!
# C90 for the whole program

From a shapefile of polygons of any form to paths over the sea, with the arithmetic of the code.
-/

namespace Capi

open Frontend ShortestPath Visgraph

/-- The first ring of a shape which is read, its points rounded to coordinates. -/
def RingIn (shapes : List Shape) (cs : List Coord) : Prop :=
  ∃ s ∈ shapes, s.isPolygon = true ∧ 4 ≤ (firstRing s).length ∧
    ((firstRing s).dropLast.mapM fun p => Coord.ofDegreesC p.1 p.2) = .ok cs

theorem ring_geo {D : ℕ → ℕ} {shapes : List Shape} (h : SoundFile D shapes) {cs : List Coord}
    (hc : RingIn shapes cs) : ∀ v ∈ cs, v.Geo := by
  obtain ⟨s, hm, -, -, e⟩ := hc
  obtain ⟨cs', g1, g2⟩ := mapM_ok (f := fun p : ℚ × ℚ => Coord.ofDegreesC p.1 p.2)
    (P := Coord.Geo) (firstRing s).dropLast (by
      intro p hp
      have hp : p ∈ s.points := by
        have := List.dropLast_subset _ hp
        unfold firstRing at this
        split at this
        · exact List.mem_of_mem_take this
        · exact this
      obtain ⟨a, b⟩ := h.1 s hm p hp
      exact ofDegrees_geo a b)
  rw [e] at g1
  cases g1
  exact g2

theorem mem_mapM {α β : Type} {f : α → Res β} : ∀ {l : List α} {r : List β}, l.mapM f = .ok r →
    ∀ y, y ∈ r ↔ ∃ x ∈ l, f x = .ok y := by
  intro l
  induction l with
  | nil =>
    intro r h y
    cases h
    simp
  | cons a l ih =>
    intro r h y
    rw [List.mapM_cons] at h
    cases ha : f a with
    | error e => rw [ha] at h; cases h
    | ok b =>
      rw [ha, Res.bind_ok] at h
      cases hl : l.mapM f with
      | error e => rw [hl] at h; cases h
      | ok bs =>
        rw [hl, Res.bind_ok] at h
        cases h
        rw [List.mem_cons, ih hl]
        simp [ha, eq_comm]

/-- **C90** From a sound file of rings without self-contact polygons without self-contact are read,
which go counter-clockwise round just the points round which the rings go. -/
theorem C90_read (D : ℕ → ℕ) (shapes : List Shape) (h : SoundFile D shapes)
    (hs : ∀ cs, RingIn shapes cs → SimpleRing cs) (T : ℕ → Polygon.SumTree) (hT : Within D T)
    (ps : List (List Coord)) (hr : (readShapes shapes >>= toPolygons T) = .ok ps) :
    (∀ p ∈ ps, SimpleRing p ∧ 0 < twiceArea p) ∧
    (⋃ p ∈ ps, Interior p) = ⋃ cs ∈ {cs | RingIn shapes cs}, Interior cs := by
  rw [C54_read, Res.bind_ok] at hr
  have hmem : ∀ p, p ∈ ps ↔ ∃ cs, RingIn shapes cs ∧ p = Polygon.mk T cs := by
    intro p
    unfold toPolygons at hr
    rw [mem_mapM hr]
    constructor
    · rintro ⟨q, hq, e⟩
      obtain ⟨s, hsf, rfl⟩ := List.mem_map.1 hq
      obtain ⟨hm, hc⟩ := List.mem_filter.1 hsf
      rw [Bool.and_eq_true, decide_eq_true_eq] at hc
      cases hcs : (firstRing s).dropLast.mapM fun p => Coord.ofDegreesC p.1 p.2 with
      | error x => rw [hcs] at e; cases e
      | ok cs =>
        rw [hcs, Res.bind_ok] at e
        cases e
        exact ⟨cs, ⟨s, hm, hc.1, hc.2, hcs⟩, rfl⟩
    · rintro ⟨cs, ⟨s, hm, h1, h2, e⟩, rfl⟩
      refine ⟨_, List.mem_map.2 ⟨s, List.mem_filter.2 ⟨hm, ?_⟩, rfl⟩, by rw [e]; rfl⟩
      rw [Bool.and_eq_true, decide_eq_true_eq]
      exact ⟨h1, h2⟩
  have key : ∀ cs, RingIn shapes cs → SimpleRing (Polygon.mk T cs) ∧
      0 < twiceArea (Polygon.mk T cs) ∧ Interior (Polygon.mk T cs) = Interior cs := by
    intro cs hcs
    have hper : ∀ v ∈ cs, v.Per := fun v hv => geo_per (ring_geo h hcs v hv)
    obtain ⟨s, hm, h1, h2, e⟩ := hcs
    have hsr := h.2 s hm h1 h2 cs e
    obtain ⟨b1, b2⟩ := hsr.bounds hT
    have hsim := hs cs ⟨s, hm, h1, h2, e⟩
    obtain ⟨k1, -, k2, -⟩ := C89_polygon T hT.plan cs hper hsim b1
      (by rwa [← removeCollinear_area hsr.1])
    exact ⟨k1, C12_counter_clockwise_partial T hT.plan cs hper b1 b2, k2⟩
  refine ⟨fun p hp => ?_, ?_⟩
  · obtain ⟨cs, hcs, rfl⟩ := (hmem p).1 hp
    exact ⟨(key cs hcs).1, (key cs hcs).2.1⟩
  · ext z
    simp only [Set.mem_iUnion, exists_prop]
    constructor
    · rintro ⟨p, hp, hz⟩
      obtain ⟨cs, hcs, rfl⟩ := (hmem p).1 hp
      exact ⟨cs, hcs, (key cs hcs).2.2 ▸ hz⟩
    · rintro ⟨cs, hcs, hz⟩
      exact ⟨_, (hmem _).2 ⟨cs, hcs, rfl⟩, by rw [(key cs hcs).2.2]; exact hz⟩

/-- **C90** A shapefile is read whose polygons do not touch themselves and have legible vertices; the
parts of its graph are generated by separate processes that sort by computed angles and fuse products
as they like, stored, merged and loaded.  Then every query between points at sea in legible positions
has an outcome.  A path returned keeps to the sea or is the straight line in whose way the index finds
nothing.  If the straight line is not over the sea but there is a course over the sea this side of the
meridian, a path is returned, and it is at most as long as that course up to rounding and
greediness. -/
theorem C90_end_to_end (D : ℕ → ℕ) (shapes : List Shape) (h : SoundFile D shapes) :
    ∃ ps : List (List Coord), (∀ T, Within D T → (readShapes shapes >>= toPolygons T) = .ok ps) ∧
    (ps ≠ [] → (∀ p ∈ ps, SimpleRing p ∧ 0 < twiceArea p) → ps.flatten.Nodup →
    (∀ p ∈ ps, ∀ v ∈ ps.flatten, v.pt ∉ Interior p) →
    ps.length < 2 ^ 64 → ps.flatten.length ≤ 499998 →
    (∀ a v b, CornerOf ps a v b → CornerResolved a v b) →
    ∀ (N : Type) [DecidableEq N] (T1 T2 : ℕ → Polygon.SumTree) (Ts : ℕ → ℕ → Polygon.SumTree)
      (k : ℕ) (c1 c2 : ℕ → Contract) (angle : ℕ → ℚ → ℚ → ℚ)
      (sc : ℕ → Coord → Res (List (Coord × Bool)))
      (order shuffle : List Coord → List Coord) (porder : List Graph → List (List Coord))
      (schedule : List Graph.Op → List Graph.Op) (disk : Disk N) (name : ℕ → N) (out : N)
      (js ins : List ℕ), Within D T1 → Within D T2 → (∀ i < k, Within D (Ts i)) → 1 ≤ k →
      (∀ v ∈ ps.flatten, Legible true (polygonsPeriodic T1 ps) v) →
      (∀ i < k, ∀ v ∈ ps.flatten, Separated v (polygonsPeriodic (Ts i) ps).flatten) →
      (∀ i < k, Atan2Ok (angle i)) →
      (∀ i < k, IsScannerFused (c1 i) (c2 i) (angle i) (Ts i) ps (sc i)) →
      (∀ l, (order l).Perm l) →
      (∀ l, (shuffle l).Perm l) → (∀ gs, Graph.MergeOrder gs (porder gs)) →
      (∀ l, (schedule l).Perm l) → (∀ i < k, ∀ j < k, name i = name j → i = j) →
      (∀ i < k, name i ≠ out) → (∀ i < k, disk (name i) = none) → disk out = none →
      js.Perm (List.range k) → (∀ i, i ∈ ins ↔ i < k) →
    ∃ disk1 disk2 G,
      runJobs disk (js.map fun (i : ℕ) => splitJob ps (sc i) order shuffle k i (name i)) =
        (.ok (), disk1) ∧
      mergeJob T1 porder schedule (ins.map name) out disk1 = (.ok (), disk2) ∧
      disk2.load T2 out = .ok G ∧
      ∀ (E : Env) (d1 d2 d3 : Contract) (fw : Bool) (atan2 : ℚ → ℚ → ℚ), E.graph = G →
      Atan2Ok atan2 → IsReachFused d1 d2 atan2 G.polygons E.reach → (∀ l, (E.ord l).Perm l) →
      ∀ sq : ℚ → Dbl, (SqrtOk fun q => (sq q).1) → (∀ x, 0 ≤ (sq x).1) → ∀ w : Dbl, 0 ≤ w.1 →
      ∀ s d : ℚ × ℚ, (|s.1| ≤ 180 ∧ |s.2| ≤ 90) → (|d.1| ≤ 180 ∧ |d.2| ≤ 90) →
      ∃ a b, Coord.ofDegreesC s.1 s.2 = .ok a ∧ Coord.ofDegreesC d.1 d.2 = .ok b ∧
        (E.onLand a = false → E.onLand b = false →
        Separated a ps.flatten → Separated b ps.flatten →
        Position ps a → Position ps b → ∀ allow,
        (∃ r, Interpolate (fusedArith sq d3 fw w none) E s d allow r) ∧
        (∀ path, Interpolate (fusedArith sq d3 fw w none) E s d allow (.ok path) →
          E.crossings ⟨a, b⟩ = [] ∧ path = toDegrees [a, b] ∨
          ∃ cs, path = toDegrees cs ∧ IsWalk (LegOver (Ashore ps) E) a b cs) ∧
        (a ≠ b → ¬ AtSea (Ashore ps) a.pt b.pt →
        ∀ course, IsWalk (AtSea (⋃ p ∈ ps, Interior p)) a.pt b.pt course →
        ∀ r, Interpolate (fusedArith sq d3 fw w none) E s d allow r →
          ∃ path, r = .ok (toDegrees path) ∧ (E.crossings ⟨a, b⟩ = [] ∧ path = [a, b] ∨
            IsWalk (LegOver (Ashore ps) E) a b path ∧
            walkLength (legLength E) path ≤ (1 + 1 / 10 ^ 8) *
              (max 1 ((w.1 : ℚ) : ℝ) * walkLength lineLength course))))) := by
  obtain ⟨ps, r2, r⟩ := C66_read D shapes h
  refine ⟨ps, fun T hT => (r T hT).1, ?_⟩
  intro hne hsim hnd hoff hl hsize hcor N _ T1 T2 Ts k c1 c2 angle sc order shuffle porder schedule
    disk name out js ins hT1 hT2 hTs hk hleg hsep hangle hsc ho hsh hpo hsch hinj hout hf hfo hjs hins
  obtain ⟨scanner, d1, d2, G, p1, p2, p3, p4, hdup, p5⟩ := whole_voyage r2
    (fun T hT => (r T hT).2) hne hnd hl hsize hcor hT1 hT2 hTs hk hsep hangle hsc ho hsh hpo
    hsch hinj hout hf hfo hjs hins
  have hch : Charted T1 ps := ⟨fun p hp => (hsim p hp).1, fun p hp => (hsim p hp).2, hnd, hoff, r2,
    (r T1 hT1).2.1, hleg, hcor⟩
  refine ⟨d1, d2, G, p1, p2, p3, ?_⟩
  rintro E m1 m2 m3 fw atan2 rfl hatan hreach hord sq hsq hsq0 w hw s d ⟨s1, s2⟩ ⟨e1, e2⟩
  obtain ⟨a, ha, hag⟩ := ofDegrees_geo s1 s2
  obtain ⟨b, hb, hbg⟩ := ofDegrees_geo e1 e2
  refine ⟨a, b, ha, hb, ?_⟩
  intro la lb sa sb oa ob allow
  have hlike := fused_like sq hsq hsq0 m3 fw w hw none
  obtain ⟨reach', hV, hq'⟩ := p5 E m1 m2 atan2 rfl hatan hreach hord a b hag hbg la lb sa sb Dbl
    (fusedArith sq m3 fw w none) allow
  unfold Interpolate
  rw [ha, Res.bind_ok, hb, Res.bind_ok]
  obtain ⟨⟨q0, hq0⟩, -⟩ := C43_outcome _ hlike.sound E p4 hord a b allow
  refine ⟨⟨_, q0, hq0, rfl⟩, ?_, ?_⟩
  · rintro path ⟨q, hq, hp⟩
    obtain ⟨cs, rfl⟩ : ∃ cs, q = .ok cs := by
      cases q with
      | ok cs => exact ⟨cs, rfl⟩
      | error e => cases hp
    cases hp
    rcases C90_path_sea _ hlike.sound hch hV hdup oa ob allow cs ((hq' _).1 hq) with ⟨h1, rfl⟩ | h1
    · exact Or.inl ⟨h1, rfl⟩
    · exact Or.inr ⟨cs, rfl, h1⟩
  · rintro hab hblock course hcourse r ⟨q, hq, rfl⟩
    obtain ⟨path, rfl, hpath⟩ := C90_path hlike hw hch hV hsize hdup oa ob hab hblock course hcourse
      allow q ((hq' q).1 hq)
    exact ⟨path, rfl, hpath⟩

/-! ### The harbour from a file -/

/-- The island clockwise, with a point on its southern side, and the rock. -/
def exHarbourFile : List Shape :=
  [⟨true, [(29 / 10, 19 / 10), (9 / 10, 26 / 100), (305 / 100, -1), (305 / 200, -11 / 20),
      (0, -1 / 10), (29 / 10, 19 / 10)], [0]⟩,
    ⟨true, [(23 / 10, 3 / 10), (285 / 100, 35 / 100), (265 / 100, 65 / 100), (23 / 10, 3 / 10)], [0]⟩]

/-- The island as in the file. -/
def exHarbourRing : List Coord := [⟨2900000, 1900000⟩, ⟨900000, 260000⟩, ⟨3050000, -1000000⟩,
  ⟨1525000, -550000⟩, ⟨0, -100000⟩]

theorem exHarbourFile_read :
    (readShapes exHarbourFile >>= toPolygons Polygon.SumTree.sequential) = .ok exHarbour := by
  decide +kernel

theorem exHarbourFile_ring {cs : List Coord} (h : RingIn exHarbourFile cs) :
    cs = exHarbourRing ∨ cs = [⟨2300000, 300000⟩, ⟨2850000, 350000⟩, ⟨2650000, 650000⟩] := by
  obtain ⟨s, hs, -, -, e⟩ := h
  have e1 : ((firstRing (exHarbourFile.getD 0 ⟨true, [], []⟩)).dropLast.mapM
      fun p => Coord.ofDegreesC p.1 p.2) = .ok exHarbourRing := by decide +kernel
  have e2 : ((firstRing (exHarbourFile.getD 1 ⟨true, [], []⟩)).dropLast.mapM
      fun p => Coord.ofDegreesC p.1 p.2) =
      .ok [⟨2300000, 300000⟩, ⟨2850000, 350000⟩, ⟨2650000, 650000⟩] := by decide +kernel
  have hs : s = exHarbourFile.getD 0 ⟨true, [], []⟩ ∨ s = exHarbourFile.getD 1 ⟨true, [], []⟩ := by
    simpa [exHarbourFile] using hs
  rcases hs with rfl | rfl
  · rw [e1] at e
    cases e
    exact Or.inl rfl
  · rw [e2] at e
    cases e
    exact Or.inr rfl

theorem exHarbourFile_sound :
    SoundFile (fun n => (Polygon.SumTree.sequential n).depth) exHarbourFile := by
  refine ⟨by decide +kernel, ?_⟩
  intro s hs h1 h2 cs hcs
  rcases exHarbourFile_ring ⟨s, hs, h1, h2, hcs⟩ with rfl | rfl <;>
    refine ⟨by decide, ?_, ?_⟩ <;> decide +kernel

/-- Non-vacuity of `C90_read`. -/
example : (∀ cs, RingIn exHarbourFile cs → SimpleRing cs) ∧
    (⋃ p ∈ exHarbour, Interior p) = ⋃ cs ∈ {cs | RingIn exHarbourFile cs}, Interior cs := by
  have hs : ∀ cs, RingIn exHarbourFile cs → SimpleRing cs := by
    intro cs h
    rcases exHarbourFile_ring h with rfl | rfl <;> decide +kernel
  exact ⟨hs, (C90_read _ _ exHarbourFile_sound hs Polygon.SumTree.sequential
    ⟨sequential_ok, fun _ => le_refl _⟩ _ exHarbourFile_read).2⟩

/-- Non-vacuity of `C90_end_to_end`: the harbour, generated in two parts, the second with products
fused; the query out of the bay has an answer, and every answer keeps to the sea and is about as short
as the course round the north. -/
example (k : Contract) (fw : Bool) :
    ∃ (disk2 : Disk ℕ) (G : Graph) (E : Env) (sq : ℚ → Dbl) (w : Dbl),
    disk2.load Polygon.SumTree.sequential 2 = .ok G ∧ E.graph = G ∧ w.1 = 1 ∧
    (∃ r, Interpolate (fusedArith sq k fw w none) E (17 / 10, 7 / 20) (-3 / 2, -1 / 2) false r) ∧
    ∀ r, Interpolate (fusedArith sq k fw w none) E (17 / 10, 7 / 20) (-3 / 2, -1 / 2) false r →
      ∃ path, r = .ok (toDegrees path) ∧
        IsWalk (LegOver (Ashore exHarbour) E) exMooring exLanding path ∧
        walkLength (legLength E) path ≤ (1 + 1 / 10 ^ 8) * (max 1 ((w.1 : ℚ) : ℝ) *
          walkLength lineLength (exHarbourCourse.map Coord.pt)) := by
  obtain ⟨sq, q1, q2⟩ := exists_sqrt_dbl
  obtain ⟨at2, hat, -⟩ := atan2_exists
  obtain ⟨ps, h1, h2⟩ := C90_end_to_end _ exHarbourFile exHarbourFile_sound
  have hT : Within (fun n => (Polygon.SumTree.sequential n).depth) Polygon.SumTree.sequential :=
    ⟨sequential_ok, fun _ => le_refl _⟩
  have h1 := h1 _ hT
  rw [exHarbourFile_read] at h1
  cases h1
  have hlat : ∀ v ∈ exHarbour.flatten, OnLattice 10000 v := by unfold OnLattice; decide
  have hch := exHarbour_charted
  have hsep := C71_copies Polygon.SumTree.sequential exHarbour hch.geo 10000 (by norm_num) hlat
  choose sc hsc using fun i : ℕ => (fused_exists (if i = 0 then .none else k) k at2
    Polygon.SumTree.sequential exHarbour).1
  obtain ⟨-, disk2, G, -, -, h3, h4⟩ := h2 (by decide) (fun p hp => ⟨hch.simple p hp, hch.left p hp⟩)
    hch.nodup hch.off (by decide) (by decide) hch.corners
    ℕ Polygon.SumTree.sequential Polygon.SumTree.sequential (fun _ => Polygon.SumTree.sequential) 2
    _ _ _ sc id id (fun gs => (gs.flatMap Graph.polygons).dedup) id (fun _ => none) id 2 [1, 0]
    [0, 1] hT hT (fun _ _ => hT) (by decide) hch.legible (fun _ _ => hsep) (fun _ _ => hat)
    (fun i _ => hsc i) (fun _ => .refl _) (fun _ => .refl _)
    (fun gs => ⟨List.nodup_dedup _, fun p => by rw [List.mem_dedup, List.mem_flatMap]⟩)
    (fun _ => .refl _) (fun _ _ _ _ h => h) (by decide) (by simp) rfl (by decide)
    (by intro i; simp; omega)
  obtain ⟨reach, hreach⟩ := (fused_exists k k at2 Polygon.SumTree.sequential G.polygons).2
  have fl1 : fl 1 = 1 := by
    have := fl_int 1 (by norm_num)
    rwa [Int.cast_one] at this
  let w : Dbl := Dbl.round 1
  have hw : w.1 = 1 := fl1
  let E : Env :=
    { graph := G
      onLand := fun _ => false
      closest := fun _ => .error .exn
      project := fun _ c => .ok c
      crossings := fun _ => [⟨⟨3050000, -1000000⟩, ⟨900000, 260000⟩⟩]
      reach := reach
      ord := id }
  obtain ⟨a, b, ha, hb, h5⟩ := h4 E k k k fw at2 rfl hat hreach (fun _ => .refl _)
    sq q1 q2 w (by rw [hw]; norm_num) (17 / 10, 7 / 20) (-3 / 2, -1 / 2)
    (by constructor <;> rw [abs_le] <;> norm_num) (by constructor <;> rw [abs_le] <;> norm_num)
  have ea : Coord.ofDegreesC (17 / 10) (7 / 20) = .ok exMooring := by decide +kernel
  have eb : Coord.ofDegreesC (-3 / 2) (-1 / 2) = .ok exLanding := by decide +kernel
  rw [ea] at ha
  rw [eb] at hb
  cases ha
  cases hb
  obtain ⟨h6, -, h7⟩ := h5 rfl rfl (by decide) (by decide) exHarbour_position.1
    exHarbour_position.2 false
  refine ⟨disk2, G, E, sq, w, h3, rfl, hw, h6, fun r hr => ?_⟩
  obtain ⟨path, rfl, ⟨hp, -⟩ | hp⟩ := h7 (by decide) exHarbour_blocked _ exHarbour_course r hr
  · exact absurd hp (by simp [E])
  · exact ⟨path, rfl, hp⟩

end Capi
