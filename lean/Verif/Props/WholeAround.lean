import Verif.Props.WholeCharted
import Verif.Props.Around

/-!
# C92 for the whole program

From a shapefile of polygons of any form to paths round the globe, with the arithmetic of the code.
-/

namespace Capi

open Frontend ShortestPath Visgraph

/-- **C92** A shapefile is read whose polygons do not touch themselves and have legible vertices; the
parts of its graph are generated by separate processes that sort by computed angles and fuse products
as they like, stored, merged and loaded.  If the straight line between points at sea in legible
positions is not over the sea but there is a course over the sea in whichever direction round the
globe, shorter than one turn of it, a path is returned, and it is at most as long as that course up
to rounding and greediness: if no two vertices see each other both directly and the shorter way across
the meridian, and an endpoint that is not a vertex does not see one across the meridian only.  And if
no straight line over the sea goes once round the globe, every path returned other than the straight
line is a course over the sea of the length it is given. -/
theorem C92_end_to_end (D : ℕ → ℕ) (shapes : List Shape) (h : SoundFile D shapes) :
    ∃ ps : List (List Coord), (∀ T, Within D T → (readShapes shapes >>= toPolygons T) = .ok ps) ∧
    (ps ≠ [] → (∀ p ∈ ps, SimpleRing p ∧ 0 < twiceArea p) → ps.flatten.Nodup →
    (∀ p ∈ ps, ∀ v ∈ ps.flatten, v.pt ∉ Interior p) →
    ps.length < 2 ^ 64 → ps.flatten.length ≤ 499998 →
    (∀ a v b, CornerOf ps a v b → CornerResolved a v b) →
    ∀ (N : Type) [DecidableEq N] (T1 T2 : ℕ → Polygon.SumTree) (Ts : ℕ → ℕ → Polygon.SumTree)
      (k : ℕ) (c1 c2 : ℕ → Contract) (angle : ℕ → ℚ → ℚ → ℚ)
      (sc : ℕ → Coord → Res (List (Coord × Bool)))
      (order shuffle : List Coord → List Coord) (porder : List Graph → List (List Coord))
      (schedule : List Graph.Op → List Graph.Op) (disk : Disk N) (name : ℕ → N) (out : N)
      (js ins : List ℕ), Within D T1 → Within D T2 → (∀ i < k, Within D (Ts i)) → 1 ≤ k →
      (∀ v ∈ ps.flatten, Legible true (polygonsPeriodic T1 ps) v) →
      (∀ i < k, ∀ v ∈ ps.flatten, Separated v (polygonsPeriodic (Ts i) ps).flatten) →
      (∀ i < k, Atan2Ok (angle i)) →
      (∀ i < k, IsScannerFused (c1 i) (c2 i) (angle i) (Ts i) ps (sc i)) →
      (∀ l, (order l).Perm l) →
      (∀ l, (shuffle l).Perm l) → (∀ gs, Graph.MergeOrder gs (porder gs)) →
      (∀ l, (schedule l).Perm l) → (∀ i < k, ∀ j < k, name i = name j → i = j) →
      (∀ i < k, name i ≠ out) → (∀ i < k, disk (name i) = none) → disk out = none →
      js.Perm (List.range k) → (∀ i, i ∈ ins ↔ i < k) →
    ∃ disk1 disk2 G,
      runJobs disk (js.map fun (i : ℕ) => splitJob ps (sc i) order shuffle k i (name i)) =
        (.ok (), disk1) ∧
      mergeJob T1 porder schedule (ins.map name) out disk1 = (.ok (), disk2) ∧
      disk2.load T2 out = .ok G ∧
      ∀ (E : Env) (d1 d2 d3 : Contract) (fw : Bool) (atan2 : ℚ → ℚ → ℚ), E.graph = G →
      Atan2Ok atan2 → IsReachFused d1 d2 atan2 G.polygons E.reach → (∀ l, (E.ord l).Perm l) →
      ∀ sq : ℚ → Dbl, (SqrtOk fun q => (sq q).1) → (∀ x, 0 ≤ (sq x).1) → ∀ w : Dbl, 0 ≤ w.1 →
      ∀ s d : ℚ × ℚ, (|s.1| ≤ 180 ∧ |s.2| ≤ 90) → (|d.1| ≤ 180 ∧ |d.2| ≤ 90) →
      ∃ a b, Coord.ofDegreesC s.1 s.2 = .ok a ∧ Coord.ofDegreesC d.1 d.2 = .ok b ∧
        (E.onLand a = false → E.onLand b = false →
        Separated a ps.flatten → Separated b ps.flatten →
        Position ps a → Position ps b → ∀ allow,
        (∃ r, Interpolate (fusedArith sq d3 fw w none) E s d allow r) ∧
        (a ≠ b → ¬ AtSea (Ashore ps) a.pt b.pt → DirectBest ps a b →
        ∀ (turn : ℤ) (course : List ℂ), IsWalk (AtSea (Ashore ps)) a.pt (b.shift turn).pt course →
        walkLength lineLength course < 360000001 / 1000000 →
        ∀ r, Interpolate (fusedArith sq d3 fw w none) E s d allow r →
          ∃ path, r = .ok (toDegrees path) ∧ (E.crossings ⟨a, b⟩ = [] ∧ path = [a, b] ∨
            IsWalk (LegOver (Ashore ps) E) a b path ∧
            walkLength (legLength E) path ≤ (1 + 1 / 10 ^ 8) *
              (max 1 ((w.1 : ℚ) : ℝ) * walkLength lineLength course))) ∧
        (NoTurn ps → ∀ r, Interpolate (fusedArith sq d3 fw w none) E s d allow (.ok r) →
          ∃ path, r = toDegrees path ∧ (E.crossings ⟨a, b⟩ = [] ∧ path = [a, b] ∨
            ∃ (turn : ℤ) (course : List ℂ),
              IsWalk (AtSea (Ashore ps)) a.pt (b.shift turn).pt course ∧
              walkLength lineLength course = walkLength (legLength E) path)))) := by
  obtain ⟨ps, r2, r⟩ := C66_read D shapes h
  refine ⟨ps, fun T hT => (r T hT).1, ?_⟩
  intro hne hsim hnd hoff hl hsize hcor N _ T1 T2 Ts k c1 c2 angle sc order shuffle porder schedule
    disk name out js ins hT1 hT2 hTs hk hleg hsep hangle hsc ho hsh hpo hsch hinj hout hf hfo hjs hins
  obtain ⟨scanner, d1, d2, G, p1, p2, p3, p4, hdup, p5⟩ := whole_voyage r2
    (fun T hT => (r T hT).2) hne hnd hl hsize hcor hT1 hT2 hTs hk hsep hangle hsc ho hsh hpo
    hsch hinj hout hf hfo hjs hins
  have hch : Charted T1 ps := ⟨fun p hp => (hsim p hp).1, fun p hp => (hsim p hp).2, hnd, hoff, r2,
    (r T1 hT1).2.1, hleg, hcor⟩
  refine ⟨d1, d2, G, p1, p2, p3, ?_⟩
  rintro E m1 m2 m3 fw atan2 rfl hatan hreach hord sq hsq hsq0 w hw s d ⟨s1, s2⟩ ⟨e1, e2⟩
  obtain ⟨a, ha, hag⟩ := ofDegrees_geo s1 s2
  obtain ⟨b, hb, hbg⟩ := ofDegrees_geo e1 e2
  refine ⟨a, b, ha, hb, ?_⟩
  intro la lb sa sb oa ob allow
  have hlike := fused_like sq hsq hsq0 m3 fw w hw none
  obtain ⟨reach', hV, hq'⟩ := p5 E m1 m2 atan2 rfl hatan hreach hord a b hag hbg la lb sa sb Dbl
    (fusedArith sq m3 fw w none) allow
  unfold Interpolate
  rw [ha, Res.bind_ok, hb, Res.bind_ok]
  obtain ⟨⟨q0, hq0⟩, -⟩ := C43_outcome _ hlike.sound E p4 hord a b allow
  refine ⟨⟨_, q0, hq0, rfl⟩, ?_, ?_⟩
  · rintro hab hblock hone turn course hcourse hshort r ⟨q, hq, rfl⟩
    obtain ⟨path, rfl, hpath⟩ := C92_path hlike hw hch hV hsize hdup oa ob hab hblock hone turn course
      hcourse hshort allow q ((hq' q).1 hq)
    exact ⟨path, rfl, hpath⟩
  · rintro hturn r ⟨q, hq, hp⟩
    obtain ⟨cs, rfl⟩ : ∃ cs, q = .ok cs := by
      cases q with
      | ok cs => exact ⟨cs, rfl⟩
      | error e => cases hp
    cases hp
    rcases C92_course _ hlike.sound hch hV hdup oa ob hturn allow cs ((hq' _).1 hq) with h1 | h1
    · exact ⟨cs, rfl, Or.inl h1⟩
    · exact ⟨cs, rfl, Or.inr h1⟩

/-! ### The havens from a file -/

/-- The first island with a point on its outer side, the second clockwise, and the long one. -/
def exHavensFile : List Shape :=
  [⟨true, [(172, -1 / 10), (3411 / 20, 9 / 10), (1691 / 10, 19 / 10), (1711 / 10, 26 / 100),
      (3379 / 20, -1), (172, -1 / 10)], [0]⟩,
    ⟨true, [(-1692 / 10, 195 / 100), (-171, 27 / 100), (-1689 / 10, -11 / 10), (-1721 / 10, -15 / 100),
      (-1692 / 10, 195 / 100)], [0]⟩,
    ⟨true, [(-1, -20), (2, -21), (1 / 2, 22), (-1, -20)], [0]⟩]

theorem exHavensFile_read :
    (readShapes exHavensFile >>= toPolygons Polygon.SumTree.sequential) = .ok exHavens := by
  decide +kernel

/-- The rings of the file. -/
def exHavensRings : List (List Coord) :=
  [[⟨172000000, -100000⟩, ⟨170550000, 900000⟩, ⟨169100000, 1900000⟩, ⟨171100000, 260000⟩,
      ⟨168950000, -1000000⟩],
    [⟨-169200000, 1950000⟩, ⟨-171000000, 270000⟩, ⟨-168900000, -1100000⟩, ⟨-172100000, -150000⟩],
    [⟨-1000000, -20000000⟩, ⟨2000000, -21000000⟩, ⟨500000, 22000000⟩]]

theorem exHavensFile_sound :
    SoundFile (fun n => (Polygon.SumTree.sequential n).depth) exHavensFile := by
  refine ⟨by decide +kernel, ?_⟩
  intro s hs _ _ cs hcs
  have e : (exHavensFile.map fun s => (firstRing s).dropLast.mapM
      fun p => Coord.ofDegreesC p.1 p.2) = exHavensRings.map .ok := by decide +kernel
  have hm := List.mem_map_of_mem (f := fun s => (firstRing s).dropLast.mapM
      fun p => Coord.ofDegreesC p.1 p.2) hs
  rw [e] at hm
  simp only [hcs] at hm
  obtain ⟨c, hc, e⟩ := List.mem_map.1 hm
  cases e
  simp only [exHavensRings, List.mem_cons, List.not_mem_nil, or_false] at hc
  rcases hc with rfl | rfl | rfl <;> refine ⟨by decide, ?_, ?_⟩ <;> decide +kernel

/-- Non-vacuity of `C92_end_to_end`: the havens, generated in two parts, the second with products
fused; between them there is an answer, and every answer is a path of less than 33 degrees over the
sea. -/
example (k : Contract) (fw : Bool) :
    ∃ (disk2 : Disk ℕ) (G : Graph) (E : Env) (sq : ℚ → Dbl) (w : Dbl),
    disk2.load Polygon.SumTree.sequential 2 = .ok G ∧ E.graph = G ∧ w.1 = 1 ∧
    (∃ r, Interpolate (fusedArith sq k fw w none) E (1703 / 10, 1 / 5) (-1703 / 10, 1 / 5) false r) ∧
    ∀ r, Interpolate (fusedArith sq k fw w none) E (1703 / 10, 1 / 5) (-1703 / 10, 1 / 5) false r →
      ∃ path, r = .ok (toDegrees path) ∧
        IsWalk (LegOver (Ashore exHavens) E) exHavenE exHavenW path ∧
        walkLength (legLength E) path < 33 := by
  obtain ⟨sq, q1, q2⟩ := exists_sqrt_dbl
  obtain ⟨at2, hat, -⟩ := atan2_exists
  obtain ⟨ps, h1, h2⟩ := C92_end_to_end _ exHavensFile exHavensFile_sound
  have hT : Within (fun n => (Polygon.SumTree.sequential n).depth) Polygon.SumTree.sequential :=
    ⟨sequential_ok, fun _ => le_refl _⟩
  have h1 := h1 _ hT
  rw [exHavensFile_read] at h1
  cases h1
  have hlat : ∀ v ∈ exHavens.flatten, OnLattice 10000 v := by unfold OnLattice; decide
  have hch := exHavens_charted
  have hsep := C71_copies Polygon.SumTree.sequential exHavens hch.geo 10000 (by norm_num) hlat
  choose sc hsc using fun i : ℕ => (fused_exists (if i = 0 then .none else k) k at2
    Polygon.SumTree.sequential exHavens).1
  obtain ⟨-, disk2, G, -, -, h3, h4⟩ := h2 (by decide) (fun p hp => ⟨hch.simple p hp, hch.left p hp⟩)
    hch.nodup hch.off (by decide) (by decide) hch.corners
    ℕ Polygon.SumTree.sequential Polygon.SumTree.sequential (fun _ => Polygon.SumTree.sequential) 2
    _ _ _ sc id id (fun gs => (gs.flatMap Graph.polygons).dedup) id (fun _ => none) id 2 [1, 0]
    [0, 1] hT hT (fun _ _ => hT) (by decide) hch.legible (fun _ _ => hsep) (fun _ _ => hat)
    (fun i _ => hsc i) (fun _ => .refl _) (fun _ => .refl _)
    (fun gs => ⟨List.nodup_dedup _, fun p => by rw [List.mem_dedup, List.mem_flatMap]⟩)
    (fun _ => .refl _) (fun _ _ _ _ h => h) (by decide) (by simp) rfl (by decide)
    (by intro i; simp; omega)
  obtain ⟨reach, hreach⟩ := (fused_exists k k at2 Polygon.SumTree.sequential G.polygons).2
  have fl1 : fl 1 = 1 := by
    have := fl_int 1 (by norm_num)
    rwa [Int.cast_one] at this
  let w : Dbl := Dbl.round 1
  have hw : w.1 = 1 := fl1
  let E : Env :=
    { graph := G
      onLand := fun _ => false
      closest := fun _ => .error .exn
      project := fun _ c => .ok c
      crossings := fun _ => [⟨⟨-1000000, -20000000⟩, ⟨500000, 22000000⟩⟩]
      reach := reach
      ord := id }
  obtain ⟨a, b, ha, hb, h5⟩ := h4 E k k k fw at2 rfl hat hreach (fun _ => .refl _)
    sq q1 q2 w (by rw [hw]; norm_num) (1703 / 10, 1 / 5) (-1703 / 10, 1 / 5)
    (by constructor <;> rw [abs_le] <;> norm_num) (by constructor <;> rw [abs_le] <;> norm_num)
  have ea : Coord.ofDegreesC (1703 / 10) (1 / 5) = .ok exHavenE := by decide +kernel
  have eb : Coord.ofDegreesC (-1703 / 10) (1 / 5) = .ok exHavenW := by decide +kernel
  rw [ea] at ha
  rw [eb] at hb
  cases ha
  cases hb
  have p1 := (exHavens_legible exHavenE (by simp)).2
  have p2 := (exHavens_legible exHavenW (by simp)).2
  have hlen := exHavens_length
  obtain ⟨h6, h7, -⟩ := h5 rfl rfl (by decide) (by decide) p1 p2 false
  refine ⟨disk2, G, E, sq, w, h3, rfl, hw, h6, fun r hr => ?_⟩
  obtain ⟨path, rfl, ⟨hp, -⟩ | ⟨hp1, hp2⟩⟩ := h7 (by decide) exHavens_blocked exHavens_direct 1 _
    exHavens_course (by linarith) r hr
  · exact absurd hp (by simp [E])
  · refine ⟨path, rfl, hp1, ?_⟩
    rw [hw] at hp2
    norm_num at hp2
    linarith

end Capi
