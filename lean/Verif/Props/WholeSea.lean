import Verif.Props.Archipelago
import Verif.Props.WholeCharted

/-!
# C76: from a shapefile of convex islands to paths over the sea

C75 for the whole program with the arithmetic of the code.
-/

namespace Capi

open Frontend ShortestPath Visgraph

/-- **C76** A shapefile with convex islands in orderly positions is read; the parts of its graph are
generated by separate processes that sort by computed angles and fuse products as they like, stored,
merged and loaded.  Then every query between points at sea in orderly positions has an outcome.  A
path returned keeps to the sea or is the straight line in whose way the index finds nothing.  If the
straight line is not over the sea but there is a course over the sea this side of the meridian, a
path is returned, and it is at most as long as that course up to rounding and greediness. -/
theorem C76_end_to_end (D : ℕ → ℕ) (shapes : List Shape) (h : SoundFile D shapes) :
    ∃ ps : List (List Coord), (∀ T, Within D T → (readShapes shapes >>= toPolygons T) = .ok ps) ∧
    (ps ≠ [] → Islands ps → ps.length < 2 ^ 64 → ps.flatten.length ≤ 499998 →
    (∀ a v b, CornerOf ps a v b → CornerResolved a v b) →
    ∀ (N : Type) [DecidableEq N] (T1 T2 : ℕ → Polygon.SumTree) (Ts : ℕ → ℕ → Polygon.SumTree)
      (k : ℕ) (c1 c2 : ℕ → Contract) (angle : ℕ → ℚ → ℚ → ℚ)
      (sc : ℕ → Coord → Res (List (Coord × Bool)))
      (order shuffle : List Coord → List Coord) (porder : List Graph → List (List Coord))
      (schedule : List Graph.Op → List Graph.Op) (disk : Disk N) (name : ℕ → N) (out : N)
      (js ins : List ℕ), Within D T1 → Within D T2 → (∀ i < k, Within D (Ts i)) → 1 ≤ k →
      (∀ v ∈ ps.flatten, Orderly (polygonsPeriodic T1 ps) v) →
      (∀ i < k, ∀ v ∈ ps.flatten, Separated v (polygonsPeriodic (Ts i) ps).flatten) →
      (∀ i < k, Atan2Ok (angle i)) →
      (∀ i < k, IsScannerFused (c1 i) (c2 i) (angle i) (Ts i) ps (sc i)) →
      (∀ l, (order l).Perm l) →
      (∀ l, (shuffle l).Perm l) → (∀ gs, Graph.MergeOrder gs (porder gs)) →
      (∀ l, (schedule l).Perm l) → (∀ i < k, ∀ j < k, name i = name j → i = j) →
      (∀ i < k, name i ≠ out) → (∀ i < k, disk (name i) = none) → disk out = none →
      js.Perm (List.range k) → (∀ i, i ∈ ins ↔ i < k) →
    ∃ disk1 disk2 G,
      runJobs disk (js.map fun (i : ℕ) => splitJob ps (sc i) order shuffle k i (name i)) =
        (.ok (), disk1) ∧
      mergeJob T1 porder schedule (ins.map name) out disk1 = (.ok (), disk2) ∧
      disk2.load T2 out = .ok G ∧
      ∀ (E : Env) (d1 d2 d3 : Contract) (fw : Bool) (atan2 : ℚ → ℚ → ℚ), E.graph = G →
      Atan2Ok atan2 → IsReachFused d1 d2 atan2 G.polygons E.reach → (∀ l, (E.ord l).Perm l) →
      ∀ sq : ℚ → Dbl, (SqrtOk fun q => (sq q).1) → (∀ x, 0 ≤ (sq x).1) → ∀ w : Dbl, 0 ≤ w.1 →
      ∀ s d : ℚ × ℚ, (|s.1| ≤ 180 ∧ |s.2| ≤ 90) → (|d.1| ≤ 180 ∧ |d.2| ≤ 90) →
      ∃ a b, Coord.ofDegreesC s.1 s.2 = .ok a ∧ Coord.ofDegreesC d.1 d.2 = .ok b ∧
        (E.onLand a = false → E.onLand b = false →
        Separated a ps.flatten → Separated b ps.flatten →
        (a ∈ ps.flatten ∨ Orderly ps a) → (b ∈ ps.flatten ∨ Orderly ps b) → ∀ allow,
        (∃ r, Interpolate (fusedArith sq d3 fw w none) E s d allow r) ∧
        (∀ path, Interpolate (fusedArith sq d3 fw w none) E s d allow (.ok path) →
          E.crossings ⟨a, b⟩ = [] ∧ path = toDegrees [a, b] ∨
          ∃ cs, path = toDegrees cs ∧ IsWalk (SeaLeg ps E) a b cs) ∧
        (a ≠ b → ¬ AtSea (Land ps) a.pt b.pt →
        ∀ course, IsWalk (AtSea (⋃ p ∈ ps, Inland p)) a.pt b.pt course →
        ∀ r, Interpolate (fusedArith sq d3 fw w none) E s d allow r →
          ∃ path, r = .ok (toDegrees path) ∧ (E.crossings ⟨a, b⟩ = [] ∧ path = [a, b] ∨
            IsWalk (SeaLeg ps E) a b path ∧ walkLength (legLength E) path ≤ (1 + 1 / 10 ^ 8) *
              (max 1 ((w.1 : ℚ) : ℝ) * walkLength lineLength course))))) := by
  obtain ⟨ps, r1, r2⟩ := C90_end_to_end D shapes h
  refine ⟨ps, r1, ?_⟩
  intro hne hisl hl hsize hcor N _ T1 T2 Ts k c1 c2 angle sc order shuffle porder schedule disk name
    out js ins hT1 hT2 hTs hk horder hsep hangle hsc ho hsh hpo hsch hinj hout hf hfo hjs hins
  obtain ⟨ps', g1, g2⟩ := C66_read D shapes h
  obtain rfl : ps = ps' := Except.ok.inj ((r1 T1 hT1).symm.trans (g2 T1 hT1).1)
  have hch : Chart T1 ps := ⟨hisl, g1, (g2 T1 hT1).2.1, horder, hcor⟩
  have hC := hch.charted
  have e : (⋃ p ∈ ps, Inland p) = ⋃ p ∈ ps, Interior p :=
    Set.iUnion₂_congr fun p hp => hisl.inland hp
  obtain ⟨d1, d2, G, p1, p2, p3, p4⟩ := r2 hne (fun p hp => ⟨hC.simple p hp, hC.left p hp⟩) hC.nodup
    hC.off hl hsize hcor N T1 T2 Ts k c1 c2 angle sc order shuffle porder schedule disk name out js ins
    hT1 hT2 hTs hk hC.legible hsep hangle hsc ho hsh hpo hsch hinj hout hf hfo hjs hins
  refine ⟨d1, d2, G, p1, p2, p3, ?_⟩
  intro E m1 m2 m3 fw atan2 hE hatan hreach hord sq hsq hsq0 w hw s d hs hd
  obtain ⟨a, b, ha, hb, p5⟩ := p4 E m1 m2 m3 fw atan2 hE hatan hreach hord sq hsq hsq0 w hw s d hs hd
  refine ⟨a, b, ha, hb, ?_⟩
  intro la lb sa sb oa ob allow
  unfold SeaLeg
  rw [hisl.land, e]
  exact p5 la lb sa sb (hisl.position oa) (hisl.position ob) allow

/-! ### The two islands of C75 from a file -/

/-- A file with the two islands, their rings closed. -/
def exIslesFile : List Shape :=
  [⟨true, [(0, 0), (2, 3 / 10), (1, 19 / 10), (0, 0)], [0]⟩,
    ⟨true, [(5, -1 / 5), (7, 1 / 2), (59 / 10, 17 / 10), (5, -1 / 5)], [0]⟩]

theorem exIslesFile_read : (readShapes exIslesFile >>= toPolygons Polygon.SumTree.sequential) =
    .ok exIsles := by decide +kernel

theorem exIslesFile_sound :
    SoundFile (fun n => (Polygon.SumTree.sequential n).depth) exIslesFile := by
  refine ⟨by decide +kernel, ?_⟩
  intro s hs _ _ cs hcs
  have e1 : ((firstRing ⟨true, [(0, 0), (2, 3 / 10), (1, 19 / 10), (0, 0)], [0]⟩).dropLast.mapM
      fun p => Coord.ofDegreesC p.1 p.2) =
      .ok [⟨0, 0⟩, ⟨2000000, 300000⟩, ⟨1000000, 1900000⟩] := by decide +kernel
  have e2 : ((firstRing ⟨true, [(5, -1 / 5), (7, 1 / 2), (59 / 10, 17 / 10), (5, -1 / 5)],
      [0]⟩).dropLast.mapM fun p => Coord.ofDegreesC p.1 p.2) =
      .ok [⟨5000000, -200000⟩, ⟨7000000, 500000⟩, ⟨5900000, 1700000⟩] := by decide +kernel
  simp only [exIslesFile, List.mem_cons, List.not_mem_nil, or_false] at hs
  rcases hs with rfl | rfl
  · rw [e1] at hcs
    cases hcs
    refine ⟨by decide, ?_, ?_⟩ <;> decide +kernel
  · rw [e2] at hcs
    cases hcs
    refine ⟨by decide, ?_, ?_⟩ <;> decide +kernel

/-- Non-vacuity of C76: the two islands, generated in two parts, the second with products fused; the
query past both of them has an answer, and every answer keeps to the sea and is about as short as a
course round the north. -/
example (k : Contract) (fw : Bool) :
    ∃ (disk2 : Disk ℕ) (G : Graph) (E : Env) (sq : ℚ → Dbl) (w : Dbl),
    disk2.load Polygon.SumTree.sequential 2 = .ok G ∧ E.graph = G ∧ w.1 = 1 ∧
    (∃ r, Interpolate (fusedArith sq k fw w none) E (-2, 1) (9, 9 / 10) false r) ∧
    ∀ r, Interpolate (fusedArith sq k fw w none) E (-2, 1) (9, 9 / 10) false r →
      ∃ path, r = .ok (toDegrees path) ∧ IsWalk (SeaLeg exIsles E) exWestOf exEastOf path ∧
        walkLength (legLength E) path ≤ (1 + 1 / 10 ^ 8) * (max 1 ((w.1 : ℚ) : ℝ) *
          walkLength lineLength [⟨-2000000, 1000000⟩, ⟨-2000000, 3000000⟩, ⟨1000000, 3000000⟩,
            ⟨5900000, 3000000⟩, ⟨9000000, 3000000⟩, ⟨9000000, 900000⟩]) := by
  obtain ⟨sq, q1, q2⟩ := exists_sqrt_dbl
  obtain ⟨at2, hat, -⟩ := atan2_exists
  obtain ⟨ps, h1, h2⟩ := C76_end_to_end _ exIslesFile exIslesFile_sound
  have hT : Within (fun n => (Polygon.SumTree.sequential n).depth) Polygon.SumTree.sequential :=
    ⟨sequential_ok, fun _ => le_refl _⟩
  have h1 := h1 _ hT
  rw [exIslesFile_read] at h1
  cases h1
  have hlat : ∀ v ∈ exIsles.flatten, OnLattice 100000 v := by unfold OnLattice; decide
  have hch := exIsles_chart
  have hsep := C71_copies Polygon.SumTree.sequential exIsles hch.geo 100000 (by norm_num) hlat
  choose sc hsc using fun i : ℕ => (fused_exists (if i = 0 then .none else k) k at2
    Polygon.SumTree.sequential exIsles).1
  obtain ⟨-, disk2, G, -, -, h3, h4⟩ := h2 (by decide) hch.islands (by decide) (by decide) hch.corners
    ℕ Polygon.SumTree.sequential Polygon.SumTree.sequential (fun _ => Polygon.SumTree.sequential) 2
    _ _ _ sc id id (fun gs => (gs.flatMap Graph.polygons).dedup) id (fun _ => none) id 2 [1, 0]
    [0, 1] hT hT (fun _ _ => hT) (by decide) hch.orderly (fun _ _ => hsep) (fun _ _ => hat)
    (fun i _ => hsc i) (fun _ => .refl _) (fun _ => .refl _)
    (fun gs => ⟨List.nodup_dedup _, fun p => by rw [List.mem_dedup, List.mem_flatMap]⟩)
    (fun _ => .refl _) (fun _ _ _ _ h => h) (by decide) (by simp) rfl (by decide)
    (by intro i; simp; omega)
  obtain ⟨reach, hreach⟩ := (fused_exists k k at2 Polygon.SumTree.sequential G.polygons).2
  have fl1 : fl 1 = 1 := by
    have := fl_int 1 (by norm_num)
    rwa [Int.cast_one] at this
  let w : Dbl := Dbl.round 1
  have hw : w.1 = 1 := fl1
  let E : Env :=
    { graph := G
      onLand := fun _ => false
      closest := fun _ => .error .exn
      project := fun _ c => .ok c
      crossings := fun _ => [⟨⟨1000000, 1900000⟩, ⟨0, 0⟩⟩]
      reach := reach
      ord := id }
  obtain ⟨a, b, ha, hb, h5⟩ := h4 E k k k fw at2 rfl hat hreach (fun _ => .refl _)
    sq q1 q2 w (by rw [hw]; norm_num) (-2, 1) (9, 9 / 10)
    (by constructor <;> rw [abs_le] <;> norm_num) (by constructor <;> rw [abs_le] <;> norm_num)
  have ea : Coord.ofDegreesC (-2) 1 = .ok exWestOf := by decide +kernel
  have eb : Coord.ofDegreesC 9 (9 / 10) = .ok exEastOf := by decide +kernel
  rw [ea] at ha
  rw [eb] at hb
  cases ha
  cases hb
  obtain ⟨h6, -, h7⟩ := h5 rfl rfl (by decide) (by decide) (Or.inr exIsles_orderly.1)
    (Or.inr exIsles_orderly.2) false
  refine ⟨disk2, G, E, sq, w, h3, rfl, hw, h6, fun r hr => ?_⟩
  obtain ⟨path, rfl, ⟨hp, -⟩ | hp⟩ := h7 (by decide) exIsles_blocked _ exIsles_course r hr
  · exact absurd hp (by simp [E])
  · exact ⟨path, rfl, hp⟩

end Capi
