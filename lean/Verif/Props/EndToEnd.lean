import Verif.Props.Chain
import Verif.Props.Disk
import Verif.Props.Rounded

/-!
# C66: from a shapefile to the path in degrees

Reading, generation in separate processes, merging, loading and querying together, with the
arithmetic of the code.
-/

namespace Capi

open Frontend ShortestPath Visgraph

/-- A way of summing areas that adds every term once, with at most `D n` rounded additions on top
of each other for `n` terms. -/
structure Within (D : ℕ → ℕ) (T : ℕ → Polygon.SumTree) : Prop where
  plan : Polygon.PlanOk T
  depth : ∀ n, (T n).depth ≤ D n

/-- Neighbouring vertices of the ring differ, and its area exceeds what the rounded sum of the area
computation can be wrong by (`C12_counter_clockwise_partial`). -/
def SoundRing (D : ℕ → ℕ) (cs : List Coord) : Prop :=
  NoRepeat cs ∧ D (Polygon.removeCollinear cs).length ≤ 2 ^ 40 ∧
    (Polygon.removeCollinear cs).length * (156 + 44 * D (Polygon.removeCollinear cs).length) <
      |twiceArea (Polygon.removeCollinear cs)|

/-- The rings in the file are sound. -/
def SoundFile (D : ℕ → ℕ) (shapes : List Shape) : Prop :=
  (∀ s ∈ shapes, ∀ p ∈ s.points, |p.1| ≤ 180 ∧ |p.2| ≤ 90) ∧
  ∀ s ∈ shapes, s.isPolygon = true → 4 ≤ (firstRing s).length → ∀ cs,
    ((firstRing s).dropLast.mapM fun p => Coord.ofDegreesC p.1 p.2) = .ok cs → SoundRing D cs

theorem SoundRing.bounds {D : ℕ → ℕ} {cs : List Coord} (h : SoundRing D cs)
    {T : ℕ → Polygon.SumTree} (hT : Within D T) :
    (T (Polygon.removeCollinear cs).length).depth ≤ 2 ^ 40 ∧
    (Polygon.removeCollinear cs).length *
        (156 + 44 * (T (Polygon.removeCollinear cs).length).depth) <
      |twiceArea (Polygon.removeCollinear cs)| := by
  obtain ⟨-, h2, h3⟩ := h
  have hd := hT.depth (Polygon.removeCollinear cs).length
  refine ⟨hd.trans h2, lt_of_le_of_lt ?_ h3⟩
  have : (Polygon.removeCollinear cs).length *
        (156 + 44 * (T (Polygon.removeCollinear cs).length).depth) ≤
      (Polygon.removeCollinear cs).length * (156 + 44 * D (Polygon.removeCollinear cs).length) :=
    Nat.mul_le_mul_left _ (by omega)
  exact_mod_cast this

/-- All ways of summing give the same polygon. -/
theorem mk_unique {D : ℕ → ℕ} {cs : List Coord} (hg : ∀ v ∈ cs, v.Geo) (h : SoundRing D cs)
    {T T' : ℕ → Polygon.SumTree} (hT : Within D T) (hT' : Within D T') :
    Polygon.mk T cs = Polygon.mk T' cs := by
  have a := C12_counter_clockwise_partial T hT.plan cs (fun v hv => geo_per (hg v hv))
    (h.bounds hT).1 (h.bounds hT).2
  have b := C12_counter_clockwise_partial T' hT'.plan cs (fun v hv => geo_per (hg v hv))
    (h.bounds hT').1 (h.bounds hT').2
  rcases C12_same_vertices T cs with e | e <;> rcases C12_same_vertices T' cs with e' | e' <;>
    rw [e] at a <;> rw [e'] at b
  · rw [e, e']
  · rw [twiceArea_reverse] at b
    omega
  · rw [twiceArea_reverse] at a
    omega
  · rw [e, e']

theorem polygonC_eq (T : ℕ → Polygon.SumTree) (p : List Coord) (h : ∀ v ∈ p, v.Per) :
    Serial.polygonC T p = .ok (Polygon.mk T p) := by
  unfold Serial.polygonC Polygon.mk
  rw [C03_polygon p h]
  rfl

/-- **C66** From a sound file every process reads the same polygons, however it sums; they are
loaded from a graph file unchanged, and their copies are built unchanged. -/
theorem C66_read (D : ℕ → ℕ) (shapes : List Shape) (h : SoundFile D shapes) :
    ∃ ps : List (List Coord), (∀ v ∈ ps.flatten, v.Geo) ∧ ∀ T, Within D T →
      (readShapes shapes >>= toPolygons T) = .ok ps ∧ (∀ p ∈ ps, Stable T p) ∧
      ∀ p ∈ ps, Serial.polygonC T p = .ok p := by
  by_cases hex : ∃ T0, Within D T0
  swap
  · exact ⟨[], by simp, fun T hT => absurd ⟨T, hT⟩ hex⟩
  obtain ⟨T0, h0⟩ := hex
  obtain ⟨h, hs⟩ := h
  simp only [C54_read, Res.bind_ok]
  unfold toPolygons
  have one : ∀ q ∈ (shapes.filter fun s => s.isPolygon && decide (4 ≤ (firstRing s).length)).map
      fun s => (firstRing s).dropLast, ∃ p : List Coord,
      (∀ v ∈ p, v.Geo) ∧ ∀ T, Within D T → (do
        let cs ← q.mapM fun p => Coord.ofDegreesC p.1 p.2
        return Polygon.mk T cs : Res (List Coord)) = .ok p ∧ Stable T p ∧
        Serial.polygonC T p = .ok p := by
    intro q hq
    obtain ⟨s, hsf, rfl⟩ := List.mem_map.1 hq
    obtain ⟨hm, hc⟩ := List.mem_filter.1 hsf
    rw [Bool.and_eq_true, decide_eq_true_eq] at hc
    obtain ⟨cs, g1, g2⟩ := mapM_ok (f := fun p : ℚ × ℚ => Coord.ofDegreesC p.1 p.2) (P := Coord.Geo)
      (firstRing s).dropLast (by
        intro p hp
        have hp : p ∈ s.points := by
          have := List.dropLast_subset _ hp
          unfold firstRing at this
          split at this
          · exact List.mem_of_mem_take this
          · exact this
        obtain ⟨a, b⟩ := h s hm p hp
        exact ofDegrees_geo a b)
    have hr := hs s hm hc.1 hc.2 cs g1
    have hg : ∀ v ∈ Polygon.mk T0 cs, v.Geo := fun v hv => g2 v (mem_mk hv)
    refine ⟨Polygon.mk T0 cs, hg, fun T hT => ?_⟩
    rw [mk_unique g2 hr h0 hT] at hg ⊢
    obtain ⟨n2, n3⟩ := hr.bounds hT
    refine ⟨by rw [g1]; rfl, C38_stable T hT.plan cs g2 hr.1 n2 n3, ?_⟩
    rw [polygonC_eq T _ fun v hv => geo_per (hg v hv),
      C15_rebuild_partial T hT.plan cs (fun v hv => geo_per (g2 v hv)) hr.1 n2 n3]
  generalize (shapes.filter fun s => s.isPolygon && decide (4 ≤ (firstRing s).length)).map
      (fun s => (firstRing s).dropLast) = qs at one
  induction qs with
  | nil => exact ⟨[], by simp, fun T _ => ⟨rfl, by simp, by simp⟩⟩
  | cons q r ih =>
    obtain ⟨p, p1, p2⟩ := one q List.mem_cons_self
    obtain ⟨ps, i1, i2⟩ := ih fun q hq => one q (List.mem_cons_of_mem _ hq)
    refine ⟨p :: ps, ?_, fun T hT => ⟨?_, ?_, ?_⟩⟩
    · intro v hv
      rcases List.mem_append.1 (List.flatten_cons ▸ hv) with hv | hv
      · exact p1 v hv
      · exact i1 v hv
    · rw [List.mapM_cons, (p2 T hT).1, Res.bind_ok, (i2 T hT).1, Res.bind_ok]
      rfl
    · intro x hx
      rcases List.mem_cons.1 hx with rfl | hx
      · exact (p2 T hT).2.1
      · exact (i2 T hT).2.1 x hx
    · intro x hx
      rcases List.mem_cons.1 hx with rfl | hx
      · exact (p2 T hT).2.2
      · exact (i2 T hT).2.2 x hx

/-- If the copies are built unchanged either way, the way of summing does not matter to scans. -/
theorem IsScanner.change {T T' : ℕ → Polygon.SumTree} {ps : List (List Coord)}
    (h : ∀ p ∈ ps, Stable T p) (h' : ∀ p ∈ ps, Stable T' p)
    {scanner : Coord → Res (List (Coord × Bool))} (hs : IsScanner T ps scanner) :
    IsScanner T' ps scanner := by
  have e : ∀ i : ℕ, i < 3 → ∃ k, IsCopy k ∧ ∀ v : Coord, (periodicCopies v).getD i v = v.shift k := by
    intro i hi
    refine ⟨if i = 0 then 0 else if i = 1 then 1 else -1, by unfold IsCopy; split_ifs <;> simp, ?_⟩
    intro v
    have := congrArg (fun l => l.getD i v) (copy_getD v)
    rcases (by omega : i = 0 ∨ i = 1 ∨ i = 2) with rfl | rfl | rfl <;>
      simpa [List.range_succ] using this
  have : polygonsPeriodic T ps = polygonsPeriodic T' ps := by
    unfold polygonsPeriodic
    refine List.flatMap_congr fun p hp => List.map_congr_left fun i hi => ?_
    obtain ⟨k, hk, hkv⟩ := e i (List.mem_range.1 hi)
    rw [List.map_congr_left fun v _ => hkv v, h p hp k hk, h' p hp k hk]
  intro obs
  rw [← this]
  exact hs obs

namespace Voyage

variable {T : ℕ → Polygon.SumTree} {ps : List (List Coord)}
  {scanner : Coord → Res (List (Coord × Bool))} {order : List Coord → List Coord} {E : Env}
  {s d : Coord}

/-- Legs lead to the endpoints and the obstacle vertices only. -/
theorem target (h : Voyage T ps scanner order E s d) {u v : Coord}
    (he : RouteEdge E ⟨s, d, none, none⟩ u v) : v = s ∨ v = d ∨ v ∈ ps.flatten := by
  have link : ∀ e x : Coord, e.Geo → Linked E e none x → x ∈ ps.flatten := by
    rintro e x hg ⟨-, -, ⟨vis, m, h1, h2⟩, -⟩
    obtain ⟨vis', g1, g2⟩ := reach_geo h.geo' h.reach hg.per
    rw [h1] at g1
    cases g1
    exact (h.mem_flatten x).1 (g2 _ h2).1
  rcases he with he | ⟨-, he⟩ | ⟨rfl, -⟩ | ⟨-, he⟩ | ⟨rfl, -⟩
  · exact Or.inr (Or.inr ((h.mem_verts v).1 (hasEdge_verts h.made.regular.built.shape he).2.2))
  · exact Or.inr (Or.inr (link _ _ h.src he))
  · exact Or.inl rfl
  · exact Or.inr (Or.inr (link _ _ h.dst he))
  · exact Or.inr (Or.inl rfl)

end Voyage

/-- `C66_rounded` for any distances computed with doubles. -/
theorem voyage_length' {A : Arith Dbl} {w : Dbl} (hA : A.DoubleLike w none)
    (T : ℕ → Polygon.SumTree) (ps : List (List Coord))
    (scanner : Coord → Res (List (Coord × Bool))) (order : List Coord → List Coord) (E : Env)
    (s d : Coord) (h : Voyage T ps scanner order E s d) (hsize : ps.flatten.length ≤ 499998)
    (chain : List Coord) (hw : IsWalk (SightLeg ps) s d chain)
    (hin : ∀ v ∈ chain, v = s ∨ v = d ∨ v ∈ ps.flatten) (h0 : 0 ≤ w.1) (allow : Bool)
    (r : Res (List Coord)) (hq : Query A E s d allow r) :
    ∃ path, r = .ok path ∧ (E.crossings ⟨s, d⟩ = [] ∧ path = [s, d] ∨ walkLength (legLength E) path ≤ (1 + 1 / 10 ^ 8) *
      (max 1 ((w.1 : ℚ) : ℝ) * walkLength (fun u v => planeDist u v 0) chain)) := by
  obtain ⟨path, rfl⟩ := C61_found _ hA.sound (fun d => by rw [hA.over]; rfl) T ps scanner order
    E s d h chain ⟨hw.1, hw.2.1, hw.2.2.imp fun _ _ h => Or.inl h⟩ hin allow r hq
  refine ⟨path, rfl, ?_⟩
  rcases h.prepared allow with hp | ⟨N, hp⟩
  · refine Or.inl ⟨?_, ?_⟩
    · by_contra hb
      obtain ⟨N, hN⟩ := h.searched hb allow
      rw [hp] at hN
      cases hN
    · unfold Query at hq
      rw [hp] at hq
      exact Except.ok.inj hq
  · right
    obtain ⟨h1, h2⟩ := h.route hw hin
    rw [← h2]
    classical
    refine bounded_of hA h0 E h.made h.ord s d allow N _ hp h.ready.2 path hq
      ({s, d} ∪ ps.flatten.toFinset) (by simp) ?_ ?_ chain h1 fun _ _ => rfl
    · intro u _ v he
      simp only [Finset.mem_union, Finset.mem_insert, Finset.mem_singleton, List.mem_toFinset]
      have := h.target he
      tauto
    · have a1 := Finset.card_union_le {s, d} ps.flatten.toFinset
      have a2 := List.toFinset_card_le ps.flatten
      have a3 : ({s, d} : Finset Coord).card ≤ 2 := Finset.card_le_two
      omega

theorem voyage_length {A : Arith Dbl} {w : Dbl} (hA : A.DoubleLike w none)
    (T : ℕ → Polygon.SumTree) (ps : List (List Coord))
    (scanner : Coord → Res (List (Coord × Bool))) (order : List Coord → List Coord) (E : Env)
    (s d : Coord) (h : Voyage T ps scanner order E s d) (hsize : ps.flatten.length ≤ 499998)
    (chain : List Coord) (hw : IsWalk (SightLeg ps) s d chain)
    (hin : ∀ v ∈ chain, v = s ∨ v = d ∨ v ∈ ps.flatten) (h0 : 0 ≤ w.1) (allow : Bool)
    (r : Res (List Coord)) (hq : Query A E s d allow r) :
    ∃ path, r = .ok path ∧ (path = [s, d] ∨ walkLength (legLength E) path ≤ (1 + 1 / 10 ^ 8) *
      (max 1 ((w.1 : ℚ) : ℝ) * walkLength (fun u v => planeDist u v 0) chain)) := by
  obtain ⟨path, h1, h2⟩ := voyage_length' hA T ps scanner order E s d h hsize chain hw hin h0 allow r hq
  exact ⟨path, h1, h2.imp And.right id⟩

/-- **C66** With the doubles of the code, the path returned is the straight line between the
endpoints or is, up to the greediness weighting and one part in 10⁸, at most as long as every chain
of sight lines on this side of the meridian. -/
theorem C66_rounded (sq : ℚ → Dbl) (hsq : SqrtOk fun q => (sq q).1) (hsq0 : ∀ x, 0 ≤ (sq x).1)
    (T : ℕ → Polygon.SumTree) (ps : List (List Coord))
    (scanner : Coord → Res (List (Coord × Bool))) (order : List Coord → List Coord) (E : Env)
    (s d : Coord) (h : Voyage T ps scanner order E s d) (hsize : ps.flatten.length ≤ 499998)
    (chain : List Coord) (hw : IsWalk (SightLeg ps) s d chain)
    (hin : ∀ v ∈ chain, v = s ∨ v = d ∨ v ∈ ps.flatten) (w : Dbl) (h0 : 0 ≤ w.1) (allow : Bool)
    (r : Res (List Coord)) (hq : Query (doubleArith sq w none) E s d allow r) :
    ∃ path, r = .ok path ∧ (path = [s, d] ∨ walkLength (legLength E) path ≤ (1 + 1 / 10 ^ 8) *
      (max 1 ((w.1 : ℚ) : ℝ) * walkLength (fun u v => planeDist u v 0) chain)) := by
  exact voyage_length (double_like sq hsq hsq0 w h0 none) T ps scanner order E s d h hsize chain hw hin
    h0 allow r hq

/-- **C66** A shapefile in range with sound rings and no shared corners is read, the parts are
generated by separate processes, each with its own ways of scanning and summing, stored, merged and
loaded without failure; and every query between points in range and at sea that some chain of sight
lines joins has an outcome, which is always the degrees of the straight line or of a path about as
short as that chain. -/
theorem C66_end_to_end (D : ℕ → ℕ) (shapes : List Shape) (h : SoundFile D shapes) :
    ∃ ps : List (List Coord), (∀ T, Within D T → (readShapes shapes >>= toPolygons T) = .ok ps) ∧
    (ps ≠ [] → ps.flatten.Nodup → ps.length < 2 ^ 64 → ps.flatten.length ≤ 499998 →
    ∀ (N : Type) [DecidableEq N] (T1 T2 : ℕ → Polygon.SumTree) (Ts : ℕ → ℕ → Polygon.SumTree)
      (k : ℕ) (sc : ℕ → Coord → Res (List (Coord × Bool)))
      (order shuffle : List Coord → List Coord) (porder : List Graph → List (List Coord))
      (schedule : List Graph.Op → List Graph.Op) (disk : Disk N) (name : ℕ → N) (out : N)
      (js ins : List ℕ), Within D T1 → Within D T2 → (∀ i < k, Within D (Ts i)) → 1 ≤ k →
      (∀ i < k, IsScanner (Ts i) ps (sc i)) → (∀ l, (order l).Perm l) →
      (∀ l, (shuffle l).Perm l) → (∀ gs, Graph.MergeOrder gs (porder gs)) →
      (∀ l, (schedule l).Perm l) → (∀ i < k, ∀ j < k, name i = name j → i = j) →
      (∀ i < k, name i ≠ out) → (∀ i < k, disk (name i) = none) → disk out = none →
      js.Perm (List.range k) → (∀ i, i ∈ ins ↔ i < k) →
    ∃ disk1 disk2 G,
      runJobs disk (js.map fun (i : ℕ) => splitJob ps (sc i) order shuffle k i (name i)) =
        (.ok (), disk1) ∧
      mergeJob T1 porder schedule (ins.map name) out disk1 = (.ok (), disk2) ∧
      disk2.load T2 out = .ok G ∧
      ∀ E : Env, E.graph = G → IsReach G.polygons E.reach → (∀ l, (E.ord l).Perm l) →
      ∀ sq : ℚ → Dbl, (SqrtOk fun q => (sq q).1) → (∀ x, 0 ≤ (sq x).1) → ∀ w : Dbl, 0 ≤ w.1 →
      ∀ s d : ℚ × ℚ, (|s.1| ≤ 180 ∧ |s.2| ≤ 90) → (|d.1| ≤ 180 ∧ |d.2| ≤ 90) →
      ∃ a b, Coord.ofDegreesC s.1 s.2 = .ok a ∧ Coord.ofDegreesC d.1 d.2 = .ok b ∧
        (E.onLand a = false → E.onLand b = false → ∀ chain, IsWalk (SightLeg ps) a b chain →
        (∀ v ∈ chain, v = a ∨ v = b ∨ v ∈ ps.flatten) →
        ∀ allow, (∃ r, Interpolate (doubleArith sq w none) E s d allow r) ∧
        ∀ r, Interpolate (doubleArith sq w none) E s d allow r → ∃ path, r = .ok (toDegrees path) ∧
          (path = [a, b] ∨ walkLength (legLength E) path ≤ (1 + 1 / 10 ^ 8) *
            (max 1 ((w.1 : ℚ) : ℝ) * walkLength (fun u v => planeDist u v 0) chain)))) := by
  obtain ⟨ps, r2, r⟩ := C66_read D shapes h
  refine ⟨ps, fun T hT => (r T hT).1, ?_⟩
  intro hne hnd hl hsize N _ T1 T2 Ts k sc order shuffle porder schedule disk name out js ins hT1 hT2
    hTs hk hsc ho hsh hpo hsch hinj hout hf hfo hjs hins
  obtain ⟨scanner, p0, d1, d2, G, g, p1, p2, p3, p4, p5, p6, -, p7⟩ := C60_separate T1 T1 T2 ps hne
    hnd r2 (r T1 hT1).2.2 (r T2 hT2).2.2 hl (by omega) k hk sc
    (fun i hi => IsScanner.change (r _ (hTs i hi)).2.1 (r T1 hT1).2.1 (hsc i hi)) order shuffle ho hsh porder hpo schedule hsch disk name hinj out hout
    hf hfo js ins hjs hins
  refine ⟨d1, d2, G, p1, p2, p3, ?_⟩
  rintro E rfl hreach hord sq hsq hsq0 w hw s d ⟨s1, s2⟩ ⟨e1, e2⟩
  obtain ⟨a, ha, hag⟩ := ofDegrees_geo s1 s2
  obtain ⟨b, hb, hbg⟩ := ofDegrees_geo e1 e2
  refine ⟨a, b, ha, hb, ?_⟩
  intro la lb chain hwalk hin allow
  have hV : Voyage T1 ps scanner order E a b :=
    ⟨r2, (r T1 hT1).2.1, p0, ho, ⟨g, p4, p5⟩, p6, p7, hreach, hord, hag, hbg, la, lb⟩
  unfold Interpolate
  rw [ha, Res.bind_ok, hb, Res.bind_ok]
  obtain ⟨⟨q0, hq0⟩, -⟩ := C43_outcome _ (double_sound sq hsq0 w none) E p6 hord a b allow
  refine ⟨⟨_, q0, hq0, rfl⟩, ?_⟩
  intro r hr
  obtain ⟨q, hq, rfl⟩ := hr
  obtain ⟨path, rfl, hpath⟩ := C66_rounded sq hsq hsq0 T1 ps scanner order E a b hV hsize chain hwalk
    hin w hw allow q hq
  exact ⟨path, rfl, hpath⟩

/-- A file with one square island of one degree, its ring closed. -/
def exFile : List Shape := [⟨true, [(0, 0), (0, 1), (1, 1), (1, 0), (0, 0)], [0]⟩]

/-- The polygon read from it: turned round to be counter-clockwise. -/
def exDegree : List Coord := [⟨1000000, 0⟩, ⟨1000000, 1000000⟩, ⟨0, 1000000⟩, ⟨0, 0⟩]

theorem exFile_read : (readShapes exFile >>= toPolygons Polygon.SumTree.sequential) =
    .ok [exDegree] := by decide +kernel

theorem exFile_sound : SoundFile (fun n => (Polygon.SumTree.sequential n).depth) exFile := by
  refine ⟨by decide +kernel, ?_⟩
  intro s hs _ _ cs hcs
  rw [exFile, List.mem_singleton] at hs
  subst hs
  have e : ((firstRing ⟨true, [(0, 0), (0, 1), (1, 1), (1, 0), (0, 0)], [0]⟩).dropLast.mapM
      fun p => Coord.ofDegreesC p.1 p.2) =
      .ok [⟨0, 0⟩, ⟨0, 1000000⟩, ⟨1000000, 1000000⟩, ⟨1000000, 0⟩] := by decide +kernel
  rw [e] at hcs
  cases hcs
  refine ⟨by decide, ?_, ?_⟩ <;> decide +kernel

theorem exFile_chain : IsWalk (SightLeg [exDegree]) ⟨-500000, 500000⟩ ⟨1500000, 500000⟩
    [⟨-500000, 500000⟩, ⟨0, 1000000⟩, ⟨1000000, 1000000⟩, ⟨1500000, 500000⟩] := by
  refine ⟨rfl, rfl, ?_⟩
  simp only [List.isChain_cons_cons, List.isChain_singleton, and_true]
  refine ⟨⟨by decide, seesB_sound ?_, seesB_sound ?_, by decide⟩,
    ⟨by decide, seesB_sound ?_, seesB_sound ?_, by decide⟩,
    ⟨by decide, seesB_sound ?_, seesB_sound ?_, by decide⟩⟩ <;> decide +kernel

/-- Non-vacuity of C66: the island is read, its graph generated in two parts by processes with
different scans, merged and loaded; then there is an answer to the query from half a degree west of
it to half a degree east, and every answer is about as short as the way round the north. -/
example : ∃ (disk2 : Disk ℕ) (G : Graph) (E : Env) (sq : ℚ → Dbl) (w : Dbl),
    disk2.load Polygon.SumTree.sequential 2 = .ok G ∧ E.graph = G ∧ w.1 = 1 ∧
    (∃ r, Interpolate (doubleArith sq w none) E (-1 / 2, 1 / 2) (3 / 2, 1 / 2) false r) ∧
    ∀ r, Interpolate (doubleArith sq w none) E (-1 / 2, 1 / 2) (3 / 2, 1 / 2) false r →
      ∃ path, r = .ok (toDegrees path) ∧ (path = [⟨-500000, 500000⟩, ⟨1500000, 500000⟩] ∨
        walkLength (legLength E) path ≤ (1 + 1 / 10 ^ 8) *
          (max 1 ((w.1 : ℚ) : ℝ) * walkLength (fun u v => planeDist u v 0)
            [⟨-500000, 500000⟩, ⟨0, 1000000⟩, ⟨1000000, 1000000⟩, ⟨1500000, 500000⟩])) := by
  obtain ⟨sq, q1, q2⟩ := exists_sqrt_dbl
  obtain ⟨ps, h1, h2⟩ := C66_end_to_end _ exFile exFile_sound
  have hT : Within (fun n => (Polygon.SumTree.sequential n).depth) Polygon.SumTree.sequential :=
    ⟨sequential_ok, fun _ => le_refl _⟩
  have h1 := h1 _ hT
  rw [exFile_read] at h1
  cases h1
  obtain ⟨-, disk2, G, -, -, h3, h4⟩ := h2 (by decide) (by decide) (by decide) (by decide) ℕ
    Polygon.SumTree.sequential Polygon.SumTree.sequential (fun _ => Polygon.SumTree.sequential) 2
    (fun i => if i = 0 then exScanner Polygon.SumTree.sequential [exDegree]
      else exScannerRev Polygon.SumTree.sequential [exDegree]) id id
    (fun gs => (gs.flatMap Graph.polygons).dedup) id (fun _ => none) id 2 [1, 0] [0, 1] hT hT
    (fun _ _ => hT) (by decide)
    (by
      intro i hi
      split_ifs
      · exact exScanner_ok _ _
      · exact fun _ => ⟨_, _, _, List.Perm.refl _, List.reverse_perm _, exLook_ok, rfl⟩)
    (fun _ => .refl _) (fun _ => .refl _)
    (fun gs => ⟨List.nodup_dedup _, fun p => by rw [List.mem_dedup, List.mem_flatMap]⟩)
    (fun _ => .refl _) (fun _ _ _ _ h => h) (by decide) (by simp) rfl (by decide)
    (by intro i; simp; omega)
  have fl1 : fl 1 = 1 := by
    have := fl_int 1 (by norm_num)
    rwa [Int.cast_one] at this
  let w : Dbl := Dbl.round 1
  have hw : w.1 = 1 := fl1
  let E : Env :=
    { graph := G
      onLand := fun _ => false
      closest := fun _ => .error .exn
      project := fun _ c => .ok c
      crossings := fun _ => [⟨⟨0, 0⟩, ⟨0, 1000000⟩⟩]
      reach := fun obs => Vistree.scanC exLook (Vistree.ofPolygons G.polygons) obs
        (Vistree.vertices (Vistree.ofPolygons G.polygons))
        (Vistree.segments (Vistree.ofPolygons G.polygons)) false
      ord := id }
  obtain ⟨a, b, ha, hb, h5⟩ := h4 E rfl
    (fun _ => ⟨_, _, _, List.Perm.refl _, List.Perm.refl _, exLook_ok, rfl⟩) (fun _ => .refl _)
    sq q1 q2 w (by rw [hw]; norm_num) (-1 / 2, 1 / 2) (3 / 2, 1 / 2)
    (by constructor <;> rw [abs_le] <;> norm_num) (by constructor <;> rw [abs_le] <;> norm_num)
  have ea : Coord.ofDegreesC (-1 / 2) (1 / 2) = .ok ⟨-500000, 500000⟩ := by decide +kernel
  have eb : Coord.ofDegreesC (3 / 2) (1 / 2) = .ok ⟨1500000, 500000⟩ := by decide +kernel
  rw [ea] at ha
  rw [eb] at hb
  cases ha
  cases hb
  exact ⟨disk2, G, E, sq, w, h3, rfl, hw, h5 rfl rfl _ exFile_chain (by decide) false⟩

end Capi
