import Verif.Lemmas.Convex
import Verif.Props.SeaRoute
import Verif.Props.Whole

/-!
# C74: convex islands, and from a shapefile to the shortest course
-/

namespace Capi

open Frontend ShortestPath Visgraph

theorem turn_continuous (p q : ℂ) : Continuous fun x => turn p q x := by
  unfold turn
  fun_prop

/-- The edges of a ring are finite in number. -/
theorem edges_list (p : List Coord) : ∃ l : List Seg, ∀ e, e ∈ l ↔ EdgeOf [p] e := by
  refine ⟨(List.range p.length).map fun i => ⟨ringAt p i, ringAt p (i + 1)⟩, fun e => ?_⟩
  simp only [List.mem_map, List.mem_range, EdgeOf, List.mem_singleton, exists_eq_left]
  exact ⟨fun ⟨i, hi, h⟩ => ⟨i, hi, h.symm⟩, fun ⟨i, hi, h⟩ => ⟨i, hi, h.symm⟩⟩

/-- What is to the left of some edges at a point is so nearby. -/
theorem left_near (l : List Seg) (z : ℂ) (h : ∀ e ∈ l, 0 < turn e.p.pt e.q.pt z) :
    ∃ ε > 0, ∀ x, ‖x - z‖ < ε → ∀ e ∈ l, 0 < turn e.p.pt e.q.pt x := by
  induction l with
  | nil => exact ⟨1, one_pos, by simp⟩
  | cons e r ih =>
    obtain ⟨ε, h1, h2⟩ := ih fun e he => h e (List.mem_cons_of_mem _ he)
    have ho : IsOpen {x | 0 < turn e.p.pt e.q.pt x} :=
      isOpen_lt continuous_const (turn_continuous _ _)
    obtain ⟨η, h3, h4⟩ := Metric.isOpen_iff.1 ho z (h e List.mem_cons_self)
    refine ⟨min ε η, lt_min h1 h3, fun x hx e' he' => ?_⟩
    rcases List.mem_cons.1 he' with rfl | he'
    · exact h4 (by rw [Metric.mem_ball, dist_eq_norm]; exact hx.trans_le (min_le_right _ _))
    · exact h2 x (hx.trans_le (min_le_left _ _)) e' he'

theorem area_cycle (a b c : Coord) : area2 b c a = area2 a b c := by unfold area2; ring

theorem edge_first {p : List Coord} (hnd : p.Nodup) {e f : Seg} (he : EdgeOf [p] e)
    (hf : EdgeOf [p] f) (h : e.p = f.p) : e = f := by
  obtain ⟨q, hq, i, hi, rfl⟩ := he
  obtain rfl := List.mem_singleton.1 hq
  obtain ⟨q', hq', j, hj, rfl⟩ := hf
  obtain rfl := List.mem_singleton.1 hq'
  have := ringAt_inj hnd (by omega) h
  rw [Nat.mod_eq_of_lt hi, Nat.mod_eq_of_lt hj] at this
  rw [this]

theorem edge_second {p : List Coord} (hnd : p.Nodup) {e f : Seg} (he : EdgeOf [p] e)
    (hf : EdgeOf [p] f) (h : e.q = f.q) : e = f := by
  obtain ⟨q, hq, i, hi, rfl⟩ := he
  obtain rfl := List.mem_singleton.1 hq
  obtain ⟨q', hq', j, hj, rfl⟩ := hf
  obtain rfl := List.mem_singleton.1 hq'
  have := ringAt_inj hnd (by omega) h
  have hij : i = j := by
    rcases (by omega : i + 1 < q'.length ∨ i + 1 = q'.length) with h1 | h1 <;>
      rcases (by omega : j + 1 < q'.length ∨ j + 1 = q'.length) with h2 | h2
    · rw [Nat.mod_eq_of_lt h1, Nat.mod_eq_of_lt h2] at this
      omega
    · rw [Nat.mod_eq_of_lt h1, h2, Nat.mod_self] at this
      omega
    · rw [Nat.mod_eq_of_lt h2, h1, Nat.mod_self] at this
      omega
    · omega
  rw [hij]

/-- The corners of a convex polygon. -/
theorem convex_corner {p : List Coord} (hc : Convex p) (hnd : p.Nodup) (hlen : 3 ≤ p.length)
    {a v b : Coord} (h : CornerOf [p] a v b) : 0 < area2 a v b := by
  have hs : Simple [p] := ⟨by simpa using hnd, by simpa using hlen⟩
  obtain ⟨ea, eb⟩ := Vistree.corner_edges h
  have n1 := hs.ends_ne ea
  have n2 := hs.ends_ne eb
  refine hc.pos ea (edge_vertex eb).2 ?_ n2.symm
  intro hba
  simp only at hba
  subst hba
  have := hs.edge_eq ea eb (by unfold Seg.sameAs; simp)
  exact n1 (congrArg Seg.p this)

/-- A strictly convex polygon encloses the points to the left of its edges. -/
theorem convex_encloses {p : List Coord} (hc : Convex p) (hnd : p.Nodup) (hlen : 3 ≤ p.length) :
    Encloses p (Inland p) := by
  classical
  have hs : Simple [p] := ⟨by simpa using hnd, by simpa using hlen⟩
  obtain ⟨l, hl⟩ := edges_list p
  have near : ∀ (z : ℂ) (P : Seg → Prop),
      (∀ e, EdgeOf [p] e → ¬ P e → 0 < turn e.p.pt e.q.pt z) →
      ∃ ε > 0, ∀ x, ‖x - z‖ < ε → ∀ e, EdgeOf [p] e → ¬ P e → 0 < turn e.p.pt e.q.pt x := by
    intro z P h
    obtain ⟨ε, h1, h2⟩ := left_near (l.filter fun e => ¬ P e) z (by
      intro e he
      rw [List.mem_filter, hl, decide_eq_true_eq] at he
      exact h e he.1 he.2)
    refine ⟨ε, h1, fun x hx e he hp => h2 x hx e ?_⟩
    rw [List.mem_filter, hl, decide_eq_true_eq]
    exact ⟨he, hp⟩
  have hopen : IsOpen (Inland p) := by
    rw [Metric.isOpen_iff]
    intro z hz
    obtain ⟨ε, h1, h2⟩ := near z (fun _ => False) fun e he _ => hz e he
    refine ⟨ε, h1, fun x hx e he => h2 x ?_ e he id⟩
    rwa [Metric.mem_ball, dist_eq_norm] at hx
  refine ⟨hopen, ?_, ?_, ?_, ?_, ?_⟩
  · intro z hz
    rw [hopen.frontier_eq] at hz
    have hcl : ∀ e, EdgeOf [p] e → 0 ≤ turn e.p.pt e.q.pt z := by
      intro e he
      have hclosed : IsClosed {x | 0 ≤ turn e.p.pt e.q.pt x} :=
        isClosed_le continuous_const (turn_continuous _ _)
      exact (hclosed.closure_subset_iff.2 fun x hx => (hx e he).le) hz.1
    have : ∃ e, EdgeOf [p] e ∧ turn e.p.pt e.q.pt z = 0 := by
      by_contra hno
      push Not at hno
      exact hz.2 fun e he => lt_of_le_of_ne (hcl e he) (hno e he).symm
    obtain ⟨e, he, ht⟩ := this
    refine ⟨e, he, ?_⟩
    obtain ⟨t, rfl⟩ := on_line (fun h => hs.ends_ne he (pt_inj h)) ht
    obtain ⟨⟨a, ca⟩, b, cb⟩ := edge_corner he
    have h1 := hcl _ (Vistree.corner_edges ca).1
    have h2 := hcl _ (Vistree.corner_edges cb).2
    simp only at h1 h2
    rw [turn_comb2 _ _ _ _ (by ring), turn_second, turn_pt] at h1
    rw [turn_comb2 _ _ _ _ (by ring), turn_first, turn_pt, area_cycle] at h2
    have k1 : (0 : ℝ) < (area2 a e.p e.q : ℤ) := by
      exact_mod_cast convex_corner hc hnd hlen ca
    have k2 : (0 : ℝ) < (area2 e.p e.q b : ℤ) := by
      exact_mod_cast convex_corner hc hnd hlen cb
    have t0 : 0 ≤ t := by
      by_contra hn
      have := mul_neg_of_neg_of_pos (not_le.1 hn) k1
      linarith
    have t1 : 0 ≤ 1 - t := by
      by_contra hn
      have := mul_neg_of_neg_of_pos (not_le.1 hn) k2
      linarith
    exact ⟨1 - t, t, t1, t0, by ring, rfl⟩
  · intro e he z hz
    obtain ⟨ε, h1, h2⟩ := near z (fun f => f = e) (by
      intro f hf hfe
      obtain ⟨r, s, hr, hs', hrs, rfl⟩ := hz
      rw [turn_comb2 _ _ _ _ hrs, turn_pt, turn_pt]
      have n1 := hc.nonneg hf (edge_vertex he).1
      have n2 := hc.nonneg hf (edge_vertex he).2
      have n1' : (0 : ℝ) ≤ (area2 f.p f.q e.p : ℤ) := by exact_mod_cast n1
      have n2' : (0 : ℝ) ≤ (area2 f.p f.q e.q : ℤ) := by exact_mod_cast n2
      have m1 := mul_nonneg hr.le n1'
      have m2 := mul_nonneg hs'.le n2'
      by_contra hn
      push Not at hn
      have z1 : r * (area2 f.p f.q e.p : ℤ) = 0 := by linarith
      have z2 : s * (area2 f.p f.q e.q : ℤ) = 0 := by linarith
      have z1 := (mul_eq_zero.1 z1).resolve_left hr.ne'
      have z2 := (mul_eq_zero.1 z2).resolve_left hs'.ne'
      exact hfe (hc.same hs he hf (by exact_mod_cast z1) (by exact_mod_cast z2)).symm)
    refine ⟨ε, h1, fun x hx ht f hf => ?_⟩
    by_cases hfe : f = e
    · rw [hfe]; exact ht
    · exact h2 x hx f hf hfe
  · intro e he z _
    exact ⟨1, one_pos, fun x _ ht hx => absurd (hx e he) (by linarith)⟩
  · intro a v b hcor
    obtain ⟨ea, eb⟩ := Vistree.corner_edges hcor
    have hv : v ∈ p := (edge_vertex eb).1
    obtain ⟨ε, h1, h2⟩ := near v.pt (fun f => f = ⟨a, v⟩ ∨ f = ⟨v, b⟩) (by
      intro f hf hfe
      push Not at hfe
      rw [turn_pt]
      have : 0 < area2 f.p f.q v := by
        refine hc.pos hf hv ?_ ?_
        · intro h; exact hfe.2 (edge_first hnd hf eb h.symm)
        · intro h; exact hfe.1 (edge_second hnd hf ea h.symm)
      exact_mod_cast this)
    refine ⟨ε, h1, fun x hx hi f hf => ?_⟩
    have k : (0 : ℝ) < turn a.pt v.pt b.pt := by
      rw [turn_pt]; exact_mod_cast convex_corner hc hnd hlen hcor
    unfold Into at hi
    rw [if_pos k] at hi
    by_cases hfe : f = ⟨a, v⟩ ∨ f = ⟨v, b⟩
    · rcases hfe with rfl | rfl
      · exact hi.1
      · exact hi.2
    · exact h2 x hx f hf hfe
  · intro a v b hcor
    obtain ⟨ea, eb⟩ := Vistree.corner_edges hcor
    refine ⟨1, one_pos, fun x _ ho hx => ?_⟩
    have k : (0 : ℝ) < turn a.pt v.pt b.pt := by
      rw [turn_pt]; exact_mod_cast convex_corner hc hnd hlen hcor
    unfold Outof at ho
    rw [if_pos k] at ho
    have x1 := hx _ ea
    have x2 := hx _ eb
    simp only at x1 x2
    rcases ho with h | h <;> linarith

/-- **C74** From a shapefile to the answer of a query, with computed angles and fused products: if
the points do not see each other there is an answer, and every answer is the degrees of the straight
line or of a path about as short as any course over the sea. -/
theorem C74_end_to_end (D : ℕ → ℕ) (shapes : List Shape) (h : SoundFile D shapes) :
    ∃ ps : List (List Coord), (∀ T, Within D T → (readShapes shapes >>= toPolygons T) = .ok ps) ∧
    (ps ≠ [] → ps.flatten.Nodup → ps.length < 2 ^ 64 → ps.flatten.length ≤ 499998 →
    (∀ a v b, CornerOf ps a v b → CornerResolved a v b) →
    ∀ (N : Type) [DecidableEq N] (T1 T2 : ℕ → Polygon.SumTree) (Ts : ℕ → ℕ → Polygon.SumTree)
      (k : ℕ) (c1 c2 : ℕ → Contract) (angle : ℕ → ℚ → ℚ → ℚ)
      (sc : ℕ → Coord → Res (List (Coord × Bool)))
      (order shuffle : List Coord → List Coord) (porder : List Graph → List (List Coord))
      (schedule : List Graph.Op → List Graph.Op) (disk : Disk N) (name : ℕ → N) (out : N)
      (js ins : List ℕ), Within D T1 → Within D T2 → (∀ i < k, Within D (Ts i)) → 1 ≤ k →
      (∀ i < k, ∀ v ∈ ps.flatten, Separated v (polygonsPeriodic (Ts i) ps).flatten) →
      (∀ i < k, Atan2Ok (angle i)) →
      (∀ i < k, IsScannerFused (c1 i) (c2 i) (angle i) (Ts i) ps (sc i)) →
      (∀ l, (order l).Perm l) →
      (∀ l, (shuffle l).Perm l) → (∀ gs, Graph.MergeOrder gs (porder gs)) →
      (∀ l, (schedule l).Perm l) → (∀ i < k, ∀ j < k, name i = name j → i = j) →
      (∀ i < k, name i ≠ out) → (∀ i < k, disk (name i) = none) → disk out = none →
      js.Perm (List.range k) → (∀ i, i ∈ ins ↔ i < k) →
    ∃ disk1 disk2 G,
      runJobs disk (js.map fun (i : ℕ) => splitJob ps (sc i) order shuffle k i (name i)) =
        (.ok (), disk1) ∧
      mergeJob T1 porder schedule (ins.map name) out disk1 = (.ok (), disk2) ∧
      disk2.load T2 out = .ok G ∧
      ∀ (E : Env) (d1 d2 d3 : Contract) (fw : Bool) (atan2 : ℚ → ℚ → ℚ), E.graph = G →
      Atan2Ok atan2 → IsReachFused d1 d2 atan2 G.polygons E.reach → (∀ l, (E.ord l).Perm l) →
      ∀ sq : ℚ → Dbl, (SqrtOk fun q => (sq q).1) → (∀ x, 0 ≤ (sq x).1) → ∀ w : Dbl, 0 ≤ w.1 →
      ∀ s d : ℚ × ℚ, (|s.1| ≤ 180 ∧ |s.2| ≤ 90) → (|d.1| ≤ 180 ∧ |d.2| ≤ 90) →
      ∃ a b, Coord.ofDegreesC s.1 s.2 = .ok a ∧ Coord.ofDegreesC d.1 d.2 = .ok b ∧
        (E.onLand a = false → E.onLand b = false →
        Separated a ps.flatten → Separated b ps.flatten →
        a ≠ b → ¬ (Sees ps a b ∧ Sees ps b a) →
        (∀ e, EdgeOf ps e → ∀ v, v = a ∨ v = b ∨ v ∈ ps.flatten → OnSeg e v.lon v.lat →
          v = e.p ∨ v = e.q) →
        ∀ land : List Coord → Set ℂ, (∀ p ∈ ps, Encloses p (land p)) →
        ∀ course, IsWalk (AtSea (⋃ p ∈ ps, land p)) a.pt b.pt course → ∀ allow,
        (∃ r, Interpolate (fusedArith sq d3 fw w none) E s d allow r) ∧
        ∀ r, Interpolate (fusedArith sq d3 fw w none) E s d allow r →
          ∃ path, r = .ok (toDegrees path) ∧
            (path = [a, b] ∨ walkLength (legLength E) path ≤ (1 + 1 / 10 ^ 8) *
              (max 1 ((w.1 : ℚ) : ℝ) * walkLength lineLength course)))) := by
  obtain ⟨ps, h1, h2⟩ := C73_end_to_end D shapes h
  refine ⟨ps, h1, ?_⟩
  intro hne hnd hl hsize hcor N _ T1 T2 Ts k c1 c2 angle sc order shuffle porder schedule disk name
    out js ins hT1 hT2 hTs hk hsep hangle hsc ho hsh hpo hsch hinj hout hf hfo hjs hins
  obtain ⟨disk1, disk2, G, g1, g2, g3, g4⟩ := h2 hne hnd hl hsize hcor N T1 T2 Ts k c1 c2 angle sc
    order shuffle porder schedule disk name out js ins hT1 hT2 hTs hk hsep hangle hsc ho hsh hpo hsch
    hinj hout hf hfo hjs hins
  refine ⟨disk1, disk2, G, g1, g2, g3, ?_⟩
  intro E m1 m2 m3 fw atan2 hE hatan hreach hord sq hsq hsq0 w hw s d hs hd
  obtain ⟨a, b, ha, hb, g5⟩ := g4 E m1 m2 m3 fw atan2 hE hatan hreach hord sq hsq hsq0 w hw s d hs hd
  refine ⟨a, b, ha, hb, ?_⟩
  intro la lb sa sb hab hsee hin land hland course hcourse allow
  obtain ⟨k1, k2, -⟩ | ⟨chain, k1, k2, k3⟩ := C74_tight ps land hland hcor a b hab hin course hcourse
  · exact absurd ⟨k1, k2⟩ hsee
  · obtain ⟨q1, q2⟩ := g5 la lb sa sb chain k1 k2 allow
    refine ⟨q1, fun r hr => ?_⟩
    obtain ⟨path, rfl, hp⟩ := q2 r hr
    refine ⟨path, rfl, hp.imp id fun hp => hp.trans ?_⟩
    gcongr

/-- A line on the outer side of an edge of a convex polygon is over the sea. -/
theorem beside_sea {p : List Coord} {e : Seg} (he : EdgeOf [p] e) {u w : ℂ}
    (hu : turn e.p.pt e.q.pt u ≤ 0) (hw : turn e.p.pt e.q.pt w ≤ 0) : AtSea (Inland p) u w := by
  rintro z ⟨r, s, hr, hs, hrs, rfl⟩ hz
  have := hz e he
  rw [turn_comb2 _ _ _ _ hrs] at this
  have := mul_nonpos_of_nonneg_of_nonpos hr hu
  have := mul_nonpos_of_nonneg_of_nonpos hs hw
  linarith

/-- Non-vacuity of C74: a course round the island of C61 which keeps off the coast, with a turn off
each of the two northern corners, and the path, which is no longer. -/
example (sq : ℚ → Dbl) (hsq : SqrtOk fun q => (sq q).1) (hsq0 : ∀ x, 0 ≤ (sq x).1) (w : Dbl)
    (hw : w.1 = 1) : ∃ (course : List ℂ) (path : List Coord),
    course = [⟨-5, 5⟩, ⟨-1 / 2, 21 / 2⟩, ⟨21 / 2, 21 / 2⟩, ⟨15, 5⟩] ∧
    IsWalk (AtSea (⋃ p ∈ [exSquare], Inland p)) (⟨-5, 5⟩ : Coord).pt (⟨15, 5⟩ : Coord).pt course ∧
    Query (doubleArith sq w none) exTour ⟨-5, 5⟩ ⟨15, 5⟩ false (.ok path) ∧
    (path = [⟨-5, 5⟩, ⟨15, 5⟩] ∨ walkLength (legLength exTour) path ≤ (1 + 1 / 10 ^ 8) *
      (max 1 ((w.1 : ℚ) : ℝ) * walkLength lineLength course)) := by
  have hV := exTour_voyage
  have h0 : 0 ≤ w.1 := by rw [hw]; norm_num
  have hl := double_like sq hsq hsq0 w h0 none
  have hE : ∀ i < 4, EdgeOf [exSquare] ⟨ringAt exSquare i, ringAt exSquare (i + 1)⟩ := fun i hi =>
    ⟨exSquare, List.mem_singleton_self _, i, hi, rfl⟩
  have hsea : ∀ i < 4, ∀ u w : ℂ, turn (ringAt exSquare i).pt (ringAt exSquare (i + 1)).pt u ≤ 0 →
      turn (ringAt exSquare i).pt (ringAt exSquare (i + 1)).pt w ≤ 0 →
      AtSea (⋃ p ∈ [exSquare], Inland p) u w := by
    intro i hi u w hu hw z hz hl
    obtain ⟨p, hp, hl⟩ := Set.mem_iUnion₂.1 hl
    obtain rfl := List.mem_singleton.1 hp
    exact beside_sea (hE i hi) hu hw z hz hl
  have hwalk : IsWalk (AtSea (⋃ p ∈ [exSquare], Inland p)) (⟨-5, 5⟩ : Coord).pt
      (⟨15, 5⟩ : Coord).pt [⟨-5, 5⟩, ⟨-1 / 2, 21 / 2⟩, ⟨21 / 2, 21 / 2⟩, ⟨15, 5⟩] := by
    refine ⟨by simp [Coord.pt], by simp [Coord.pt], ?_⟩
    simp only [List.isChain_cons_cons, List.isChain_singleton, and_true]
    refine ⟨hsea 3 (by norm_num) _ _ ?_ ?_, hsea 2 (by norm_num) _ _ ?_ ?_,
      hsea 1 (by norm_num) _ _ ?_ ?_⟩ <;> simp [turn, Coord.pt, ringAt, exSquare] <;> norm_num
  obtain ⟨⟨r, hq⟩, -⟩ := C43_outcome _ hl.sound exTour hV.made hV.ord ⟨-5, 5⟩ ⟨15, 5⟩ false
  obtain ⟨path, rfl, hp⟩ := C74_path hl h0 _ _ _ _ _ _ _ hV (by decide) Inland (by
      intro p hp
      obtain rfl := List.mem_singleton.1 hp
      exact convex_encloses (by decide) (by decide) (by decide)) (by
      rintro a v b ⟨p, hp, i, hi, rfl, rfl, rfl⟩
      obtain rfl := List.mem_singleton.1 hp
      have hi : i < 4 := hi
      interval_cases i <;> decide +kernel) (by decide) (by
      rintro e ⟨p, hp, i, hi, rfl⟩ v hv ⟨t, t0, t1, hx, hy⟩
      obtain rfl := List.mem_singleton.1 hp
      have hi : i < 4 := hi
      have hv : v ∈ [⟨-5, 5⟩, ⟨15, 5⟩, ⟨0, 0⟩, ⟨10, 0⟩, ⟨10, 10⟩, (⟨0, 10⟩ : Coord)] := by
        simpa [exSquare] using hv
      fin_cases hv <;> interval_cases i <;>
        (simp [ringAt, exSquare] at hx hy ⊢; try linarith)) (by
      rintro ⟨⟨h1, -⟩, -⟩
      have := h1 _ (hE 3 (by norm_num)) (by decide) (by decide) 0 5
        ⟨1 / 2, by norm_num, by norm_num, by simp [ringAt, exSquare], by
          simp [ringAt, exSquare]; norm_num⟩
        ⟨1 / 4, by norm_num, by norm_num, by norm_num, by norm_num⟩
      norm_num at this) _ hwalk false r hq
  exact ⟨_, path, rfl, hwalk, hq, hp.imp And.right id⟩

/-- Non-vacuity of `C74_sea`: the chain of C61 round the island. -/
example : IsWalk (AtSea (⋃ p ∈ [exSquare], Inland p)) (⟨-5, 5⟩ : Coord).pt (⟨15, 5⟩ : Coord).pt
    ([⟨-5, 5⟩, ⟨0, 10⟩, ⟨10, 10⟩, ⟨15, 5⟩].map Coord.pt) := by
  refine (C74_sea [exSquare] Inland (by
      intro p hp
      obtain rfl := List.mem_singleton.1 hp
      exact convex_encloses (by decide) (by decide) (by decide)) (by
      rintro a v b ⟨p, hp, i, hi, rfl, rfl, rfl⟩
      obtain rfl := List.mem_singleton.1 hp
      have hi : i < 4 := hi
      interval_cases i <;> decide +kernel) _ _ _ exTour_chain ?_).1
  intro v hv hl
  obtain ⟨p, hp, hl⟩ := Set.mem_iUnion₂.1 hl
  obtain rfl := List.mem_singleton.1 hp
  have hE : ∀ i < 4, 0 < area2 (ringAt exSquare i) (ringAt exSquare (i + 1)) v := fun i hi => by
    have := hl _ ⟨exSquare, List.mem_singleton_self _, i, hi, rfl⟩
    rw [turn_pt] at this
    exact_mod_cast this
  revert hE
  fin_cases hv <;> decide

/-- What `C74_end_to_end` asks of the map, for the file of C66. -/
example : (∀ p ∈ [exDegree], Encloses p (Inland p)) ∧
    ¬ (Sees [exDegree] ⟨-500000, 500000⟩ ⟨1500000, 500000⟩ ∧
      Sees [exDegree] ⟨1500000, 500000⟩ ⟨-500000, 500000⟩) ∧
    ∀ e, EdgeOf [exDegree] e → ∀ v, v = ⟨-500000, 500000⟩ ∨ v = ⟨1500000, 500000⟩ ∨
      v ∈ [exDegree].flatten → OnSeg e v.lon v.lat → v = e.p ∨ v = e.q := by
  refine ⟨?_, ?_, ?_⟩
  · intro p hp
    obtain rfl := List.mem_singleton.1 hp
    exact convex_encloses (by decide) (by decide) (by decide)
  · rintro ⟨⟨h1, -⟩, -⟩
    have := h1 _ ⟨exDegree, List.mem_singleton_self _, 2, by decide, rfl⟩ (by decide) (by decide)
      0 500000
      ⟨1 / 2, by norm_num, by norm_num, by simp [ringAt, exDegree], by
        simp [ringAt, exDegree]; norm_num⟩
      ⟨1 / 4, by norm_num, by norm_num, by norm_num, by norm_num⟩
    norm_num at this
  · rintro e ⟨p, hp, i, hi, rfl⟩ v hv ⟨t, t0, t1, hx, hy⟩
    obtain rfl := List.mem_singleton.1 hp
    have hi : i < 4 := hi
    have hv : v ∈ [⟨-500000, 500000⟩, ⟨1500000, 500000⟩, ⟨1000000, 0⟩, ⟨1000000, 1000000⟩,
        ⟨0, 1000000⟩, (⟨0, 0⟩ : Coord)] := by
      simpa [exDegree] using hv
    fin_cases hv <;> interval_cases i <;>
      (simp [ringAt, exDegree] at hx hy ⊢; try linarith)

end Capi
