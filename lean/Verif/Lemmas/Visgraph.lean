import Verif.Lemmas.Concurrency
import Verif.Lemmas.Merge
import Verif.Lemmas.Winding
import Verif.Model.Visgraph
import Verif.Props.Polygon
import Verif.Props.Vistree
import Verif.Spec.Shift

/-!
# Lemmas about the generation of visibility graphs
-/

namespace Capi

open Polygon

/-! ### Periodic copies of polygons -/

theorem shift_sub (k : ℤ) (a b : Coord) : (a.shift k).sub (b.shift k) = a.sub b := by
  simp only [Coord.shift, Coord.sub, Coord.add, Coord.neg, Coord.mk.injEq, and_true]; ring

theorem shift_inj {k : ℤ} {a b : Coord} (h : a.shift k = b.shift k) : a = b := by
  cases a; cases b
  simp only [Coord.shift, Coord.mk.injEq] at *
  omega

theorem keeps_shift (k : ℤ) (a b c : Coord) :
    keeps (a.shift k) (b.shift k) (c.shift k) = keeps a b c := by
  unfold keeps; rw [shift_sub, shift_sub]

theorem ringAt_map {f : Coord → Coord} {p : List Coord} (hp : p ≠ []) (i : ℕ) :
    ringAt (p.map f) i = f (ringAt p i) := by
  have hl : i % p.length < p.length := Nat.mod_lt _ (List.length_pos_iff.2 hp)
  unfold ringAt
  simp only [List.length_map, List.getD_eq_getElem?_getD, List.getElem?_map,
    List.getElem?_eq_getElem hl, Option.map_some, Option.getD_some]

theorem removeCollinear_shift (k : ℤ) (p : List Coord) :
    removeCollinear (p.map (Coord.shift k)) = (removeCollinear p).map (Coord.shift k) := by
  by_cases hp : p = []
  · subst hp; rfl
  unfold removeCollinear
  rw [List.length_map, List.map_map]
  have e1 : (fun i => keeps (ringAt (p.map (Coord.shift k)) (i + p.length - 1))
      (ringAt (p.map (Coord.shift k)) i) (ringAt (p.map (Coord.shift k)) (i + 1))) =
      fun i => keeps (ringAt p (i + p.length - 1)) (ringAt p i) (ringAt p (i + 1)) := by
    funext i; rw [ringAt_map hp, ringAt_map hp, ringAt_map hp, keeps_shift]
  rw [e1]
  exact List.map_congr_left fun i _ => ringAt_map hp i

theorem twiceArea_shift (k : ℤ) (p : List Coord) :
    twiceArea (p.map (Coord.shift k)) = twiceArea p := by
  by_cases hp : p = []
  · subst hp; rfl
  unfold twiceArea
  rw [List.length_map]
  have e : ∀ i, (ringAt (p.map (Coord.shift k)) i).lon * (ringAt (p.map (Coord.shift k)) (i + 1)).lat -
      (ringAt (p.map (Coord.shift k)) (i + 1)).lon * (ringAt (p.map (Coord.shift k)) i).lat =
      ((ringAt p i).lon * (ringAt p (i + 1)).lat - (ringAt p (i + 1)).lon * (ringAt p i).lat) +
        (k * 360000001 * (ringAt p (i + 1)).lat - k * 360000001 * (ringAt p i).lat) := by
    intro i; rw [ringAt_map hp, ringAt_map hp]; simp only [Coord.shift]; ring
  rw [Finset.sum_congr rfl fun i _ => e i, Finset.sum_add_distrib,
    Finset.sum_range_sub (fun i => k * 360000001 * (ringAt p i).lat)]
  have : ringAt p p.length = ringAt p 0 := by unfold ringAt; simp
  rw [this]; ring

/-- Rebuilding each of the three copies of the polygon changes nothing. -/
def Stable (T : ℕ → Polygon.SumTree) (p : List Coord) : Prop :=
  ∀ k, IsCopy k → Polygon.mk T (p.map (Coord.shift k)) = p.map (Coord.shift k)

theorem shift_per {c : Coord} (hc : c.Geo) {k : ℤ} (hk : IsCopy k) : (c.shift k).Per := by
  simp only [Coord.Geo, Coord.Per, Coord.shift, IsCopy] at *
  omega

theorem geo_per {c : Coord} (hc : c.Geo) : c.Per := by
  simp only [Coord.Geo, Coord.Per] at *; omega

theorem copy_getD (v : Coord) :
    (List.range 3).map (fun i => (periodicCopies v).getD i v) =
      [v.shift 0, v.shift 1, v.shift (-1)] := by
  simp [periodicCopies, Coord.shift, period, List.range_succ]
  rfl

theorem mem_polygonsPeriodic {T : ℕ → Polygon.SumTree} {ps : List (List Coord)} {q : List Coord} :
    q ∈ polygonsPeriodic T ps ↔
      ∃ p ∈ ps, ∃ k, IsCopy k ∧ q = Polygon.mk T (p.map (Coord.shift k)) := by
  have e : ∀ i : ℕ, i < 3 → ∀ v : Coord, (periodicCopies v).getD i v =
      v.shift (if i = 0 then 0 else if i = 1 then 1 else -1) := by
    intro i hi v
    have h := copy_getD v
    have := congrArg (fun l => l.getD i v) h
    rcases (by omega : i = 0 ∨ i = 1 ∨ i = 2) with rfl | rfl | rfl <;>
      simpa [List.range_succ] using this
  unfold polygonsPeriodic
  rw [List.mem_flatMap]
  refine exists_congr fun p => and_congr_right fun _ => ?_
  rw [List.mem_map]
  constructor
  · rintro ⟨i, hi, rfl⟩
    rw [List.mem_range] at hi
    refine ⟨_, ?_, by rw [List.map_congr_left fun v _ => e i hi v]⟩
    unfold IsCopy; split_ifs <;> simp
  · rintro ⟨k, hk, rfl⟩
    rcases hk with rfl | rfl | rfl
    · exact ⟨0, by simp, by rw [List.map_congr_left fun v _ => e 0 (by omega) v]; rfl⟩
    · exact ⟨1, by simp, by rw [List.map_congr_left fun v _ => e 1 (by omega) v]; rfl⟩
    · exact ⟨2, by simp, by rw [List.map_congr_left fun v _ => e 2 (by omega) v]; rfl⟩

theorem mem_mk {T : ℕ → Polygon.SumTree} {p : List Coord} {v : Coord} (h : v ∈ Polygon.mk T p) : v ∈ p := by
  rcases C12_same_vertices T p with e | e
  · rw [e] at h; exact (removeCollinear_sublist p).subset h
  · rw [e, List.mem_reverse] at h; exact (removeCollinear_sublist p).subset h

/-- Every vertex of the periodic polygons is a copy of a given vertex. -/
theorem periodic_vertex {T : ℕ → Polygon.SumTree} {ps : List (List Coord)} {v : Coord}
    (h : v ∈ (polygonsPeriodic T ps).flatten) :
    ∃ w ∈ ps.flatten, ∃ k, IsCopy k ∧ v = w.shift k := by
  obtain ⟨q, hq, hv⟩ := List.mem_flatten.1 h
  obtain ⟨p, hp, k, hk, rfl⟩ := mem_polygonsPeriodic.1 hq
  obtain ⟨w, hw, rfl⟩ := List.mem_map.1 (mem_mk hv)
  exact ⟨w, List.mem_flatten.2 ⟨p, hp, hw⟩, k, hk, rfl⟩

theorem periodic_range {T : ℕ → Polygon.SumTree} {ps : List (List Coord)} (hg : ∀ v ∈ ps.flatten, v.Geo) :
    ∀ v ∈ (polygonsPeriodic T ps).flatten, v.Per := by
  intro v hv
  obtain ⟨w, hw, k, hk, rfl⟩ := periodic_vertex hv
  exact shift_per (hg w hw) hk

theorem stable_vertex {T : ℕ → Polygon.SumTree} {ps : List (List Coord)} (hs : ∀ p ∈ ps, Stable T p)
    {w : Coord} (hw : w ∈ ps.flatten) {k : ℤ} (hk : IsCopy k) :
    w.shift k ∈ (polygonsPeriodic T ps).flatten := by
  obtain ⟨p, hp, hwp⟩ := List.mem_flatten.1 hw
  refine List.mem_flatten.2 ⟨p.map (Coord.shift k), mem_polygonsPeriodic.2
    ⟨p, hp, k, hk, (hs p hp k hk).symm⟩, List.mem_map_of_mem hwp⟩

theorem stable_edge {T : ℕ → Polygon.SumTree} {ps : List (List Coord)} (hs : ∀ p ∈ ps, Stable T p)
    {s : Seg} (h : EdgeOf (polygonsPeriodic T ps) s) :
    ∃ e, EdgeOf ps e ∧ ∃ k, IsCopy k ∧ s = e.shift k := by
  obtain ⟨q, hq, i, hi, rfl⟩ := h
  obtain ⟨p, hp, k, hk, rfl⟩ := mem_polygonsPeriodic.1 hq
  rw [hs p hp k hk] at hi ⊢
  rw [List.length_map] at hi
  have hp0 : p ≠ [] := by rintro rfl; simp at hi
  exact ⟨_, ⟨p, hp, i, hi, rfl⟩, k, hk, by rw [ringAt_map hp0, ringAt_map hp0]; rfl⟩

/-- Corners at an in-range vertex belong to the copies that were not moved. -/
theorem stable_corner {T : ℕ → Polygon.SumTree} {ps : List (List Coord)} (hs : ∀ p ∈ ps, Stable T p)
    (hg : ∀ v ∈ ps.flatten, v.Geo) {a v b : Coord} (hv : v.Geo)
    (h : CornerOf (polygonsPeriodic T ps) a v b) : CornerOf ps a v b := by
  obtain ⟨q, hq, i, hi, rfl, rfl, rfl⟩ := h
  obtain ⟨p, hp, k, hk, rfl⟩ := mem_polygonsPeriodic.1 hq
  rw [hs p hp k hk] at hi hv ⊢
  rw [List.length_map] at hi
  have hp0 : p ≠ [] := by rintro rfl; simp at hi
  rw [ringAt_map hp0] at hv
  have hm : (ringAt p i).Geo := hg _ (List.mem_flatten.2 ⟨p, hp, Vistree.ringAt_mem (List.length_pos_iff.2 hp0)⟩)
  have hk0 : k = 0 := by
    simp only [Coord.Geo, Coord.shift, IsCopy] at hv hm hk
    omega
  subst hk0
  have e : p.map (Coord.shift 0) = p := by
    rw [List.map_congr_left (g := id)]
    · simp
    · intro v _; cases v; simp [Coord.shift]
  rw [e]
  exact ⟨p, hp, i, hi, rfl, rfl, rfl⟩

/-- What is reported for a copy of an in-range vertex. -/
theorem reportOf_shift {w : Coord} (hw : w.Geo) {k : ℤ} {x : Coord × Bool}
    (h : ReportOf (w.shift k) x) : x.1 = w ∧ (x.2 = true ↔ k ≠ 0) := by
  obtain ⟨⟨h1, j, h2⟩, h3, h4, h5⟩ := h
  obtain ⟨⟨xl, xa⟩, xb⟩ := x
  cases w with | mk wl wa =>
  simp only [Coord.shift, Coord.Geo, Coord.mk.injEq] at *
  rw [h5]
  refine ⟨⟨?_, h1⟩, ?_⟩ <;> omega

theorem forall₂_mem {α β : Type} {R : α → β → Prop} {l : List α} {r : List β}
    (h : List.Forall₂ R l r) {y : β} (hy : y ∈ r) : ∃ x ∈ l, R x y := by
  induction h with
  | nil => simp at hy
  | cons h1 _ ih =>
    rcases List.mem_cons.1 hy with rfl | hy
    · exact ⟨_, by simp, h1⟩
    · obtain ⟨x, hx, hr⟩ := ih hy
      exact ⟨x, by simp [hx], hr⟩

/-! ### The loops -/

namespace Visgraph

theorem polygonVertices_eq (ps : List (List Coord)) : polygonVertices ps = ps.flatten := by
  have key : ∀ (ps : List (List Coord)) acc,
      ps.foldl (fun acc p => acc ++ p) acc = acc ++ ps.flatten := by
    intro ps
    induction ps with
    | nil => simp
    | cons p r ih => intro acc; rw [List.foldl_cons, ih]; simp
  exact (key ps []).trans (by simp)

/-- The additions made for the vertices of a list, given the answers of the scans. -/
def opsOf (f : Coord → List (Coord × Bool)) (vs : List Coord) : List Graph.Op :=
  vs.flatMap fun a => (f a).map fun x => .add a x.1 x.2

theorem mem_opsOf {f : Coord → List (Coord × Bool)} {vs : List Coord} {o : Graph.Op} :
    o ∈ opsOf f vs ↔ ∃ a ∈ vs, ∃ x ∈ f a, o = .add a x.1 x.2 := by
  simp [opsOf, List.mem_flatMap, eq_comm]

theorem link_run (g : Graph) (a : Coord) (l : List (Coord × Bool)) :
    link g a l = g.run (l.map fun x => .add a x.1 x.2) := by
  induction l generalizing g with
  | nil => rfl
  | cons x r ih =>
    simp only [link, List.map_cons, Graph.run, Graph.step]
    cases g.addEdge a x.1 x.2 with
    | ok g1 => simp only [Res.bind_ok]; exact ih g1
    | error e => rfl

theorem run_append (g : Graph) (l r : List Graph.Op) :
    g.run (l ++ r) = (g.run l) >>= fun g1 => g1.run r := by
  induction l generalizing g with
  | nil => rfl
  | cons o l ih =>
    simp only [List.cons_append, Graph.run]
    cases g.step o with
    | ok g1 => simp only [Res.bind_ok]; exact ih g1
    | error e => rfl

theorem sweepAll_run {scanner : Coord → Res (List (Coord × Bool))}
    {f : Coord → List (Coord × Bool)} (vs : List Coord) (h : ∀ a ∈ vs, scanner a = .ok (f a))
    (g : Graph) : sweepAll scanner g vs = g.run (opsOf f vs) := by
  induction vs generalizing g with
  | nil => rfl
  | cons a r ih =>
    have e : opsOf f (a :: r) = (f a).map (fun x => Graph.Op.add a x.1 x.2) ++ opsOf f r := by
      simp [opsOf]
    rw [e, run_append, sweepAll, h a (by simp), Res.bind_ok, link_run]
    congr 1
    funext g1
    exact ih (fun b hb => h b (by simp [hb])) g1

/-- All reports name vertices. -/
def On (vs : List Coord) (f : Coord → List (Coord × Bool)) : Prop :=
  ∀ a ∈ vs, ∀ x ∈ f a, x.1 ∈ vs

theorem opsOn {vs us : List Coord} {f : Coord → List (Coord × Bool)} (h : On vs f)
    (hu : ∀ a ∈ us, a ∈ vs) : OpsOn vs (opsOf f us) := by
  intro o ho c hc
  obtain ⟨a, ha, x, hx, rfl⟩ := mem_opsOf.1 ho
  simp only [opCoords, List.mem_cons, List.not_mem_nil, or_false] at hc
  rcases hc with rfl | rfl
  · exact hu _ ha
  · exact h a (hu a ha) x hx

theorem live_opsOf {f : Coord → List (Coord × Bool)} {us : List Coord} (a b : Coord) (m : Bool) :
    Live (history (opsOf f us)) a b m ↔ (a ∈ us ∧ (b, m) ∈ f a) ∨ (b ∈ us ∧ (a, m) ∈ f b) := by
  rw [Graph.Live_of_no_removal]
  · unfold history
    rw [List.mem_flatMap]
    constructor
    · rintro ⟨o, ho, he⟩
      obtain ⟨c, hc, x, hx, rfl⟩ := mem_opsOf.1 ho
      simp only [eventsOf, List.mem_cons, Event.added.injEq, List.not_mem_nil, or_false] at he
      rcases he with ⟨rfl, rfl, rfl⟩ | ⟨rfl, rfl, rfl⟩
      · exact Or.inl ⟨hc, hx⟩
      · exact Or.inr ⟨hc, hx⟩
    · rintro (⟨h1, h2⟩ | ⟨h1, h2⟩)
      · exact ⟨_, mem_opsOf.2 ⟨a, h1, _, h2, rfl⟩, by simp [eventsOf]⟩
      · exact ⟨_, mem_opsOf.2 ⟨b, h1, _, h2, rfl⟩, by simp [eventsOf]⟩
  · intro c d hc
    unfold history at hc
    obtain ⟨o, ho, he⟩ := List.mem_flatMap.1 hc
    obtain ⟨_, _, x, _, rfl⟩ := mem_opsOf.1 ho
    simp [eventsOf] at he

/-- The answers of a graph obtained by handling the vertices `us`. -/
theorem run_opsOf {ps : List (List Coord)} {f : Coord → List (Coord × Bool)}
    (h : On ps.flatten f) {us : List Coord} (hu : ∀ a ∈ us, a ∈ ps.flatten) :
    ∃ g, (Graph.ofPolygons ps).run (opsOf f us) = .ok g ∧ UserGraph g ∧ g.polygons = ps ∧
      g.verts = ps.flatten ∧
      ∀ a b,
        (g.hasEdge a b = .ok true ↔ a ≠ b ∧
          ∃ m, (a ∈ us ∧ (b, m) ∈ f a) ∨ (b ∈ us ∧ (a, m) ∈ f b)) ∧
        (g.isCrossing a b = .ok true ↔ a ≠ b ∧
          (∃ m, (a ∈ us ∧ (b, m) ∈ f a) ∨ (b ∈ us ∧ (a, m) ∈ f b)) ∧
          ¬ ((a ∈ us ∧ (b, false) ∈ f a) ∨ (b ∈ us ∧ (a, false) ∈ f b))) := by
  obtain ⟨g, h1, h2, h3⟩ := (Graph.ok_fresh ps).run _ (opsOn h hu)
  refine ⟨g, h1, ⟨ps, _, ?_, opsOn h hu, h1⟩, h2.polygons, h3.verts, fun a b => ?_⟩
  · intro o ho
    obtain ⟨_, _, _, _, rfl⟩ := mem_opsOf.1 ho
    trivial
  simp only [← live_opsOf]
  rw [Graph.hasEdge_eq h3.shape, Graph.isCrossing_eq h3.shape]
  by_cases hab : a = b
  · simp [hab]
  · by_cases hk : a ∈ g.verts ∧ b ∈ g.verts
    · obtain ⟨r1, r2⟩ := h3.rep.has hk.1 hk.2 hab
      simp only [List.nil_append] at r1 r2
      rw [if_neg hab, if_neg hab, if_pos hk, if_pos hk, Except.ok.injEq, Except.ok.injEq,
        bne_iff_ne, beq_iff_eq, r1, r2]
      refine ⟨by simp [hab], ?_⟩
      constructor
      · rintro ⟨h4, h5⟩
        exact ⟨hab, h4, fun h6 => by have := h5 false h6; simp at this⟩
      · rintro ⟨_, h4, h5⟩
        refine ⟨h4, fun m hm => ?_⟩
        cases m with
        | true => rfl
        | false => exact absurd hm h5
    · have hno : ¬ ∃ m, Live (history (opsOf f us)) a b m := by
        rintro ⟨m, hm⟩
        rw [live_opsOf] at hm
        rw [h3.verts] at hk
        rcases hm with ⟨h4, h5⟩ | ⟨h4, h5⟩
        · exact hk ⟨hu a h4, h a (hu a h4) _ h5⟩
        · exact hk ⟨h b (hu b h4) _ h5, hu b h4⟩
      simp [hab, hk, hno]

/-- Additions may be reordered. -/
theorem run_perm {g : Graph} (hs : g.Shape) {ops ops' : List Graph.Op} (h : ops.Perm ops')
    (ha : ∀ o ∈ ops, o.isAdd) (hon : OpsOn g.verts ops) : g.run ops = g.run ops' := by
  rw [Conc.run_mem hs ops hon, Conc.run_mem hs ops' fun o ho => hon o (h.mem_iff.2 ho)]
  congr 2
  refine Conc.runAll_perm (h.flatMap_right _) ?_ _
  intro c hc
  obtain ⟨o, ho, hco⟩ := List.mem_flatMap.1 hc
  have := ha o ho
  cases o with
  | add a b m =>
    rcases List.mem_append.1 hco with h1 | h1 <;> exact Conc.directed_add h1
  | addDir a b m => exact Conc.directed_add hco
  | remove a b => exact this.elim
  | removeDir a b => exact this.elim

theorem slice_ok {vs : List Coord} {lo hi : ℕ} (h : hi ≤ vs.length) :
    ∃ us, slice vs lo hi = .ok us ∧ ∀ v, v ∈ us ↔ ∃ i, lo ≤ i ∧ i < hi ∧ vs[i]? = some v := by
  have key : ∀ is : List ℕ, (∀ i ∈ is, i < vs.length) →
      ∃ us, is.mapM (fun i => match vs[i]? with
        | some v => (.ok v : Res Coord)
        | none => .error .ub) = .ok us ∧ ∀ v, v ∈ us ↔ ∃ i ∈ is, vs[i]? = some v := by
    intro is
    induction is with
    | nil => intro _; exact ⟨[], rfl, by simp⟩
    | cons i r ih =>
      intro hi
      obtain ⟨us, h1, h2⟩ := ih fun j hj => hi j (by simp [hj])
      have hv : vs[i]? = some (vs[i]'(hi i (by simp))) := List.getElem?_eq_getElem (hi i (by simp))
      refine ⟨vs[i]'(hi i (by simp)) :: us, ?_, fun v => ?_⟩
      · rw [List.mapM_cons, hv]
        simp only [Res.bind_ok, h1, Res.pure_eq]
      · simp [h2, hv, eq_comm]
  obtain ⟨us, h1, h2⟩ := key (List.range' lo (hi - lo)) fun i hi => by
    rw [List.mem_range'_1] at hi; omega
  refine ⟨us, h1, fun v => ?_⟩
  rw [h2]
  constructor
  · rintro ⟨i, hi, hv⟩
    rw [List.mem_range'_1] at hi
    exact ⟨i, by omega, by omega, hv⟩
  · rintro ⟨i, h3, h4, hv⟩
    exact ⟨i, by rw [List.mem_range'_1]; omega, hv⟩

theorem mapM_ok {α β : Type} {F : α → Res β} (l : List α) (h : ∀ r ∈ l, ∃ g, F r = .ok g) :
    ∃ gs, l.mapM F = .ok gs ∧ ∀ g, g ∈ gs ↔ ∃ r ∈ l, F r = .ok g := by
  induction l with
  | nil => exact ⟨[], rfl, by simp⟩
  | cons r t ih =>
    obtain ⟨gs, h1, h2⟩ := ih fun x hx => h x (by simp [hx])
    obtain ⟨g, hg⟩ := h r (by simp)
    refine ⟨g :: gs, ?_, fun x => ?_⟩
    · rw [List.mapM_cons, hg, Res.bind_ok, h1]; rfl
    · simp [h2, hg, eq_comm]

/-- Everything about an accepted range. -/
theorem generateRange_ok {ps : List (List Coord)} {scanner : Coord → Res (List (Coord × Bool))}
    {f : Coord → List (Coord × Bool)} (hf : ∀ a ∈ ps.flatten, scanner a = .ok (f a))
    (hon : On ps.flatten f) (order shuffle : List Coord → List Coord)
    (ho : ∀ l, (order l).Perm l) (hsh : ∀ l, (shuffle l).Perm l) (lo hi : ℕ)
    (h : ps = [] ∨ (lo ≤ hi ∧ hi ≤ ps.flatten.length)) :
    ∃ (g : Graph) (us : List Coord), generateRange ps scanner order shuffle lo hi = .ok g ∧
      (∀ v, v ∈ us ↔ ∃ i, lo ≤ i ∧ i < hi ∧ (shuffle ps.flatten)[i]? = some v) ∧
      UserGraph g ∧ g.polygons = ps ∧ g.verts = ps.flatten ∧
      ∀ a b,
        (g.hasEdge a b = .ok true ↔ a ≠ b ∧
          ∃ m, (a ∈ us ∧ (b, m) ∈ f a) ∨ (b ∈ us ∧ (a, m) ∈ f b)) ∧
        (g.isCrossing a b = .ok true ↔ a ≠ b ∧
          (∃ m, (a ∈ us ∧ (b, m) ∈ f a) ∨ (b ∈ us ∧ (a, m) ∈ f b)) ∧
          ¬ ((a ∈ us ∧ (b, false) ∈ f a) ∨ (b ∈ us ∧ (a, false) ∈ f b))) := by
  unfold generateRange
  rw [polygonVertices_eq]
  cases hp : ps.isEmpty with
  | true =>
    rw [List.isEmpty_iff] at hp
    subst hp
    obtain ⟨g, h1, h2⟩ := run_opsOf (ps := []) hon (us := []) (by simp)
    refine ⟨g, [], ?_, ?_, h2⟩
    · rw [← h1]; rfl
    · intro v
      have : shuffle [] = [] := List.Perm.eq_nil (hsh _)
      simp [this]
  | false =>
    have hp' : ps ≠ [] := by simpa using hp
    obtain ⟨h3, h4⟩ := h.resolve_left hp'
    simp only [Bool.false_eq_true, if_false]
    rw [if_neg (by omega)]
    obtain ⟨us, h5, h6⟩ := slice_ok (vs := shuffle ps.flatten) (lo := lo) (hi := hi)
      (by rw [(hsh _).length_eq]; exact h4)
    have hin : ∀ a ∈ order us, a ∈ ps.flatten := by
      intro a ha
      obtain ⟨i, _, _, hv⟩ := (h6 a).1 ((ho us).mem_iff.1 ha)
      exact (hsh _).mem_iff.1 (List.mem_of_getElem? hv)
    obtain ⟨g, h7, h8⟩ := run_opsOf hon hin
    refine ⟨g, order us, ?_, fun v => by rw [(ho us).mem_iff, h6], h8⟩
    rw [← h7, h5, ← sweepAll_run _ fun a ha => hf a (hin a ha)]
    rfl

/-- The scans succeed and report vertices. -/
theorem IsScanner.answers {T : ℕ → Polygon.SumTree} {ps : List (List Coord)}
    {scanner : Coord → Res (List (Coord × Bool))} (h : IsScanner T ps scanner)
    (hg : ∀ v ∈ ps.flatten, v.Geo) :
    ∃ f : Coord → List (Coord × Bool), (∀ a ∈ ps.flatten, scanner a = .ok (f a)) ∧
      On ps.flatten f ∧
      ∀ a ∈ ps.flatten, ∃ m segs look, Setup (polygonsPeriodic T ps) m segs look ∧
        f a = Vistree.visible look m segs a true := by
  have key : ∀ a, ∃ l, a ∈ ps.flatten → scanner a = .ok l ∧
      ∃ m segs look, Setup (polygonsPeriodic T ps) m segs look ∧
        l = Vistree.visible look m segs a true := by
    intro a
    obtain ⟨m, segs, look, h1, h2, h3, h4⟩ := h a
    refine ⟨_, fun ha => ⟨?_, m, segs, look, ⟨h1, h2, h3, periodic_range hg⟩, rfl⟩⟩
    rw [h4]
    exact C37_safe _ m segs look ⟨h1, h2, h3, periodic_range hg⟩ a (geo_per (hg a ha)) true
  choose f hf using key
  refine ⟨f, fun a ha => (hf a ha).1, ?_, fun a ha => (hf a ha).2⟩
  intro a ha x hx
  obtain ⟨_, m, segs, look, hs, he⟩ := hf a ha
  obtain ⟨raw, _, h2, h3⟩ := C33_reported _ m segs look hs a true
  rw [he] at hx
  obtain ⟨v, hv, hr⟩ : ∃ v ∈ raw, ReportOf v x := forall₂_mem h3 hx
  obtain ⟨w, hw, k, hk, rfl⟩ := periodic_vertex (h2 v hv).1
  rw [(reportOf_shift (hg w hw) hr).1]
  exact hw

end Visgraph

end Capi
