import Verif.Model.Parallel
import Verif.Lemmas.Angle
import Verif.Lemmas.Merge
import Verif.Lemmas.Visgraph
import Verif.Props.Periodicity

/-!
# Lemmas on exceptions in parallel loops
-/

namespace Capi

open Visgraph

/-- One addition succeeds or finds an end unknown. -/
theorem addEdge_cases {g : Graph} (h : g.Shape) {a b : Coord} (m : Bool) (ha : a ∈ g.verts) :
    (b ∈ g.verts ∧ ∃ g', g.addEdge a b m = .ok g' ∧ Graph.SameFrame g g') ∨
      (b ∉ g.verts ∧ g.addEdge a b m = .error .exn) := by
  by_cases hb : b ∈ g.verts
  · left
    obtain ⟨g1, h1, f1, _⟩ := Graph.addDirected_ok h ha hb m
    obtain ⟨g2, h2, f2, _⟩ := Graph.addDirected_ok (f1.shape h) (a := b) (b := a)
      (by rw [f1.verts]; exact hb) (by rw [f1.verts]; exact ha) m
    exact ⟨hb, g2, by rw [Graph.addEdge, h1, Res.bind_ok, h2], f1.trans f2⟩
  · right
    refine ⟨hb, ?_⟩
    rw [Graph.addEdge, Graph.addDirected_error h m (by rintro rfl; exact hb ha) (Or.inr hb)]
    rfl

/-- The inner loop succeeds or meets an unknown vertex. -/
theorem link_cases {a : Coord} (vis : List (Coord × Bool)) {g : Graph} (h : g.Shape)
    (ha : a ∈ g.verts) :
    ((∀ r ∈ vis, r.1 ∈ g.verts) ∧ ∃ g', link g a vis = .ok g' ∧ Graph.SameFrame g g') ∨
      ((∃ r ∈ vis, r.1 ∉ g.verts) ∧ link g a vis = .error .exn) := by
  induction vis generalizing g with
  | nil => exact Or.inl ⟨by simp, g, rfl, Graph.SameFrame.refl g⟩
  | cons x r ih =>
    rcases addEdge_cases h x.2 ha (b := x.1) with ⟨hx, g1, h1, f1⟩ | ⟨hx, h1⟩
    · rcases ih (f1.shape h) (by rw [f1.verts]; exact ha) with ⟨h2, g2, h3, f2⟩ | ⟨⟨y, hy, hn⟩, h3⟩
      · refine Or.inl ⟨?_, g2, by rw [link, h1, Res.bind_ok, h3], f1.trans f2⟩
        intro y hy
        rcases List.mem_cons.1 hy with rfl | hy
        · exact hx
        · rw [← f1.verts]; exact h2 y hy
      · exact Or.inr ⟨⟨y, List.mem_cons_of_mem _ hy, by rw [← f1.verts]; exact hn⟩,
          by rw [link, h1, Res.bind_ok, h3]⟩
    · exact Or.inr ⟨⟨x, List.mem_cons_self, hx⟩, by rw [link, h1]; rfl⟩

/-- The outer loop succeeds or meets a failing scan or an unknown vertex. -/
theorem sweepAll_cases {scanner : Coord → Res (List (Coord × Bool))} (us : List Coord) {g : Graph}
    (h : g.Shape) (hu : ∀ a ∈ us, a ∈ g.verts) (hs : ∀ a ∈ us, scanner a ≠ .error .ub) :
    ((∀ a ∈ us, ∃ vis, scanner a = .ok vis ∧ ∀ r ∈ vis, r.1 ∈ g.verts) ∧
        ∃ g', sweepAll scanner g us = .ok g' ∧ Graph.SameFrame g g') ∨
      ((∃ a ∈ us, scanner a = .error .exn ∨
          ∃ vis, scanner a = .ok vis ∧ ∃ r ∈ vis, r.1 ∉ g.verts) ∧
        sweepAll scanner g us = .error .exn) := by
  induction us generalizing g with
  | nil => exact Or.inl ⟨by simp, g, rfl, Graph.SameFrame.refl g⟩
  | cons a r ih =>
    cases hv : scanner a with
    | error e =>
      cases e with
      | ub => exact absurd hv (hs a List.mem_cons_self)
      | exn => exact Or.inr ⟨⟨a, List.mem_cons_self, Or.inl hv⟩, by rw [sweepAll, hv]; rfl⟩
    | ok vis =>
      rcases link_cases vis h (hu a List.mem_cons_self) with ⟨h1, g1, h2, f1⟩ | ⟨h1, h2⟩
      · rcases ih (f1.shape h)
          (fun b hb => by rw [f1.verts]; exact hu b (List.mem_cons_of_mem _ hb))
          (fun b hb => hs b (List.mem_cons_of_mem _ hb)) with ⟨h3, g2, h4, f2⟩ | ⟨⟨b, hb, h3⟩, h4⟩
        · refine Or.inl ⟨?_, g2, by rw [sweepAll, hv, Res.bind_ok, h2, Res.bind_ok, h4],
            f1.trans f2⟩
          intro b hb
          rcases List.mem_cons.1 hb with rfl | hb
          · exact ⟨vis, hv, h1⟩
          · obtain ⟨w, hw, hw2⟩ := h3 b hb
            exact ⟨w, hw, fun x hx => by rw [← f1.verts]; exact hw2 x hx⟩
        · refine Or.inr ⟨⟨b, List.mem_cons_of_mem _ hb, ?_⟩,
            by rw [sweepAll, hv, Res.bind_ok, h2, Res.bind_ok, h4]⟩
          rwa [f1.verts] at h3
      · exact Or.inr ⟨⟨a, List.mem_cons_self, Or.inr ⟨vis, hv, h1⟩⟩,
          by rw [sweepAll, hv, Res.bind_ok, h2]; rfl⟩

/-- A sequence of additions succeeds or meets an unknown vertex. -/
theorem run_cases (ops : List Graph.Op) {g : Graph} (h : g.Shape)
    (ho : ∀ o ∈ ops, ∃ a b m, o = .add a b m ∧ a ≠ b) :
    ((∀ a b m, Graph.Op.add a b m ∈ ops → a ∈ g.verts ∧ b ∈ g.verts) ∧
        ∃ g', g.run ops = .ok g' ∧ Graph.SameFrame g g') ∨
      ((∃ a b m, Graph.Op.add a b m ∈ ops ∧ (a ∉ g.verts ∨ b ∉ g.verts)) ∧
        g.run ops = .error .exn) := by
  induction ops generalizing g with
  | nil => exact Or.inl ⟨by simp, g, rfl, Graph.SameFrame.refl g⟩
  | cons o r ih =>
    obtain ⟨a, b, m, rfl, hab⟩ := ho o List.mem_cons_self
    have hr := fun x hx => ho x (List.mem_cons_of_mem _ hx)
    by_cases ha : a ∈ g.verts
    · rcases addEdge_cases h m ha (b := b) with ⟨hb, g1, h1, f1⟩ | ⟨hb, h1⟩
      · have hstep : g.step (.add a b m) = .ok g1 := h1
        rcases ih (f1.shape h) hr with ⟨h2, g2, h3, f2⟩ | ⟨⟨c, d, k, hc, hn⟩, h3⟩
        · refine Or.inl ⟨?_, g2, by rw [Graph.run, hstep, Res.bind_ok, h3], f1.trans f2⟩
          intro c d k hc
          rcases List.mem_cons.1 hc with e | hc
          · cases e; exact ⟨ha, hb⟩
          · rw [← f1.verts]; exact h2 c d k hc
        · exact Or.inr ⟨⟨c, d, k, List.mem_cons_of_mem _ hc, by rw [← f1.verts]; exact hn⟩,
            by rw [Graph.run, hstep, Res.bind_ok, h3]⟩
      · have hstep : g.step (.add a b m) = .error .exn := h1
        exact Or.inr ⟨⟨a, b, m, List.mem_cons_self, Or.inr hb⟩, by rw [Graph.run, hstep]; rfl⟩
    · have hstep : g.step (.add a b m) = .error .exn := by
        show g.addEdge a b m = _
        rw [Graph.addEdge, Graph.addDirected_error h m hab (Or.inl ha)]
        rfl
      exact Or.inr ⟨⟨a, b, m, List.mem_cons_self, Or.inl ha⟩, by rw [Graph.run, hstep]; rfl⟩

/-! ### Copies -/

/-- Longitudes whose copies fit into 32 bits. -/
theorem periodicCopiesC_ok {c : Coord} (h1 : -1787483647 ≤ c.lon) (h2 : c.lon ≤ 1787483646) :
    periodicCopiesC c = .ok (periodicCopies c) := by
  have e1 : chk32 (c.lon + period) = .ok (c.lon + period) := by
    unfold chk32; rw [if_pos (by simp only [FitsI32, period]; omega)]
  have e2 : chk32 (c.lon - period) = .ok (c.lon - period) := by
    unfold chk32; rw [if_pos (by simp only [FitsI32, period]; omega)]
  unfold periodicCopiesC
  rw [e1, Res.bind_ok, e2, Res.bind_ok]
  rfl

/-- Other longitudes overflow. -/
theorem periodicCopiesC_ub {c : Coord} (h : c.lon < -1787483647 ∨ 1787483646 < c.lon) :
    periodicCopiesC c = .error .ub := by
  unfold periodicCopiesC chk32
  rcases h with h | h
  · by_cases h1 : FitsI32 (c.lon + period)
    · rw [if_pos h1, Res.bind_ok, if_neg (by simp only [FitsI32, period]; omega)]; rfl
    · rw [if_neg h1]; rfl
  · rw [if_neg (by simp only [FitsI32, period]; omega)]; rfl

theorem mapM_cases {α β : Type} {f : α → Res β} (l : List α)
    (h : ∀ a ∈ l, (∃ b, f a = .ok b) ∨ f a = .error .ub) :
    ((∀ a ∈ l, ∃ b, f a = .ok b) ∧ ∃ r, l.mapM f = .ok r) ∨
      ((∃ a ∈ l, f a = .error .ub) ∧ l.mapM f = .error .ub) := by
  induction l with
  | nil => exact Or.inl ⟨by simp, [], rfl⟩
  | cons a r ih =>
    rcases h a List.mem_cons_self with ⟨b, hb⟩ | hb
    · rcases ih fun x hx => h x (List.mem_cons_of_mem _ hx) with ⟨h1, s, h2⟩ | ⟨⟨x, hx, h1⟩, h2⟩
      · refine Or.inl ⟨?_, b :: s, by rw [List.mapM_cons, hb, Res.bind_ok, h2]; rfl⟩
        intro x hx
        rcases List.mem_cons.1 hx with rfl | hx
        · exact ⟨b, hb⟩
        · exact h1 x hx
      · exact Or.inr ⟨⟨x, List.mem_cons_of_mem _ hx, h1⟩,
          by rw [List.mapM_cons, hb, Res.bind_ok, h2]; rfl⟩
    · exact Or.inr ⟨⟨a, List.mem_cons_self, hb⟩, by rw [List.mapM_cons, hb]; rfl⟩

theorem copiesC_ok {ps : List (List Coord)}
    (h : ∀ v ∈ ps.flatten, -1787483647 ≤ v.lon ∧ v.lon ≤ 1787483646) :
    ∃ r, copiesC ps = .ok r := by
  unfold copiesC
  rw [polygonVertices_eq]
  have key : ∀ a ∈ ps.flatten, ∃ b, periodicCopiesC a = .ok b :=
    fun a ha => ⟨_, periodicCopiesC_ok (h a ha).1 (h a ha).2⟩
  rcases mapM_cases (f := periodicCopiesC) ps.flatten fun a ha => Or.inl (key a ha) with
    ⟨_, h1⟩ | ⟨⟨a, ha, h1⟩, _⟩
  · exact h1
  · obtain ⟨b, hb⟩ := key a ha
    rw [hb] at h1; simp at h1

/-! ### Reports -/

theorem normalizeC_range {c w : Coord} (h : normalizeC c = .ok w) :
    -180000000 ≤ w.lon ∧ w.lon ≤ 180000000 := by
  have down : ∀ n : ℕ, ∀ x y : ℤ, (x - maxLon).toNat ≤ n → wrapDownC x = .ok y → y ≤ maxLon := by
    intro n
    induction n with
    | zero =>
      intro x y hx hy
      rw [wrapDownC, dif_neg (by omega)] at hy
      obtain rfl := Except.ok.inj hy
      omega
    | succ n ih =>
      intro x y hx hy
      rw [wrapDownC] at hy
      split_ifs at hy with h1 h2
      · exact ih _ y (by simp only [maxLon, period] at *; omega) hy
      · obtain rfl := Except.ok.inj hy; omega
  have up : ∀ n : ℕ, ∀ x y : ℤ, (minLon - x).toNat ≤ n → x ≤ maxLon → wrapUpC x = .ok y →
      minLon ≤ y ∧ y ≤ maxLon := by
    intro n
    induction n with
    | zero =>
      intro x y hx hm hy
      rw [wrapUpC, dif_neg (by omega)] at hy
      obtain rfl := Except.ok.inj hy
      omega
    | succ n ih =>
      intro x y hx hm hy
      rw [wrapUpC] at hy
      split_ifs at hy with h1 h2
      · exact ih _ y (by simp only [minLon, period] at *; omega)
          (by simp only [minLon, maxLon, period] at *; omega) hy
      · obtain rfl := Except.ok.inj hy; omega
  unfold normalizeC at h
  cases h1 : wrapDownC c.lon with
  | error e => rw [h1] at h; simp at h
  | ok x =>
    rw [h1, Res.bind_ok] at h
    cases h2 : wrapUpC x with
    | error e => rw [h2] at h; simp at h
    | ok y =>
      rw [h2, Res.bind_ok] at h
      obtain rfl := Except.ok.inj h
      have a := down _ _ _ le_rfl h1
      have b := up _ _ _ le_rfl a h2
      simpa only [minLon, maxLon] using b

/-- Success of a sequence of two computations. -/
theorem bind_split {α β : Type} {x : Res α} {f : α → Res β} {y : β} (h : (x >>= f) = .ok y) :
    ∃ a, x = .ok a ∧ f a = .ok y := by
  cases x with
  | error e => simp at h
  | ok a => exact ⟨a, rfl, h⟩

theorem loopC_range {look : Seg → Seg → Bool} {m : VisMap} {obs : Coord} {half : Bool}
    (vs : List Coord) {o : OpenEdges} {l : List (Coord × Bool)}
    (h : Vistree.loopC look m obs half vs o = .ok l) :
    ∀ r ∈ l, -180000000 ≤ r.1.lon ∧ r.1.lon ≤ 180000000 := by
  induction vs generalizing o l with
  | nil =>
    obtain rfl := Except.ok.inj h
    simp
  | cons v r ih =>
    rw [Vistree.loopC] at h
    split_ifs at h with h0
    · exact ih h
    · obtain ⟨b, _, h⟩ := bind_split h
      cases b with
      | true =>
        obtain rfl := Except.ok.inj h
        simp
      | false =>
        simp only [Bool.false_eq_true, if_false] at h
        cases hi : Assoc.get m v with
        | none => rw [hi] at h; simp at h
        | some inc =>
          rw [hi] at h
          dsimp only at h
          obtain ⟨cw, _, h⟩ := bind_split h
          obtain ⟨ccw, _, h⟩ := bind_split h
          obtain ⟨b, _, h⟩ := bind_split h
          obtain ⟨seen, hs, h⟩ := bind_split h
          obtain ⟨o2, _, h⟩ := bind_split h
          obtain ⟨rest, hr, h⟩ := bind_split h
          obtain rfl := Except.ok.inj h
          intro x hx
          rcases List.mem_append.1 hx with hx | hx
          · unfold Vistree.seenC at hs
            split_ifs at hs
            · obtain ⟨w, hw, hs⟩ := bind_split hs
              obtain rfl := Except.ok.inj hs
              obtain rfl := List.mem_singleton.1 hx
              exact normalizeC_range hw
            · obtain rfl := Except.ok.inj hs
              simp at hx
          · exact ih hr x hx

/-- Whatever the map, scans report longitudes of at most 180 degrees. -/
theorem scanC_range {look : Seg → Seg → Bool} {m : VisMap} {obs : Coord} {verts : List Coord}
    {segs : List Seg} {half : Bool} {l : List (Coord × Bool)}
    (h : Vistree.scanC look m obs verts segs half = .ok l) :
    ∀ r ∈ l, -180000000 ≤ r.1.lon ∧ r.1.lon ≤ 180000000 := by
  unfold Vistree.scanC at h
  split_ifs at h
  · obtain rfl := Except.ok.inj h
    simp
  · obtain ⟨vs, _, h⟩ := bind_split h
    obtain ⟨_, _, h⟩ := bind_split h
    obtain ⟨o, _, h⟩ := bind_split h
    exact loopC_range vs h

/-! ### The first vertex of a sweep -/

/-- A vertex preceding all others comes first. -/
theorem sort_first {obs v : Coord} (l : List Coord) (hn : l.Nodup) (hv : v ∈ l)
    (h : ∀ x ∈ l, x ≠ v → AngleSorter.less obs v x = true ∧ AngleSorter.less obs x v = false) :
    AngleSorter.sort obs l = v :: AngleSorter.sort obs (l.erase v) := by
  induction l with
  | nil => simp at hv
  | cons c r ih =>
    obtain ⟨h1, h2⟩ := List.nodup_cons.1 hn
    by_cases hc : c = v
    · subst hc
      rw [List.erase_cons_head, AngleSorter.sort]
      cases hs : AngleSorter.sort obs r with
      | nil => rfl
      | cons d t =>
        have hd : d ∈ r := by
          rw [← (Capi.sort_perm obs r).mem_iff, hs]; exact List.mem_cons_self
        rw [AngleSorter.insertBy,
          if_pos (h d (List.mem_cons_of_mem _ hd) (by rintro rfl; exact h1 hd)).1]
    · have hr : v ∈ r := (List.mem_cons.1 hv).resolve_left fun e => hc e.symm
      rw [List.erase_cons_tail (by simpa using hc), AngleSorter.sort,
        ih h2 hr fun x hx hxv => h x (List.mem_cons_of_mem _ hx) hxv, AngleSorter.insertBy,
        if_neg (by rw [(h c List.mem_cons_self hc).2]; simp), AngleSorter.sort]

theorem Assoc.get_of_mem {K V : Type} [DecidableEq K] {l : List (K × V)}
    (hn : (l.map Prod.fst).Nodup) {k : K} {v : V} (h : (k, v) ∈ l) : Assoc.get l k = some v := by
  induction l with
  | nil => simp at h
  | cons p r ih =>
    rw [List.map_cons, List.nodup_cons] at hn
    rcases List.mem_cons.1 h with rfl | h
    · simp [Assoc.get]
    · have : p.1 ≠ k := by
        rintro rfl
        exact hn.1 (List.mem_map.2 ⟨_, h, rfl⟩)
      rw [Assoc.get, if_neg this]
      exact ih hn.2 h

/-- If no edge is open to the east of the observer, the vertex nearest to there is reported unless
the observer's own corner is in the way. -/
theorem scanC_first {look : Seg → Seg → Bool} {M m : VisMap} {obs v : Coord} {segs : List Seg}
    {l : List (Coord × Bool)} (hn : (M.map Prod.fst).Nodup) (hm : m.Perm M)
    (hsegs : segs.Perm (Vistree.segments m))
    (hempty : ∀ s ∈ Vistree.segments M, ∀ look, Vistree.openInitialC look obs .empty s = .ok .empty)
    (hobs : obs ∈ M.map Prod.fst) {inc : List Seg} (hv : (v, inc) ∈ M)
    (hvo : v ≠ obs) (hmin : ∀ x ∈ M.map Prod.fst, x ≠ v → x ≠ obs →
      AngleSorter.less obs v x = true ∧ AngleSorter.less obs x v = false)
    (hbelow : Vistree.beyondC obs true v = .ok false)
    (hbar : Vistree.barrierC M obs v = .ok true)
    (h : Vistree.scanC look m obs (Vistree.vertices m) segs true = .ok l) :
    ∃ w, normalizeC v = .ok w ∧ (w, overMeridian v) ∈ l := by
  have hkeys : (m.map Prod.fst).Perm (M.map Prod.fst) := hm.map _
  have hn' : (m.map Prod.fst).Nodup := hkeys.nodup_iff.2 hn
  have hget : ∀ k, Assoc.get m k = Assoc.get M k := by
    intro k
    by_cases hk : k ∈ M.map Prod.fst
    · obtain ⟨⟨k', x⟩, hx, rfl⟩ := List.mem_map.1 hk
      rw [Assoc.get_of_mem hn hx, Assoc.get_of_mem hn' (hm.mem_iff.2 hx)]
    · have none : ∀ L : VisMap, k ∉ L.map Prod.fst → Assoc.get L k = Option.none := by
        intro L
        induction L with
        | nil => intro _; rfl
        | cons p r ih =>
          intro hk
          rw [List.map_cons, List.mem_cons, not_or] at hk
          rw [Assoc.get, if_neg fun e => hk.1 e.symm]
          exact ih hk.2
      rw [none M hk, none m fun e => hk (hkeys.mem_iff.1 e)]
  have hbar' : Vistree.barrierC m obs v = .ok true := by
    rw [← hbar]; unfold Vistree.barrierC; rw [hget]
  have hinc : Assoc.get m v = some inc := by rw [hget, Assoc.get_of_mem hn hv]
  have hopen : ∀ L : List Seg, (∀ s ∈ L, s ∈ Vistree.segments M) →
      L.foldlM (Vistree.openInitialC look obs) OpenEdges.empty = .ok OpenEdges.empty := by
    intro L
    induction L with
    | nil => intro _; rfl
    | cons s r ih =>
      intro hL
      rw [List.foldlM_cons, hempty s (hL s List.mem_cons_self), Res.bind_ok]
      exact ih fun x hx => hL x (List.mem_cons_of_mem _ hx)
  have hsm : ∀ s ∈ segs, s ∈ Vistree.segments M := by
    intro s hs
    have := hsegs.mem_iff.1 hs
    unfold Vistree.segments at this ⊢
    rw [List.mem_flatMap] at this ⊢
    obtain ⟨e, he, hse⟩ := this
    exact ⟨e, hm.mem_iff.1 he, hse⟩
  unfold Vistree.scanC at h
  split_ifs at h with hemp
  · rw [List.isEmpty_iff] at hemp
    subst hemp
    rw [hm.symm.eq_nil] at hv
    simp at hv
  obtain ⟨vs, hvs, h⟩ := bind_split h
  obtain ⟨_, _, h⟩ := bind_split h
  rw [hopen segs hsm, Res.bind_ok] at h
  have hsort : vs = AngleSorter.sort obs (Vistree.vertices m) := by
    unfold Vistree.sortC at hvs
    split_ifs at hvs
    exact (Except.ok.inj hvs).symm
  have hvm : v ∈ m.map Prod.fst := hkeys.mem_iff.2 (List.mem_map.2 ⟨_, hv, rfl⟩)
  rw [hsort, Vistree.vertices, sort_first (v := obs) _ hn' (hkeys.mem_iff.2 hobs) ?_,
    sort_first (v := v) _ (hn'.erase _) ((List.mem_erase_of_ne hvo).2 hvm) ?_] at h
  · rw [Vistree.loopC, if_pos rfl, Vistree.loopC, if_neg fun e => hvo e.symm, hbelow,
      Res.bind_ok] at h
    simp only [Bool.false_eq_true, if_false, hinc] at h
    obtain ⟨cw, _, h⟩ := bind_split h
    obtain ⟨ccw, _, h⟩ := bind_split h
    obtain ⟨b, hb, h⟩ := bind_split h
    have hrem : ∀ L : List Seg,
        L.foldl (fun o s => o.remove look s) OpenEdges.empty = OpenEdges.empty := by
      intro L
      induction L with
      | nil => rfl
      | cons s r ih => exact ih
    rw [hrem] at hb
    have hb' : b = true := by
      unfold Vistree.isVisibleC at hb
      rw [if_neg hvo] at hb
      simp only [hbar', Res.bind_ok, OpenEdges.closest, OpenEdges.empty] at hb
      exact (Except.ok.inj hb).symm
    subst hb'
    obtain ⟨seen, hs, h⟩ := bind_split h
    obtain ⟨o2, _, h⟩ := bind_split h
    obtain ⟨rest, hr, h⟩ := bind_split h
    obtain rfl := Except.ok.inj h
    rw [Vistree.seenC, if_pos rfl] at hs
    obtain ⟨w, hw, hs⟩ := bind_split hs
    obtain rfl := Except.ok.inj hs
    exact ⟨w, hw, by simp⟩
  · intro x hx hxv
    have hxo : x ≠ obs := by
      rintro rfl
      exact hn'.not_mem_erase hx
    exact hmin x (hkeys.mem_iff.1 (List.mem_of_mem_erase hx)) hxv hxo
  · intro x _ hx
    constructor
    · simp [AngleSorter.less, AngleSorter.lessWith]
    · simp [AngleSorter.less, AngleSorter.lessWith, hx]

end Capi
