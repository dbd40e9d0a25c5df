import Verif.Lemmas.Merge
import Mathlib.Data.Rat.Encodable

/-!
# C24, C25 — merging graphs and graph equality
-/

namespace Capi

open Graph

/-- C24: merging never fails on graphs built from polygons, has exactly the inputs' polygons and
vertices, has an edge iff an input has it in either direction, and the edge is crossing iff it is
crossing in every input (and direction) having it.  `ps` is any iteration order of the polygon
set, `schedule` any order of the additions. -/
theorem C24_union (gs : List Graph) (ps : List (List Coord)) (schedule : List Op → List Op)
    (hg : ∀ g ∈ gs, g.Built) (hp : MergeOrder gs ps) (hsch : ∀ l, (schedule l).Perm l) :
    ∃ G, merge ps schedule gs = .ok G ∧
      (∀ p, p ∈ G.polygons ↔ ∃ g ∈ gs, p ∈ g.polygons) ∧
      (∀ c, c ∈ G.verts ↔ ∃ g ∈ gs, c ∈ g.verts) ∧
      ∀ a b,
        (G.hasEdge a b = .ok true ↔
          ∃ g ∈ gs, g.hasEdge a b = .ok true ∨ g.hasEdge b a = .ok true) ∧
        (G.isCrossing a b = .ok true ↔
          (∃ g ∈ gs, g.hasEdge a b = .ok true ∨ g.hasEdge b a = .ok true) ∧
          ∀ g ∈ gs, (g.hasEdge a b = .ok true → g.isCrossing a b = .ok true) ∧
            (g.hasEdge b a = .ok true → g.isCrossing b a = .ok true)) := by
  obtain ⟨ops, G, _, h1, h2, _, h3, h4⟩ := merge_ok hg hp hsch
  have hverts : ∀ c, c ∈ G.verts ↔ ∃ g ∈ gs, c ∈ g.verts := by
    intro c
    rw [h3.verts, List.mem_flatten]
    constructor
    · rintro ⟨p, hpp, hc⟩
      obtain ⟨g, hgg, hgp⟩ := (hp.2 p).1 hpp
      exact ⟨g, hgg, by rw [(hg g hgg).verts]; exact List.mem_flatten.2 ⟨p, hgp, hc⟩⟩
    · rintro ⟨g, hgg, hc⟩
      rw [(hg g hgg).verts] at hc
      obtain ⟨p, hpp, hcp⟩ := List.mem_flatten.1 hc
      exact ⟨p, (hp.2 p).2 ⟨g, hgg, hpp⟩, hcp⟩
  refine ⟨G, h1, by rw [h2]; exact hp.2, hverts, fun a b => ?_⟩
  -- flags of edges are always defined
  have hcr : ∀ g ∈ gs, ∀ a b, g.hasEdge a b = .ok true → ∃ m, g.isCrossing a b = .ok m := by
    intro g hgg a b h
    obtain ⟨ha, hb, _⟩ := hasEdge_true_mem (hg g hgg).shape h
    exact ⟨_, isCrossing_ok (hg g hgg).shape ha hb⟩
  have hex : (∃ m, Live (history (schedule ops)) a b m) ↔
      ∃ g ∈ gs, g.hasEdge a b = .ok true ∨ g.hasEdge b a = .ok true := by
    constructor
    · rintro ⟨m, hm⟩
      obtain ⟨g, hgg, h | h⟩ := (h4 a b m).1 hm
      · exact ⟨g, hgg, Or.inl h.1⟩
      · exact ⟨g, hgg, Or.inr h.1⟩
    · rintro ⟨g, hgg, h | h⟩
      · obtain ⟨m, hm⟩ := hcr g hgg a b h
        exact ⟨m, (h4 a b m).2 ⟨g, hgg, Or.inl ⟨h, hm⟩⟩⟩
      · obtain ⟨m, hm⟩ := hcr g hgg b a h
        exact ⟨m, (h4 a b m).2 ⟨g, hgg, Or.inr ⟨h, hm⟩⟩⟩
  have hall : (∀ m, Live (history (schedule ops)) a b m → m = true) ↔
      ∀ g ∈ gs, (g.hasEdge a b = .ok true → g.isCrossing a b = .ok true) ∧
        (g.hasEdge b a = .ok true → g.isCrossing b a = .ok true) := by
    constructor
    · intro h g hgg
      constructor
      · intro he
        obtain ⟨m, hm⟩ := hcr g hgg a b he
        rw [hm, h m ((h4 a b m).2 ⟨g, hgg, Or.inl ⟨he, hm⟩⟩)]
      · intro he
        obtain ⟨m, hm⟩ := hcr g hgg b a he
        rw [hm, h m ((h4 a b m).2 ⟨g, hgg, Or.inr ⟨he, hm⟩⟩)]
    · intro h m hm
      obtain ⟨g, hgg, ⟨h5, h6⟩ | ⟨h5, h6⟩⟩ := (h4 a b m).1 hm
      · have := (h g hgg).1 h5
        rw [h6] at this; exact Except.ok.inj this
      · have := (h g hgg).2 h5
        rw [h6] at this; exact Except.ok.inj this
  rw [← hex, ← hall]
  by_cases hab : a = b
  · subst hab
    have hno : ¬ ∃ m, Live (history (schedule ops)) a a m := by
      rw [hex]
      rintro ⟨g, hgg, h | h⟩ <;> exact (hasEdge_true_mem (hg g hgg).shape h).2.2.1 rfl
    simp [hasEdge, isCrossing, hno]
  · by_cases hk : a ∈ G.verts ∧ b ∈ G.verts
    · obtain ⟨r1, r2⟩ := h3.rep.has hk.1 hk.2 hab
      rw [hasEdge_ok h3.shape hk.1 hk.2, isCrossing_ok h3.shape hk.1 hk.2, ← r2, ← r1]
      simp [hab]
    · have hno : ¬ ∃ m, Live (history (schedule ops)) a b m := by
        rw [hex]
        rintro ⟨g, hgg, h | h⟩
        · obtain ⟨ha, hb, _⟩ := hasEdge_true_mem (hg g hgg).shape h
          exact hk ⟨(hverts a).2 ⟨g, hgg, ha⟩, (hverts b).2 ⟨g, hgg, hb⟩⟩
        · obtain ⟨hb, ha, _⟩ := hasEdge_true_mem (hg g hgg).shape h
          exact hk ⟨(hverts a).2 ⟨g, hgg, ha⟩, (hverts b).2 ⟨g, hgg, hb⟩⟩
      rw [hasEdge_eq h3.shape, isCrossing_eq h3.shape]
      simp [hab, hk, hno]

/-- Answers are decided by which of them are `true`. -/
theorem same_of_true {g h : Graph} (hg : g.Shape) (hh : h.Shape)
    (hv : ∀ c, c ∈ g.verts ↔ c ∈ h.verts)
    (he : ∀ a b, (g.hasEdge a b = .ok true ↔ h.hasEdge a b = .ok true) ∧
      (g.isCrossing a b = .ok true ↔ h.isCrossing a b = .ok true)) : SameAnswers g h := by
  refine (sameAnswers_iff hg hh).2 ⟨hv, fun a ha b hb hab => ?_⟩
  obtain ⟨h1, h2⟩ := he a b
  rw [hasEdge_ok hg ha hb, hasEdge_ok hh ((hv a).1 ha) ((hv b).1 hb)] at h1
  rw [isCrossing_ok hg ha hb, isCrossing_ok hh ((hv a).1 ha) ((hv b).1 hb)] at h2
  simpa [hab] using And.intro h1 h2

/-- C24: the merged answers depend only on which graphs are merged, not on their order or
repetition, the polygon iteration order or the schedule. -/
theorem C24_order_independent (gs gs' : List Graph) (ps ps' : List (List Coord))
    (sch sch' : List Op → List Op) (hg : ∀ g ∈ gs, g.Built) (hp : MergeOrder gs ps)
    (hp' : MergeOrder gs' ps') (hs : ∀ l, (sch l).Perm l) (hs' : ∀ l, (sch' l).Perm l)
    (hset : ∀ g, g ∈ gs ↔ g ∈ gs') :
    ∃ G G', merge ps sch gs = .ok G ∧ merge ps' sch' gs' = .ok G' ∧ SameAnswers G G' := by
  have hg' : ∀ g ∈ gs', g.Built := fun g h => hg g ((hset g).2 h)
  obtain ⟨G, h1, _, h2, h3⟩ := C24_union gs ps sch hg hp hs
  obtain ⟨G', h1', _, h2', h3'⟩ := C24_union gs' ps' sch' hg' hp' hs'
  obtain ⟨_, K, _, k1, _, _, k2, _⟩ := merge_ok hg hp hs
  obtain ⟨_, K', _, k1', _, _, k2', _⟩ := merge_ok hg' hp' hs'
  rw [h1] at k1; obtain rfl := Except.ok.inj k1
  rw [h1'] at k1'; obtain rfl := Except.ok.inj k1'
  refine ⟨G, G', h1, h1', same_of_true k2.shape k2'.shape ?_ ?_⟩
  · intro c; rw [h2, h2']; simp only [hset]
  · intro a b
    rw [(h3 a b).1, (h3' a b).1, (h3 a b).2, (h3' a b).2]
    simp only [hset, iff_self, and_self]

/-- C24: merging in groups (as done split by split) gives the same answers as merging at once. -/
theorem C24_grouping (gs1 gs2 : List Graph) (ps1 ps2 ps3 ps : List (List Coord))
    (s1 s2 s3 s : List Op → List Op) (hg1 : ∀ g ∈ gs1, g.Built) (hg2 : ∀ g ∈ gs2, g.Built)
    (hp1 : MergeOrder gs1 ps1) (hp2 : MergeOrder gs2 ps2) (hp : MergeOrder (gs1 ++ gs2) ps)
    (hs1 : ∀ l, (s1 l).Perm l) (hs2 : ∀ l, (s2 l).Perm l) (hs3 : ∀ l, (s3 l).Perm l)
    (hs : ∀ l, (s l).Perm l) :
    ∃ G1 G2, merge ps1 s1 gs1 = .ok G1 ∧ merge ps2 s2 gs2 = .ok G2 ∧
      (MergeOrder [G1, G2] ps3 → ∃ G3 G, merge ps3 s3 [G1, G2] = .ok G3 ∧
        merge ps s (gs1 ++ gs2) = .ok G ∧ SameAnswers G3 G) := by
  obtain ⟨G1, a1, _, a2, a3⟩ := C24_union gs1 ps1 s1 hg1 hp1 hs1
  obtain ⟨G2, b1, _, b2, b3⟩ := C24_union gs2 ps2 s2 hg2 hp2 hs2
  obtain ⟨_, K1, _, k1, _, u1, _, _⟩ := merge_ok hg1 hp1 hs1
  obtain ⟨_, K2, _, k2, _, u2, _, _⟩ := merge_ok hg2 hp2 hs2
  rw [a1] at k1; obtain rfl := Except.ok.inj k1
  rw [b1] at k2; obtain rfl := Except.ok.inj k2
  refine ⟨G1, G2, a1, b1, fun hp3 => ?_⟩
  have hg12 : ∀ g ∈ gs1 ++ gs2, g.Built := by
    intro g h; rcases List.mem_append.1 h with h | h
    · exact hg1 g h
    · exact hg2 g h
  have hgG : ∀ g ∈ [G1, G2], g.Built := by
    intro g h
    simp only [List.mem_cons, List.not_mem_nil, or_false] at h
    rcases h with rfl | rfl
    · exact u1.regular.built
    · exact u2.regular.built
  obtain ⟨G, c1, _, c2, c3⟩ := C24_union (gs1 ++ gs2) ps s hg12 hp hs
  obtain ⟨G3, d1, _, d2, d3⟩ := C24_union [G1, G2] ps3 s3 hgG hp3 hs3
  obtain ⟨_, K, _, k, _, _, o, _⟩ := merge_ok hg12 hp hs
  obtain ⟨_, K3, _, k3, _, _, o3, _⟩ := merge_ok hgG hp3 hs3
  rw [c1] at k; obtain rfl := Except.ok.inj k
  rw [d1] at k3; obtain rfl := Except.ok.inj k3
  refine ⟨G3, G, d1, c1, same_of_true o3.shape o.shape ?_ ?_⟩
  · intro c
    rw [d2, c2]
    simp only [List.mem_cons, List.not_mem_nil, or_false, exists_eq_left,
      List.mem_append, or_and_right, exists_or]
    rw [a2, b2]
  · have hhas : ∀ a b, (G3.hasEdge a b = .ok true ↔ G.hasEdge a b = .ok true) := by
      intro a b
      rw [(d3 a b).1, (c3 a b).1]
      constructor
      · rintro ⟨g, hg, h⟩
        simp only [List.mem_cons, List.not_mem_nil, or_false] at hg
        rcases hg with rfl | rfl
        · rw [(a3 a b).1, (a3 b a).1] at h
          rcases h with ⟨g, hg, h⟩ | ⟨g, hg, h⟩
          · exact ⟨g, List.mem_append_left _ hg, h⟩
          · exact ⟨g, List.mem_append_left _ hg, h.symm⟩
        · rw [(b3 a b).1, (b3 b a).1] at h
          rcases h with ⟨g, hg, h⟩ | ⟨g, hg, h⟩
          · exact ⟨g, List.mem_append_right _ hg, h⟩
          · exact ⟨g, List.mem_append_right _ hg, h.symm⟩
      · rintro ⟨g, hg, h⟩
        rcases List.mem_append.1 hg with hg | hg
        · exact ⟨G1, by simp, Or.inl ((a3 a b).1.2 ⟨g, hg, h⟩)⟩
        · exact ⟨G2, by simp, Or.inl ((b3 a b).1.2 ⟨g, hg, h⟩)⟩
    intro a b
    refine ⟨hhas a b, ?_⟩
    have hh := hhas a b
    rw [(d3 a b).1, (c3 a b).1] at hh
    rw [(d3 a b).2, (c3 a b).2, hh]
    refine and_congr_right fun _ => ?_
    have f : ∀ (gs : List Graph) (K : Graph),
        (∀ a b, (K.hasEdge a b = .ok true ↔
          ∃ g ∈ gs, g.hasEdge a b = .ok true ∨ g.hasEdge b a = .ok true) ∧
        (K.isCrossing a b = .ok true ↔
          (∃ g ∈ gs, g.hasEdge a b = .ok true ∨ g.hasEdge b a = .ok true) ∧
          ∀ g ∈ gs, (g.hasEdge a b = .ok true → g.isCrossing a b = .ok true) ∧
            (g.hasEdge b a = .ok true → g.isCrossing b a = .ok true))) →
        (((K.hasEdge a b = .ok true → K.isCrossing a b = .ok true) ∧
          (K.hasEdge b a = .ok true → K.isCrossing b a = .ok true)) ↔
        ∀ g ∈ gs, (g.hasEdge a b = .ok true → g.isCrossing a b = .ok true) ∧
            (g.hasEdge b a = .ok true → g.isCrossing b a = .ok true)) := by
      intro gs K hK
      constructor
      · rintro ⟨h1, _⟩ g hg
        constructor
        · intro he
          have := ((hK a b).2.1 (h1 ((hK a b).1.2 ⟨g, hg, Or.inl he⟩))).2 g hg
          exact this.1 he
        · intro he
          have := ((hK a b).2.1 (h1 ((hK a b).1.2 ⟨g, hg, Or.inr he⟩))).2 g hg
          exact this.2 he
      · intro h
        constructor
        · intro he
          exact (hK a b).2.2 ⟨(hK a b).1.1 he, h⟩
        · intro he
          exact (hK b a).2.2 ⟨(hK b a).1.1 he, fun g hg => ⟨(h g hg).2, (h g hg).1⟩⟩
    have f1 := f gs1 G1 a3
    have f2 := f gs2 G2 b3
    constructor
    · intro h g hg
      rcases List.mem_append.1 hg with hg | hg
      · exact f1.1 (h G1 (by simp)) g hg
      · exact f2.1 (h G2 (by simp)) g hg
    · intro h g hg
      simp only [List.mem_cons, List.not_mem_nil, or_false] at hg
      rcases hg with rfl | rfl
      · exact f1.2 fun g hg => h g (List.mem_append_left _ hg)
      · exact f2.2 fun g hg => h g (List.mem_append_right _ hg)

/-- Non-vacuity of C24: two graphs over different polygons. -/
example : ∃ g h : Graph, g.Built ∧ h.Built ∧
    MergeOrder [g, h] [[⟨0, 0⟩, ⟨1, 0⟩, ⟨0, 1⟩], [⟨5, 5⟩, ⟨6, 5⟩, ⟨5, 6⟩]] := by
  refine ⟨ofPolygons [[⟨0, 0⟩, ⟨1, 0⟩, ⟨0, 1⟩]], ofPolygons [[⟨5, 5⟩, ⟨6, 5⟩, ⟨5, 6⟩]],
    ⟨ofPolygons_shape _, rfl⟩, ⟨ofPolygons_shape _, rfl⟩, by decide, ?_⟩
  intro p
  simp [ofPolygons]

/-- C25: for graphs with pairwise different vertex hashes, `==` (comparison of the printed
representations) says exactly whether the graphs have the same vertices and answers.  Polygons
and vertex order play no role. -/
theorem C25_equality (fmtD : ℚ → List Char) (srt : List Coord → List Coord) (hf : FmtOk fmtD)
    (hsrt : SortOk srt) (g h : Graph) (hg : UserGraph g) (hh : UserGraph h)
    (ig : ∀ c ∈ g.verts, c.I32) (ih : ∀ c ∈ h.verts, c.I32)
    (ng : (g.verts.map Coord.hash).Nodup) (nh : (h.verts.map Coord.hash).Nodup) :
    ∃ r, Graph.eq fmtD srt g h = .ok r ∧ (r = true ↔ SameAnswers g h) := by
  have rg := hg.regular
  have rh := hh.regular
  have sg := rg.built.shape
  have sh := rh.built.shape
  have memS : ∀ (l : List Coord) c, c ∈ srt l ↔ c ∈ l := fun l c => (hsrt l).1.mem_iff
  set D : Graph → Coord → Coord × List (Coord × Bool) := fun g v =>
    (v, (srt (g.nbrs v)).map fun w => (w, v != w && g.bits v w == 2)) with hD
  have vg : g.view srt = .ok ((srt g.verts).map (D g)) :=
    lineLoop_ok sg rg.clean hsrt _ fun w hw => (memS _ _).1 hw
  have vh : h.view srt = .ok ((srt h.verts).map (D h)) :=
    lineLoop_ok sh rh.clean hsrt _ fun w hw => (memS _ _).1 hw
  have i32 : ∀ (g : Graph), g.Regular → (∀ c ∈ g.verts, c.I32) →
      ∀ p ∈ (srt g.verts).map (D g), LineI32 p := by
    intro g rg ig p hp
    obtain ⟨v, hv, rfl⟩ := List.mem_map.1 hp
    have hv' := (memS _ _).1 hv
    refine ⟨ig v hv', fun q hq => ?_⟩
    obtain ⟨w, hw, rfl⟩ := List.mem_map.1 hq
    exact ig w (((neighbors_mem rg.built.shape rg.clean hv' (nbrs_ok rg.built.shape hv')).2 w).1
      ((memS _ _).1 hw)).1
  refine ⟨_, by simp only [Graph.eq, Graph.repr, vg, vh, Res.bind_ok, Res.pure_eq]; rfl, ?_⟩
  have hnn : ∀ (g : Graph), g.Regular → ∀ v ∈ g.verts,
      (g.nbrs v).Nodup ∧ ∀ w, w ∈ g.nbrs v ↔ (w ∈ g.verts ∧ w ≠ v ∧ g.bits v w ≠ 0) := by
    intro g rg v hv
    have := neighbors_mem rg.built.shape rg.clean hv (nbrs_ok rg.built.shape hv)
    refine ⟨this.1, fun w => ?_⟩
    rw [this.2 w, rg.sym w v]
  rw [beq_iff_eq, sameAnswers_iff sg sh]
  constructor
  · intro heq
    have heq := lines_inj hf (i32 g rg ig) (i32 h rh ih) (List.append_cancel_left heq)
    have hfst : srt g.verts = srt h.verts := by
      have := congrArg (List.map Prod.fst) heq
      rw [List.map_map, List.map_map] at this
      simpa [hD, Function.comp_def] using this
    have hv : ∀ c, c ∈ g.verts ↔ c ∈ h.verts := by
      intro c; rw [← memS, hfst, memS]
    refine ⟨hv, fun a ha b hb hab => ?_⟩
    rw [← hfst] at heq
    have hDa : D g a = D h a := List.map_inj_left.1 heq a ((memS _ _).2 ha)
    have hl := (Prod.mk.injEq _ _ _ _ ▸ hDa).2
    have hn : srt (g.nbrs a) = srt (h.nbrs a) := by
      have := congrArg (List.map Prod.fst) hl
      rw [List.map_map, List.map_map] at this
      simpa [Function.comp_def] using this
    have hm : b ∈ g.nbrs a ↔ b ∈ h.nbrs a := by rw [← memS, hn, memS]
    rw [(hnn g rg a ha).2, (hnn h rh a ((hv a).1 ha)).2] at hm
    have h1 : g.bits a b ≠ 0 ↔ h.bits a b ≠ 0 := by
      have hba : b ≠ a := fun h => hab h.symm
      simpa [hb, (hv b).1 hb, hba] using hm
    refine ⟨h1, ?_⟩
    by_cases hz : g.bits a b = 0
    · have hz' : h.bits a b = 0 := by
        by_contra hc; exact (h1.2 hc) hz
      rw [hz, hz']
    · have hbn : b ∈ srt (g.nbrs a) :=
        (memS _ _).2 (((hnn g rg a ha).2 b).2 ⟨hb, fun h => hab h.symm, hz⟩)
      rw [← hn] at hl
      have := List.map_inj_left.1 hl b hbn
      have hb2 := (Prod.mk.injEq _ _ _ _ ▸ this).2
      have hab' : (a != b) = true := by simpa using hab
      rw [hab', Bool.true_and, Bool.true_and, Bool.eq_iff_iff, beq_iff_eq, beq_iff_eq] at hb2
      exact hb2
  · rintro ⟨hv, hb⟩
    have hgn : g.verts.Nodup := List.Nodup.of_map _ ng
    have hhn : h.verts.Nodup := List.Nodup.of_map _ nh
    have hperm : g.verts.Perm h.verts := (List.perm_ext_iff_of_nodup hgn hhn).2 hv
    rw [sort_unique hsrt hperm ng]
    have : (srt h.verts).map (D g) = (srt h.verts).map (D h) := by
      refine List.map_inj_left.2 fun v hv' => ?_
      have hvh := (memS _ _).1 hv'
      have hvg := (hv v).2 hvh
      obtain ⟨n1, m1⟩ := hnn g rg v hvg
      obtain ⟨n2, m2⟩ := hnn h rh v hvh
      have hnp : (g.nbrs v).Perm (h.nbrs v) := by
        refine (List.perm_ext_iff_of_nodup n1 n2).2 fun w => ?_
        rw [m1, m2, ← hv w]
        constructor
        · rintro ⟨h1, h2, h3⟩
          exact ⟨h1, h2, (hb v hvg w h1 (fun h => h2 h.symm)).1.1 h3⟩
        · rintro ⟨h1, h2, h3⟩
          exact ⟨h1, h2, (hb v hvg w h1 (fun h => h2 h.symm)).1.2 h3⟩
      have hnh : ((g.nbrs v).map Coord.hash).Nodup := by
        refine List.Nodup.map_on ?_ n1
        intro x hx y hy hxy
        exact List.inj_on_of_nodup_map ng ((m1 x).1 hx).1 ((m1 y).1 hy).1 hxy
      simp only [hD]
      rw [sort_unique hsrt hnp hnh]
      congr 1
      refine List.map_inj_left.2 fun w hw => ?_
      have hw2 := (m2 w).1 ((memS _ _).1 hw)
      have := (hb v hvg w ((hv w).2 hw2.1) (fun h => hw2.2.1 h.symm)).2
      have e : (g.bits v w == 2) = (h.bits v w == 2) := by
        rw [Bool.eq_iff_iff, beq_iff_eq, beq_iff_eq]; exact this
      rw [e]
    rw [this]

/-- C25 needs different hashes: the vertices (66,0) and (1,1) have the same hash, so two graphs
with the same vertices and no edges, given in different vertex order, print differently
(insertion sort, which is what `std::sort` does on short vectors). -/
theorem C25_hash_collision_false :
    Coord.hash ⟨66, 0⟩ = Coord.hash ⟨1, 1⟩ ∧
    SameAnswers (ofPolygons [[⟨66, 0⟩, ⟨1, 1⟩, ⟨0, 5⟩]]) (ofPolygons [[⟨1, 1⟩, ⟨66, 0⟩, ⟨0, 5⟩]]) ∧
    (ofPolygons [[⟨66, 0⟩, ⟨1, 1⟩, ⟨0, 5⟩]]).view hashSort ≠
      (ofPolygons [[⟨1, 1⟩, ⟨66, 0⟩, ⟨0, 5⟩]]).view hashSort := by
  refine ⟨by decide +kernel, ?_, by decide +kernel⟩
  refine (sameAnswers_iff (ofPolygons_shape _) (ofPolygons_shape _)).2 ⟨?_, ?_⟩
  · intro c; simp only [ofPolygons, List.flatten_cons, List.flatten_nil, List.append_nil,
      List.mem_cons, List.not_mem_nil, or_false]; tauto
  · intro a _ b _ _
    rw [ofPolygons_bits, ofPolygons_bits]; simp

/-- Non-vacuity of C25: the assumptions on sorting and formatting can be met. -/
example : SortOk hashSort := hashSort_ok

example : FmtOk fun q => List.replicate (Encodable.encode q) '0' :=
  ⟨fun q => by simp, fun a b _ _ h => by
    have := congrArg List.length h
    rw [List.length_replicate, List.length_replicate] at this
    exact Encodable.encode_injective this⟩

example : (([⟨0, 0⟩, ⟨1, 0⟩, ⟨0, 1⟩] : List Coord).map Coord.hash).Nodup := by decide +kernel

end Capi
