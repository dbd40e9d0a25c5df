import Verif.Spec.Route
import Verif.Lemmas.AStar
import Verif.Lemmas.ModifiedGraph
import Verif.Lemmas.Graph
import Verif.Lemmas.Geometry
import Verif.Model.Distance
import Mathlib.Tactic.Positivity

/-!
# Lemmas about shortest path queries
-/

namespace Capi

namespace ShortestPath

open Modified

/-! ### The searched graph -/

theorem chk64_val {x y : ℤ} (h : chk64 x = .ok y) : y = x := by
  unfold chk64 at h
  split_ifs at h
  exact (Except.ok.inj h).symm

theorem bind_eq_ok {α β : Type} {x : Res α} {f : α → Res β} {b : β}
    (h : (x >>= f) = .ok b) : ∃ a, x = .ok a ∧ f a = .ok b := by
  cases x with
  | error e => simp at h
  | ok a => exact ⟨a, rfl, h⟩

theorem orientPtC_val {s : Seg} {c : Coord} {o : Orientation} (h : s.orientPtC c = .ok o) :
    o = s.orientPt c := by
  unfold Seg.orientPtC at h
  obtain ⟨a, ha, h⟩ := bind_eq_ok h
  obtain ⟨b, hb, h⟩ := bind_eq_ok h
  obtain ⟨d, hd, h⟩ := bind_eq_ok h
  obtain ⟨e, he, h⟩ := bind_eq_ok h
  obtain ⟨x, hx, h⟩ := bind_eq_ok h
  obtain ⟨y, hy, h⟩ := bind_eq_ok h
  obtain ⟨z, hz, h⟩ := bind_eq_ok h
  rw [Res.pure_eq] at h
  rw [← Except.ok.inj h, chk64_val hz, chk64_val hx, chk64_val hy, chk64_val ha, chk64_val hb,
    chk64_val hd, chk64_val he]
  rfl

theorem mayLink_val {edge : Option Seg} {x : Coord} {b : Bool} (h : mayLinkC edge x = .ok b) :
    b = true ↔ ∀ s, edge = some s → area2 s.p s.q x ≤ 0 := by
  cases edge with
  | none =>
    have : b = true := (Except.ok.inj h).symm
    simp [this]
  | some e =>
    unfold mayLinkC at h
    obtain ⟨o, ho, h⟩ := bind_eq_ok h
    rw [Res.pure_eq] at h
    rw [← Except.ok.inj h, orientPtC_val ho]
    have : e.signedArea x = area2 e.p e.q x := rfl
    simp only [Seg.orientPt, Seg.orientOfArea, this, bne_iff_ne, Option.some.injEq, forall_eq']
    split_ifs with h1 h2
    · simp; omega
    · simp; omega
    · simp; omega

/-- An overlay to which only plain connections of the pairs in `L` were added. -/
structure Tidy (g : Graph) (M : Modified) (L : List (Coord × Coord)) : Prop where
  base : M.base = g
  keys : M.Keys
  entries : ∀ a b, M.entry a b =
    if a ≠ b ∧ ((a, b) ∈ L ∨ (b, a) ∈ L) then some ⟨false, true⟩ else none

theorem tidy_start (g : Graph) : Tidy g (ofGraph g) [] :=
  ⟨rfl, fun a l h => by simp [ofGraph, Assoc.get] at h,
    fun a b => by simp [ofGraph, entry, Assoc.get]⟩

theorem tidy_addVertex {g : Graph} {M : Modified} {L : List (Coord × Coord)} (h : Tidy g M L)
    (v : Coord) : Tidy g (M.addVertex v) L := by
  unfold addVertex
  by_cases hv : M.hasVertex v = true
  · rw [if_pos hv]; exact h
  · rw [if_neg hv]
    have hnone : Assoc.get M.nbrs v = none := by
      unfold hasVertex at hv
      rw [Bool.or_eq_true, not_or] at hv
      cases hg : Assoc.get M.nbrs v with
      | none => rfl
      | some l => rw [hg] at hv; simp at hv
    refine ⟨h.base, fun a l hl => ?_, fun a b => ?_⟩
    · simp only [Assoc.get_set] at hl
      split_ifs at hl
      · obtain rfl := Option.some.inj hl; simp
      · exact h.keys a l hl
    · rw [← h.entries a b]
      unfold entry
      simp only [Assoc.get_set]
      split_ifs with hva
      · subst hva; rw [hnone]; rfl
      · rfl

theorem firstFlag_val {g : Graph} (hs : g.Shape) {M : Modified} (hb : M.base = g) {a b : Coord}
    (hab : a ≠ b) (ha : a ∉ g.verts ∨ b ∉ g.verts) {m f : Bool} (h : M.firstFlag a b m = .ok f) :
    f = false := by
  unfold firstFlag at h
  cases m with
  | false => exact (Except.ok.inj h).symm
  | true =>
    have hn : ¬ (a ∈ g.verts ∧ b ∈ g.verts) := by tauto
    rw [if_pos rfl, hb, Graph.hasEdge_eq hs, if_neg hab, if_neg hn] at h
    cases h

theorem tidy_addDirected {g : Graph} (hs : g.Shape) {M M' : Modified} {a b : Coord}
    {m : Bool} (ha : a ∉ g.verts ∨ b ∉ g.verts) (hb : M.base = g) (hk : M.Keys)
    (he : ∀ i, M.entry a b = some i → i.crossing = false)
    (h : M.addDirected a b m = .ok M') :
    M'.base = g ∧ M'.Keys ∧ ∀ c d, M'.entry c d =
      if a ≠ b ∧ c = a ∧ d = b then some ⟨false, true⟩ else M.entry c d := by
  obtain ⟨h1, h2, h3⟩ := addDirected_inv h
  refine ⟨h1.trans hb, h2 hk, fun c d => ?_⟩
  rcases h3 with ⟨h4, h5⟩ | ⟨h4, f, h5, h6⟩
  · rw [h5, if_neg (by tauto)]
  · rw [h6]
    have hf : f = false := by
      cases hab : M.entry a b with
      | none => rw [hab] at h5; exact firstFlag_val hs hb h4 ha h5
      | some i => rw [hab] at h5; rw [h5, he i hab, Bool.and_false]
    rw [hf]
    by_cases hcd : c = a ∧ d = b
    · rw [if_pos hcd, if_pos ⟨h4, hcd⟩]
    · rw [if_neg hcd, if_neg (by tauto)]

theorem tidy_addEdge {g : Graph} (hs : g.Shape) {M M' : Modified} {L : List (Coord × Coord)}
    (hT : Tidy g M L) {a b : Coord} {m : Bool} (ha : a ∉ g.verts)
    (h : M.addEdge a b m = .ok M') : Tidy g M' ((a, b) :: L) := by
  unfold addEdge at h
  obtain ⟨M1, h1, h2⟩ := bind_eq_ok h
  have hcr : ∀ c d i, M.entry c d = some i → i.crossing = false := by
    intro c d i hi
    rw [hT.entries] at hi
    split_ifs at hi
    rw [← Option.some.inj hi]
  obtain ⟨b1, k1, e1⟩ := tidy_addDirected hs (Or.inl ha) hT.base hT.keys (hcr a b) h1
  have hcr1 : ∀ i, M1.entry b a = some i → i.crossing = false := by
    intro i hi
    rw [e1] at hi
    split_ifs at hi
    · rw [← Option.some.inj hi]
    · exact hcr b a i hi
  obtain ⟨b2, k2, e2⟩ := tidy_addDirected hs (Or.inr ha) b1 k1 hcr1 h2
  refine ⟨b2, k2, fun c d => ?_⟩
  rw [e2, e1, hT.entries]
  simp only [List.mem_cons, Prod.mk.injEq]
  by_cases hx : b ≠ a ∧ c = b ∧ d = a
  · obtain ⟨x1, rfl, rfl⟩ := hx
    rw [if_pos ⟨x1, rfl, rfl⟩, if_pos ⟨x1, Or.inr (Or.inl ⟨rfl, rfl⟩)⟩]
  · rw [if_neg hx]
    by_cases hy : a ≠ b ∧ c = a ∧ d = b
    · obtain ⟨y1, rfl, rfl⟩ := hy
      rw [if_pos ⟨y1, rfl, rfl⟩, if_pos ⟨y1, Or.inl (Or.inl ⟨rfl, rfl⟩)⟩]
    · rw [if_neg hy]
      refine if_congr ⟨fun h => ⟨h.1, h.2.imp Or.inr Or.inr⟩, fun h => ⟨h.1, ?_⟩⟩ rfl rfl
      rcases h.2 with (⟨h3, h4⟩ | h3) | (⟨h3, h4⟩ | h3)
      · exact absurd ⟨fun h5 => h.1 (by rw [h3, h4, h5]), h3, h4⟩ hy
      · exact Or.inl h3
      · exact absurd ⟨fun h5 => h.1 (by rw [h3, h4, h5]), h4, h3⟩ hx
      · exact Or.inr h3

theorem addDirected_key {M M' : Modified} {a b : Coord} {m : Bool}
    (h : M.addDirected a b m = .ok M') (v : Coord) (hv : (Assoc.get M.nbrs v).isSome) :
    (Assoc.get M'.nbrs v).isSome := by
  have hens : (Assoc.get (M.ensure a).nbrs v).isSome := by
    unfold ensure
    split
    · exact hv
    · simp only [Assoc.get_set]
      split_ifs
      · rfl
      · exact hv
  have hset : ∀ i, (Assoc.get ((M.ensure a).setEntry a b i).nbrs v).isSome := by
    intro i
    simp only [setEntry, Assoc.get_set]
    split_ifs
    · rfl
    · exact hens
  unfold addDirected at h
  split_ifs at h
  · rw [← Except.ok.inj h]; exact hv
  · simp only at h
    cases he : (M.ensure a).entry a b with
    | none =>
      rw [he] at h
      obtain ⟨f, -, h⟩ := bind_eq_ok h
      rw [Res.pure_eq] at h
      rw [← Except.ok.inj h]; exact hset _
    | some i =>
      rw [he] at h
      rw [← Except.ok.inj h]; exact hset _

theorem addEdge_key {M M' : Modified} {a b : Coord} {m : Bool}
    (h : M.addEdge a b m = .ok M') (v : Coord) (hv : (Assoc.get M.nbrs v).isSome) :
    (Assoc.get M'.nbrs v).isSome := by
  unfold addEdge at h
  obtain ⟨M1, h1, h2⟩ := bind_eq_ok h
  exact addDirected_key h2 v (addDirected_key h1 v hv)

theorem tidy_attach {g : Graph} (hs : g.Shape) {v : Coord} (hv : v ∉ g.verts)
    (edge : Option Seg) (vis : List (Coord × Bool)) {M M' : Modified} {L : List (Coord × Coord)}
    (hT : Tidy g M L) (h : attach M v edge vis = .ok M') :
    (∀ u, (Assoc.get M.nbrs u).isSome → (Assoc.get M'.nbrs u).isSome) ∧
    ∃ L', Tidy g M' L' ∧ ∀ p, p ∈ L' ↔ p ∈ L ∨
      (p.1 = v ∧ (∃ m, (p.2, m) ∈ vis) ∧ ∀ s, edge = some s → area2 s.p s.q p.2 ≤ 0) := by
  induction vis generalizing M L with
  | nil =>
    have : M = M' := Except.ok.inj h
    subst this
    exact ⟨fun _ h => h, L, hT, fun p => by simp⟩
  | cons x r ih =>
    unfold attach at h
    obtain ⟨b, hb, h⟩ := bind_eq_ok h
    have hval := mayLink_val hb
    cases b with
    | false =>
      rw [if_neg (by simp)] at h
      obtain ⟨k, L', h2, h3⟩ := ih hT h
      refine ⟨k, L', h2, fun p => ?_⟩
      rw [h3]
      refine or_congr Iff.rfl (and_congr Iff.rfl ⟨fun ⟨⟨m, hm⟩, hq⟩ =>
        ⟨⟨m, List.mem_cons_of_mem _ hm⟩, hq⟩, fun ⟨⟨m, hm⟩, hq⟩ => ?_⟩)
      rcases List.mem_cons.1 hm with hm | hm
      · rw [← hm] at hval
        exact absurd (hval.2 hq) (by simp)
      · exact ⟨⟨m, hm⟩, hq⟩
    | true =>
      rw [if_pos rfl] at h
      obtain ⟨M1, h1, h⟩ := bind_eq_ok h
      obtain ⟨k, L', h2, h3⟩ := ih (tidy_addEdge hs hT hv h1) h
      refine ⟨fun u hu => k u (addEdge_key h1 u hu), L', h2, fun p => ?_⟩
      rw [h3, List.mem_cons]
      constructor
      · rintro ((rfl | h4) | ⟨h4, ⟨m, h5⟩, h6⟩)
        · exact Or.inr ⟨rfl, ⟨x.2, List.mem_cons_self⟩, hval.1 rfl⟩
        · exact Or.inl h4
        · exact Or.inr ⟨h4, ⟨m, List.mem_cons_of_mem _ h5⟩, h6⟩
      · rintro (h4 | ⟨h4, ⟨m, h5⟩, h6⟩)
        · exact Or.inl (Or.inr h4)
        · rcases List.mem_cons.1 h5 with h5 | h5
          · refine Or.inl (Or.inl ?_)
            rw [← h5, ← h4]
          · exact Or.inr ⟨h4, ⟨m, h5⟩, h6⟩

theorem addVertex_key {M : Modified} (v : Coord) (hv : M.base.hasVertex v = false) :
    (Assoc.get (M.addVertex v).nbrs v).isSome ∧
      ∀ u, (Assoc.get M.nbrs u).isSome → (Assoc.get (M.addVertex v).nbrs u).isSome := by
  unfold addVertex
  by_cases h : M.hasVertex v = true
  · rw [if_pos h]
    unfold hasVertex at h
    rw [hv, Bool.false_or] at h
    exact ⟨h, fun _ h => h⟩
  · rw [if_neg h]
    refine ⟨by simp [Assoc.get_set], fun u hu => ?_⟩
    simp only [Assoc.get_set]
    split_ifs
    · rfl
    · exact hu

theorem tidy_endpoint {E : Env} (hs : E.graph.Shape) {v : Coord} {edge : Option Seg}
    {M M' : Modified} {L : List (Coord × Coord)} (hT : Tidy E.graph M L)
    (h : addEndpoint E M v edge = .ok M') :
    (E.graph.hasVertex v = true ∨ (Assoc.get M'.nbrs v).isSome) ∧
    (∀ u, (Assoc.get M.nbrs u).isSome → (Assoc.get M'.nbrs u).isSome) ∧
    ∃ L', Tidy E.graph M' L' ∧ ∀ a b, a ≠ b →
      ((a, b) ∈ L' ↔ (a, b) ∈ L ∨ (a = v ∧ Linked E v edge b)) := by
  unfold addEndpoint at h
  by_cases hv : E.graph.hasVertex v = true
  · rw [if_pos hv] at h
    have : M = M' := Except.ok.inj h
    subst this
    refine ⟨Or.inl hv, fun _ h => h, L, hT, fun a b _ => ?_⟩
    constructor
    · exact Or.inl
    · rintro (h1 | ⟨-, h1, -⟩)
      · exact h1
      · rw [hv] at h1; cases h1
  · rw [if_neg hv] at h
    rw [Bool.not_eq_true] at hv
    obtain ⟨vis, h1, h2⟩ := bind_eq_ok h
    have hnv : v ∉ E.graph.verts := by
      intro h3
      have := (hs.dom v).2 h3
      unfold Graph.hasVertex at hv
      rw [hv] at this
      cases this
    obtain ⟨k, L', h3, h4⟩ := tidy_attach hs hnv edge vis (tidy_addVertex hT v) h2
    have hkey := addVertex_key (M := M) v (by rw [hT.base]; exact hv)
    refine ⟨Or.inr (k v hkey.1), fun u hu => k u (hkey.2 u hu), L', h3, fun a b hab => ?_⟩
    rw [h4]
    refine or_congr Iff.rfl ⟨fun ⟨h5, ⟨m, h6⟩, h7⟩ => ⟨h5, hv, ?_, ⟨vis, m, h1, h6⟩, h7⟩,
      fun ⟨h5, _, _, ⟨vis', m, h6, h7⟩, h8⟩ => ⟨h5, ⟨m, ?_⟩, h8⟩⟩
    · rw [← show a = v from h5]; exact hab.symm
    · rw [h1] at h6
      rw [Except.ok.inj h6]; exact h7

/-- What the search relies on. -/
structure NetOk (E : Env) (c : Correction) (N : Net) (vs : Finset Coord) : Prop where
  src : c.src ∈ vs
  nbrs : ∀ v ∈ vs, ∃ ns, N.neighbors E.ord v = .ok ns ∧ ∀ w, w ∈ ns ↔ RouteEdge E c v w
  closed : ∀ v ∈ vs, ∀ w, RouteEdge E c v w → w ∈ vs
  crossing : ∀ v w, RouteEdge E c v w →
    ∃ m, N.isCrossing v w = .ok m ∧ (m = true ↔ CrossesMeridian E v w)

theorem assoc_key {K V : Type} [DecidableEq K] {l : List (K × V)} {k : K}
    (h : (Assoc.get l k).isSome) : k ∈ l.map Prod.fst := by
  induction l with
  | nil => simp [Assoc.get] at h
  | cons p r ih =>
    simp only [Assoc.get] at h
    split_ifs at h with hp
    · rw [← hp]; exact List.mem_cons_self
    · exact List.mem_cons_of_mem _ (ih h)

theorem entry_key {M : Modified} {a b : Coord} {i : Info} (h : M.entry a b = some i) :
    (Assoc.get M.nbrs a).isSome := by
  unfold entry at h
  cases hg : Assoc.get M.nbrs a with
  | none => rw [hg] at h; cases h
  | some l => rfl

theorem hasEdge_verts {g : Graph} (hs : g.Shape) {a b : Coord} (h : g.hasEdge a b = .ok true) :
    a ≠ b ∧ a ∈ g.verts ∧ b ∈ g.verts := by
  rw [Graph.hasEdge_eq hs] at h
  split_ifs at h with h1 h2
  · exact absurd (Except.ok.inj h) (by simp)
  · exact ⟨h1, h2⟩

theorem linked_unknown {E : Env} (hs : E.graph.Shape) {e x : Coord} {edge : Option Seg}
    (h : Linked E e edge x) : e ∉ E.graph.verts := by
  intro he
  have := (hs.dom e).2 he
  have h1 := h.1
  unfold Graph.hasVertex at h1
  rw [h1] at this
  cases this

theorem _root_.Capi.RouteEdge.symm {E : Env} (hg : UserGraph E.graph) {c : Correction} {u v : Coord}
    (h : RouteEdge E c u v) : RouteEdge E c v u := by
  have rg := hg.regular
  have hs := rg.built.shape
  unfold RouteEdge at h ⊢
  rcases h with h | h | h | h | h
  · left
    rw [Graph.hasEdge_eq hs] at h ⊢
    rw [← rg.sym u v]
    simpa only [eq_comm (a := v), and_comm (a := v ∈ E.graph.verts)] using h
  · exact Or.inr (Or.inr (Or.inl h))
  · exact Or.inr (Or.inl h)
  · exact Or.inr (Or.inr (Or.inr (Or.inr h)))
  · exact Or.inr (Or.inr (Or.inr (Or.inl h)))

theorem routeEdge_iff {E : Env} {c : Correction} {u v : Coord} : RouteEdge E c u v ↔
    E.graph.hasEdge u v = .ok true ∨
      ((u = c.src ∧ Linked E c.src c.srcEdge v) ∨ (u = c.dst ∧ Linked E c.dst c.dstEdge v)) ∨
      ((v = c.src ∧ Linked E c.src c.srcEdge u) ∨ (v = c.dst ∧ Linked E c.dst c.dstEdge u)) := by
  unfold RouteEdge
  refine or_congr Iff.rfl ?_
  generalize (u = c.src ∧ Linked E c.src c.srcEdge v) = p
  generalize (v = c.src ∧ Linked E c.src c.srcEdge u) = q
  generalize (u = c.dst ∧ Linked E c.dst c.dstEdge v) = r
  generalize (v = c.dst ∧ Linked E c.dst c.dstEdge u) = t
  tauto

theorem net_ok {E : Env} (hg : UserGraph E.graph) (hord : ∀ l, (E.ord l).Perm l) {c : Correction}
    {N : Net} (h : net E c = .ok N) : ∃ vs, NetOk E c N vs := by
  have rg := hg.regular
  have hs := rg.built.shape
  unfold net at h
  by_cases hv : (E.graph.hasVertex c.src && E.graph.hasVertex c.dst) = true
  · rw [if_pos hv] at h
    have hN := Except.ok.inj h
    subst hN
    rw [Bool.and_eq_true] at hv
    have hroute : ∀ u v, RouteEdge E c u v ↔ E.graph.hasEdge u v = .ok true := by
      intro u v
      unfold RouteEdge Linked
      rw [hv.1, hv.2]
      simp
    refine ⟨E.graph.verts.toFinset, ⟨?_, fun v hv' => ?_, fun v hv' w hw => ?_, fun v w hw => ?_⟩⟩
    · rw [List.mem_toFinset]; exact (hs.dom _).1 hv.1
    · rw [List.mem_toFinset] at hv'
      obtain ⟨j, ns, _, _, hn, _⟩ := Graph.neighbors_ok hs hv'
      refine ⟨ns, hn, fun w => ?_⟩
      rw [hroute, (Graph.neighbors_mem hs rg.clean hv' hn).2 w, Graph.hasEdge_eq hs, rg.sym w v]
      by_cases hvw : v = w
      · subst hvw; simp
      · have : w ≠ v := fun h => hvw h.symm
        by_cases hw : w ∈ E.graph.verts
        · simp [hvw, this, hw, hv']
        · simp [hvw, hw]
    · rw [hroute] at hw
      rw [List.mem_toFinset]
      exact (hasEdge_verts hs hw).2.2
    · rw [hroute] at hw
      obtain ⟨h1, h2, h3⟩ := hasEdge_verts hs hw
      refine ⟨_, Graph.isCrossing_ok hs h2 h3, ?_⟩
      unfold CrossesMeridian
      rw [Graph.isCrossing_ok hs h2 h3, Except.ok.injEq]
  · rw [if_neg hv] at h
    obtain ⟨M1, h1, h⟩ := bind_eq_ok h
    obtain ⟨M2, h2, h⟩ := bind_eq_ok h
    rw [Res.pure_eq] at h
    have hN := Except.ok.inj h
    subst hN
    obtain ⟨v1, k1, L1, t1, m1⟩ := tidy_endpoint hs (tidy_start E.graph) h1
    obtain ⟨v2, k2, L2, t2, m2⟩ := tidy_endpoint hs t1 h2
    have hmem : ∀ a b, a ≠ b → ((a, b) ∈ L2 ↔
        (a = c.src ∧ Linked E c.src c.srcEdge b) ∨ (a = c.dst ∧ Linked E c.dst c.dstEdge b)) := by
      intro a b hab
      rw [m2 a b hab, m1 a b hab]
      simp
    have hroute : ∀ u v, RouteEdge E c u v ↔ M2.hasEdge u v = .ok true := by
      intro u v
      unfold Modified.hasEdge
      rw [t2.entries, t2.base]
      by_cases huv : u = v
      · subst huv
        simp only [ne_eq, not_true_eq_false, false_and, if_false]
        unfold RouteEdge
        constructor
        · rintro (h | ⟨h, h'⟩ | ⟨h, h'⟩ | ⟨h, h'⟩ | ⟨h, h'⟩)
          · exact h
          · exact absurd h h'.2.1
          · exact absurd h h'.2.1
          · exact absurd h h'.2.1
          · exact absurd h h'.2.1
        · exact Or.inl
      · have hvu : v ≠ u := fun h => huv h.symm
        have hm1 := hmem u v huv
        have hm2 := hmem v u hvu
        rw [routeEdge_iff, ← hm1, ← hm2]
        by_cases hc : (u, v) ∈ L2 ∨ (v, u) ∈ L2
        · rw [if_pos ⟨huv, hc⟩]
          exact ⟨fun _ => rfl, fun _ => Or.inr hc⟩
        · rw [if_neg fun h => hc h.2]
          exact ⟨fun h => h.resolve_right hc, Or.inl⟩
    refine ⟨(E.graph.verts ++ M2.nbrs.map Prod.fst).toFinset,
      ⟨?_, fun v hv' => ?_, fun v hv' w hw => ?_, fun v w hw => ?_⟩⟩
    · rw [List.mem_toFinset, List.mem_append]
      rcases v1 with h3 | h3
      · exact Or.inl ((hs.dom _).1 h3)
      · exact Or.inr (assoc_key (k2 _ h3))
    · obtain ⟨ns, hn, hm⟩ := neighbors_hasEdge rg t2.base t2.keys E.ord hord v
      exact ⟨ns, hn, fun w => by rw [hm, hroute]⟩
    · rw [List.mem_toFinset, List.mem_append]
      have hw' := hw.symm hg
      rw [hroute] at hw'
      unfold Modified.hasEdge at hw'
      cases he : M2.entry w v with
      | none =>
        rw [he, t2.base] at hw'
        exact Or.inl (hasEdge_verts hs hw').2.1
      | some i => exact Or.inr (assoc_key (entry_key he))
    · rw [hroute] at hw
      unfold Modified.hasEdge at hw
      unfold CrossesMeridian
      simp only [Net.isCrossing]
      unfold Modified.isCrossing
      cases he : M2.entry v w with
      | none =>
        rw [he, t2.base] at hw
        obtain ⟨h3, h4, h5⟩ := hasEdge_verts hs hw
        simp only [t2.base]
        refine ⟨_, Graph.isCrossing_ok hs h4 h5, ?_⟩
        rw [Graph.isCrossing_ok hs h4 h5, Except.ok.injEq]
      | some i =>
        refine ⟨i.crossing, rfl, ?_⟩
        rw [t2.entries] at he
        split_ifs at he with hc
        rw [← Option.some.inj he]
        simp only [Bool.false_eq_true, false_iff]
        rw [hmem v w hc.1, hmem w v hc.1.symm] at hc
        have hnot : ¬ (v ∈ E.graph.verts ∧ w ∈ E.graph.verts) := by
          rintro ⟨hx, hy⟩
          rcases hc.2 with (⟨h3, h4⟩ | ⟨h3, h4⟩) | (⟨h3, h4⟩ | ⟨h3, h4⟩) <;>
          · have := linked_unknown hs h4
            subst h3
            contradiction
        rw [Graph.isCrossing_eq hs, if_neg hc.1, if_neg hnot]
        simp

theorem _root_.Capi.CrossesMeridian.symm {E : Env} (hg : UserGraph E.graph) {u v : Coord}
    (h : CrossesMeridian E u v) : CrossesMeridian E v u := by
  have rg := hg.regular
  have hs := rg.built.shape
  unfold CrossesMeridian at h ⊢
  rw [Graph.isCrossing_eq hs] at h ⊢
  rw [← rg.sym u v]
  simpa only [eq_comm (a := v), and_comm (a := v ∈ E.graph.verts)] using h

/-! ### Arithmetic -/

/-- Adding the length of a vector never decreases a distance, and addition is monotone. -/
structure Arith.Sound {D : Type} [LinearOrder D] (A : Arith D) : Prop where
  infl : ∀ d c, d ≤ A.add d (A.mag c)
  mono : ∀ d d' c, d ≤ d' → A.add d (A.mag c) ≤ A.add d' (A.mag c)

theorem exact_sound (w : ℝ) (limit : Option ℝ) : (exactArith w limit).Sound := by
  refine ⟨fun d c => ?_, fun d d' c h => ?_⟩
  · have : (0 : ℝ) ≤ Real.sqrt (c.magSq : ℝ) / 1000000 := by positivity
    simp only [exactArith]
    linarith
  · simp only [exactArith]
    linarith

theorem double_sound (sq : ℚ → Dbl) (hsq : ∀ x, 0 ≤ (sq x).1) (w : Dbl) (limit : Option Dbl) :
    (doubleArith sq w limit).Sound := by
  refine ⟨fun d c => ?_, fun d d' c h => ?_⟩
  · change d.1 ≤ fl (d.1 + (sq c.magSqDeg).1)
    calc d.1 = fl d.1 := d.2.symm
      _ ≤ _ := fl_mono (by linarith [hsq c.magSqDeg])
  · change fl (d.1 + (sq c.magSqDeg).1) ≤ fl (d'.1 + (sq c.magSqDeg).1)
    have h' : d.1 ≤ d'.1 := h
    exact fl_mono (by linarith)

variable {D : Type} [LinearOrder D]

/-- A distance is the length of some vector. -/
theorem distance_mag (A : Arith D) (a b : Coord) (span : Bool) :
    ∃ c, distance A a b span = A.mag c := by
  unfold distance
  cases span with
  | false => exact ⟨_, rfl⟩
  | true =>
    rw [if_pos rfl]
    rcases min_choice (A.mag (((periodicCopies a).getD 1 a).sub b))
      (A.mag (((periodicCopies a).getD 2 a).sub b)) with h | h <;> rw [h] <;> exact ⟨_, rfl⟩

theorem problem_monotone {A : Arith D} (hA : A.Sound)
    (ord : List (Coord × Info) → List (Coord × Info)) (N : Net) (src dst : Coord) :
    AStar.Monotone (problem A ord N src dst) := by
  refine ⟨fun d u v => ?_, fun d d' u v h => ?_⟩
  · obtain ⟨c, hc⟩ := distance_mag A v u ((N.isCrossing u v).toOption.getD false)
    simp only [problem, hc]
    exact hA.infl d c
  · obtain ⟨c, hc⟩ := distance_mag A v u ((N.isCrossing u v).toOption.getD false)
    simp only [problem, hc]
    exact hA.mono d d' c h

/-! ### The search on the graph -/

theorem NetOk.mem_nbrs {E : Env} {c : Correction} {N : Net} {vs : Finset Coord}
    (h : NetOk E c N vs) (A : Arith D) {v : Coord} (hv : v ∈ vs) (w : Coord) :
    w ∈ (problem A E.ord N c.src c.dst).nbrs v ↔ RouteEdge E c v w := by
  obtain ⟨ns, h1, h2⟩ := h.nbrs v hv
  simp only [problem, h1]
  exact h2 w

theorem NetOk.within {E : Env} {c : Correction} {N : Net} {vs : Finset Coord}
    (h : NetOk E c N vs) (A : Arith D) :
    AStar.Within (problem A E.ord N c.src c.dst) vs :=
  ⟨h.src, fun u hu n hn => h.closed u hu n ((h.mem_nbrs A hu n).1 hn)⟩

/-- Route edges from a known vertex are neighbours in the search. -/
theorem NetOk.chain {E : Env} {c : Correction} {N : Net} {vs : Finset Coord}
    (h : NetOk E c N vs) (A : Arith D) (l : List Coord) (u : Coord) (hu : u ∈ vs) :
    ((u :: l).IsChain fun a b => b ∈ (problem A E.ord N c.src c.dst).nbrs a) ↔
      (u :: l).IsChain (RouteEdge E c) := by
  induction l generalizing u with
  | nil => simp
  | cons v r ih =>
    rw [List.isChain_cons_cons, List.isChain_cons_cons, h.mem_nbrs A hu]
    refine and_congr_right fun hv => ?_
    exact ih v (h.closed u hu v hv)

/-! ### Lengths -/

theorem exact_mag (w : ℝ) (limit : Option ℝ) (a b : Coord) (k : ℤ) :
    (exactArith w limit).mag (Coord.sub ⟨a.lon + k * 360000001, a.lat⟩ b) = planeDist a b k := by
  simp only [exactArith, planeDist, Coord.sub, Coord.add, Coord.neg, Coord.magSq]
  congr 2
  push_cast
  ring

theorem exact_distance (w : ℝ) (limit : Option ℝ) (a b : Coord) (span : Bool) :
    distance (exactArith w limit) a b span =
      if span then min (planeDist a b 1) (planeDist a b (-1)) else planeDist a b 0 := by
  have h0 := exact_mag w limit a b 0
  have h1 := exact_mag w limit a b 1
  have h2 := exact_mag w limit a b (-1)
  simp only [zero_mul, add_zero, one_mul, neg_mul] at h0 h1 h2
  unfold distance
  simp only [periodicCopies, List.getD_cons_succ, List.getD_cons_zero, period]
  rw [← h0, ← h1, ← h2]
  rfl

theorem exact_heuristic (w : ℝ) (limit : Option ℝ) (a b : Coord) :
    heuristic (exactArith w limit) a b = wrapDist a b := by
  unfold heuristic wrapDist
  rw [exact_distance, exact_distance]
  rfl

theorem planeDist_symm (a b : Coord) (k : ℤ) : planeDist a b k = planeDist b a (-k) := by
  unfold planeDist
  congr 2
  push_cast
  ring

theorem planeDist_nonneg (a b : Coord) (k : ℤ) : 0 ≤ planeDist a b k := by
  unfold planeDist; positivity

theorem sqrt_triangle (a b c d : ℝ) :
    Real.sqrt ((a + c) ^ 2 + (b + d) ^ 2) ≤ Real.sqrt (a ^ 2 + b ^ 2) + Real.sqrt (c ^ 2 + d ^ 2) := by
  have h1 : 0 ≤ Real.sqrt (a ^ 2 + b ^ 2) := Real.sqrt_nonneg _
  have h2 : 0 ≤ Real.sqrt (c ^ 2 + d ^ 2) := Real.sqrt_nonneg _
  have s1 : Real.sqrt (a ^ 2 + b ^ 2) ^ 2 = a ^ 2 + b ^ 2 := Real.sq_sqrt (by positivity)
  have s2 : Real.sqrt (c ^ 2 + d ^ 2) ^ 2 = c ^ 2 + d ^ 2 := Real.sq_sqrt (by positivity)
  have hcs : a * c + b * d ≤ Real.sqrt (a ^ 2 + b ^ 2) * Real.sqrt (c ^ 2 + d ^ 2) := by
    rw [← Real.sqrt_mul (by positivity)]
    apply Real.le_sqrt_of_sq_le
    nlinarith [sq_nonneg (a * d - b * c)]
  apply Real.sqrt_le_iff.2
  exact ⟨by positivity, by nlinarith⟩

/-- The triangle inequality across copies. -/
theorem planeDist_triangle (a b c : Coord) (j k : ℤ) :
    planeDist a c (j + k) ≤ planeDist a b j + planeDist b c k := by
  unfold planeDist
  rw [← add_div]
  apply div_le_div_of_nonneg_right _ (by norm_num)
  have := sqrt_triangle ((a.lon + j * 360000001 - b.lon : ℤ) : ℝ) ((a.lat - b.lat : ℤ) : ℝ)
    ((b.lon + k * 360000001 - c.lon : ℤ) : ℝ) ((b.lat - c.lat : ℤ) : ℝ)
  refine le_trans (le_of_eq ?_) this
  congr 1
  push_cast
  ring

/-- Longitude within ±270°, which includes all geographic coordinates. -/
def Near (a : Coord) : Prop := -270000000 ≤ a.lon ∧ a.lon ≤ 270000000

/-- Two periods away is never nearer than one. -/
theorem planeDist_far (a b : Coord) (ha : Near a) (hb : Near b) :
    planeDist a b 1 ≤ planeDist a b 2 ∧ planeDist a b (-1) ≤ planeDist a b (-2) := by
  obtain ⟨h1, h2⟩ := ha
  obtain ⟨h3, h4⟩ := hb
  unfold planeDist
  constructor <;>
  · apply div_le_div_of_nonneg_right _ (by norm_num)
    apply Real.sqrt_le_sqrt
    have : ∀ x y : ℤ, x ^ 2 ≤ y ^ 2 → (x : ℝ) ^ 2 ≤ (y : ℝ) ^ 2 := by
      intro x y h; exact_mod_cast h
    refine add_le_add (this _ _ ?_) le_rfl
    nlinarith

theorem wrapDist_le (a b : Coord) (k : ℤ) (hk : k = 0 ∨ k = 1 ∨ k = -1) :
    wrapDist a b ≤ planeDist a b k := by
  unfold wrapDist
  rcases hk with rfl | rfl | rfl
  · exact min_le_left _ _
  · exact (min_le_right _ _).trans (min_le_left _ _)
  · exact (min_le_right _ _).trans (min_le_right _ _)

theorem wrapDist_eq (a b : Coord) :
    ∃ k, (k = 0 ∨ k = 1 ∨ k = -1) ∧ wrapDist a b = planeDist a b k := by
  unfold wrapDist
  rcases min_choice (planeDist a b 0) (min (planeDist a b 1) (planeDist a b (-1))) with h | h
  · exact ⟨0, Or.inl rfl, h⟩
  · rw [h]
    rcases min_choice (planeDist a b 1) (planeDist a b (-1)) with h | h
    · exact ⟨1, Or.inr (Or.inl rfl), h⟩
    · exact ⟨-1, Or.inr (Or.inr rfl), h⟩

theorem wrapDist_two (a b : Coord) (ha : Near a) (hb : Near b) (k : ℤ)
    (hk : -2 ≤ k ∧ k ≤ 2) : wrapDist a b ≤ planeDist a b k := by
  obtain ⟨h1, h2⟩ := planeDist_far a b ha hb
  have : k = 0 ∨ k = 1 ∨ k = -1 ∨ k = 2 ∨ k = -2 := by omega
  rcases this with rfl | rfl | rfl | rfl | rfl
  · exact wrapDist_le a b 0 (by simp)
  · exact wrapDist_le a b 1 (by simp)
  · exact wrapDist_le a b (-1) (by simp)
  · exact (wrapDist_le a b 1 (by simp)).trans h1
  · exact (wrapDist_le a b (-1) (by simp)).trans h2

theorem legLength_eq (E : Env) (u v : Coord) :
    ∃ k, (k = 0 ∨ k = 1 ∨ k = -1) ∧ legLength E u v = planeDist u v k := by
  unfold legLength
  split_ifs
  · rcases min_choice (planeDist u v 1) (planeDist u v (-1)) with h | h
    · exact ⟨1, Or.inr (Or.inl rfl), h⟩
    · exact ⟨-1, Or.inr (Or.inr rfl), h⟩
  · exact ⟨0, Or.inl rfl, rfl⟩

theorem legLength_symm {E : Env} (hg : UserGraph E.graph) (u v : Coord) :
    legLength E u v = legLength E v u := by
  unfold legLength
  have : CrossesMeridian E u v ↔ CrossesMeridian E v u := ⟨fun h => h.symm hg, fun h => h.symm hg⟩
  by_cases h : CrossesMeridian E u v
  · rw [if_pos h, if_pos (this.1 h), planeDist_symm u v 1, planeDist_symm u v (-1), neg_neg,
      min_comm]
  · rw [if_neg h, if_neg (fun h' => h (this.2 h')), planeDist_symm u v 0, neg_zero]

/-- The search uses the true lengths. -/
theorem problem_len {E : Env} (hg : UserGraph E.graph) {c : Correction} {N : Net}
    {vs : Finset Coord} (h : NetOk E c N vs) (w : ℝ) (limit : Option ℝ) {u v : Coord}
    (huv : RouteEdge E c u v) :
    (problem (exactArith w limit) E.ord N c.src c.dst).len u v = legLength E u v := by
  obtain ⟨m, h1, h2⟩ := h.crossing u v huv
  rw [legLength_symm hg]
  have h3 : CrossesMeridian E u v ↔ CrossesMeridian E v u :=
    ⟨fun h => h.symm hg, fun h => h.symm hg⟩
  have : (problem (exactArith w limit) E.ord N c.src c.dst).len u v =
      distance (exactArith w limit) v u m := by
    simp only [problem, h1]
    rfl
  rw [this, exact_distance]
  unfold legLength
  cases m with
  | true => rw [if_pos rfl, if_pos (h3.1 (h2.1 rfl))]
  | false => rw [if_neg (by simp), if_neg (fun h' => by simpa using h2.2 (h3.2 h'))]

theorem walkLength_congr {V : Type} {R : V → V → Prop} {f g : V → V → ℝ}
    (h : ∀ u v, R u v → f u v = g u v) (l : List V) (hl : l.IsChain R) :
    walkLength f l = walkLength g l := by
  induction l with
  | nil => rfl
  | cons a r ih =>
    cases r with
    | nil => rfl
    | cons b t =>
      rw [List.isChain_cons_cons] at hl
      simp only [walkLength]
      rw [h a b hl.1, ih hl.2]

theorem problem_real {N : Net} (ord : List (Coord × Info) → List (Coord × Info)) (src dst : Coord)
    (w : ℝ) (limit : Option ℝ) :
    AStar.IsReal (problem (exactArith w limit) ord N src dst) (fun v => wrapDist v dst) w := by
  refine ⟨fun _ _ => rfl, rfl, fun d v => ?_, fun u v => ?_⟩
  · simp only [problem, exact_heuristic]
    rfl
  · obtain ⟨c, hc⟩ := distance_mag (exactArith w limit) v u ((N.isCrossing u v).toOption.getD false)
    change 0 ≤ distance (exactArith w limit) v u ((N.isCrossing u v).toOption.getD false)
    rw [hc]
    simp only [exactArith]
    positivity

/-- The first and last of a walk. -/
theorem isWalk_cons {V : Type} {R : V → V → Prop} {a b : V} {l : List V} :
    IsWalk R a b l ↔ ∃ r, l = a :: r ∧ r.getLastD a = b ∧ (a :: r).IsChain R := by
  unfold IsWalk
  cases l with
  | nil => simp
  | cons x r =>
    simp only [List.head?_cons, Option.some.injEq, List.cons.injEq, List.getLast?_cons,
      List.getLastD_eq_getLast?]
    constructor
    · rintro ⟨rfl, h2, h3⟩
      exact ⟨r, ⟨rfl, rfl⟩, h2, h3⟩
    · rintro ⟨r', ⟨rfl, rfl⟩, h2, h3⟩
      exact ⟨rfl, h2, h3⟩

end ShortestPath

end Capi
