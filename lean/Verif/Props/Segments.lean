import Verif.Lemmas.Segments
import Verif.Lemmas.ShortestPath
import Verif.Props.Vistree

/-!
# C83: what the generator built from segments does

`VistreeGenerator` can also be built from a list of segments.  The incident segments of a vertex
are then kept in the order of the list, while the check at the observer's own corner expects the
incoming edge first and the outgoing edge second.
-/

namespace Capi

open Vistree Polygon ShortestPath AngleSorter

/-- The entry of `v` is the list of the segments with an end at `v`, in the order given; the
other points have none. -/
theorem C83_incident (ss : List Seg) (v : Coord) :
    Assoc.get (ofSegments ss) v =
      if touching ss v = [] then none else some (touching ss v) := by
  induction ss using List.reverseRecOn generalizing v with
  | nil => simp [ofSegments, touching, Assoc.get]
  | append_singleton l s ih =>
    have e : ofSegments (l ++ [s]) =
        (fun m s =>
          let m1 := match Assoc.get m s.p with
            | none => Assoc.set m s.p []
            | some _ => m
          let m2 := match Assoc.get m1 s.q with
            | none => Assoc.set m1 s.q []
            | some _ => m1
          let m3 := Assoc.set m2 s.p ((Assoc.get m2 s.p).getD [] ++ [s])
          Assoc.set m3 s.q ((Assoc.get m3 s.q).getD [] ++ [s])) (ofSegments l) s := by
      unfold ofSegments; rw [List.foldl_append]; rfl
    generalize ofSegments l = m at e ih
    have h1 : ∀ w, (Assoc.get (match Assoc.get m s.p with
        | none => Assoc.set m s.p []
        | some _ => m) w) = if s.p = w ∧ Assoc.get m w = none then some [] else Assoc.get m w := by
      intro w
      cases hp : Assoc.get m s.p with
      | none =>
        simp only [Assoc.get_set]
        by_cases h : s.p = w
        · subst h; simp [hp]
        · simp [h]
      | some x =>
        by_cases h : s.p = w
        · subst h; simp [hp]
        · simp [h]
    generalize hm1 : (match Assoc.get m s.p with
        | none => Assoc.set m s.p []
        | some _ => m) = m1 at h1
    have h2 : ∀ w, (Assoc.get (match Assoc.get m1 s.q with
        | none => Assoc.set m1 s.q []
        | some _ => m1) w) =
          if s.q = w ∧ Assoc.get m1 w = none then some [] else Assoc.get m1 w := by
      intro w
      cases hp : Assoc.get m1 s.q with
      | none =>
        simp only [Assoc.get_set]
        by_cases h : s.q = w
        · subst h; simp [hp]
        · simp [h]
      | some x =>
        by_cases h : s.q = w
        · subst h; simp [hp]
        · simp [h]
    generalize hm2 : (match Assoc.get m1 s.q with
        | none => Assoc.set m1 s.q []
        | some _ => m1) = m2 at h2
    have e' : ofSegments (l ++ [s]) =
        Assoc.set (Assoc.set m2 s.p ((Assoc.get m2 s.p).getD [] ++ [s])) s.q
          ((Assoc.get (Assoc.set m2 s.p ((Assoc.get m2 s.p).getD [] ++ [s])) s.q).getD [] ++ [s]) := by
      rw [e]; simp only []; rw [hm1, hm2]
    have g : ∀ w, (Assoc.get m2 w).getD [] = touching l w := by
      intro w
      rw [h2, h1, ih]
      by_cases ht : touching l w = []
      · simp only [ht, if_true]
        split_ifs <;> rfl
      · simp [ht]
    rw [e', touching_append]
    have ts : touching [s] v =
        (if s.p = v then [s] else []) ++ (if s.q = v then [s] else []) := by simp [touching]
    rw [Assoc.get_set, Assoc.get_set, Assoc.get_set, ts, g]
    by_cases hq : s.q = v
    · by_cases hp : s.p = s.q
      · simp [hq, hp]
      · have hp' : ¬ s.p = v := fun h => hp (h.trans hq.symm)
        simp [hq, hp', g]
    · by_cases hp : s.p = v
      · subst hp; simp [hq]
      · simp [hq, hp, h2, h1, ih]

example : Assoc.get (ofSegments [⟨⟨0, 0⟩, ⟨4, 0⟩⟩, ⟨⟨4, 0⟩, ⟨4, 4⟩⟩, ⟨⟨9, 9⟩, ⟨4, 0⟩⟩]) ⟨4, 0⟩ =
    some [⟨⟨0, 0⟩, ⟨4, 0⟩⟩, ⟨⟨4, 0⟩, ⟨4, 4⟩⟩, ⟨⟨9, 9⟩, ⟨4, 0⟩⟩] := by decide

/-- False: the generator built from the edges of polygons keeps every corner from looking through
its own polygon.  In whatever order the edges are given, every polygon has a corner where the check
hides nothing at all: the one where the first of its edges starts. -/
theorem C83_unguarded_false {ps : List (List Coord)} (hps : Simple ps) {p : List Coord}
    (hp : p ∈ ps) {ss : List Seg}
    (hss : ss.Perm (ps.flatMap Polygon.segments)) :
    ∃ v ∈ p, (Assoc.get (ofSegments ss) v).isSome ∧
      ∀ c, barrier (ofSegments ss) v c = true := by
  have hn := hps.nodup
  have h2 : 2 ≤ p.length := le_trans (by omega) (hps.len p hp)
  have hex : ∃ s ∈ ss, s ∈ Polygon.segments p := by
    have : (⟨ringAt p 0, ringAt p 1⟩ : Seg) ∈ Polygon.segments p :=
      List.mem_map.2 ⟨0, List.mem_range.2 (by omega), rfl⟩
    exact ⟨_, hss.mem_iff.2 (List.mem_flatMap.2 ⟨p, hp, this⟩), this⟩
  obtain ⟨l, s, r, rfl, hs, hl⟩ : ∃ l s r, ss = l ++ s :: r ∧ s ∈ Polygon.segments p ∧
      ∀ t ∈ l, t ∉ Polygon.segments p := by
    clear hss
    induction ss with
    | nil => simp at hex
    | cons t u ih =>
      by_cases ht : t ∈ Polygon.segments p
      · exact ⟨[], t, u, rfl, ht, by simp⟩
      · obtain ⟨x, hx, hxp⟩ := hex
        have : x ∈ u := by
          rcases List.mem_cons.1 hx with rfl | h
          · exact absurd hxp ht
          · exact h
        obtain ⟨l, s, r, rfl, h1, h3⟩ := ih ⟨x, this, hxp⟩
        refine ⟨t :: l, s, r, rfl, h1, ?_⟩
        intro y hy
        rcases List.mem_cons.1 hy with rfl | hy
        · exact ht
        · exact h3 y hy
  obtain ⟨i, hi, rfl⟩ := List.mem_map.1 hs
  rw [List.mem_range] at hi
  have hv : ringAt p i ∈ p := Vistree.ringAt_mem (by omega)
  have hnp : p.Nodup := (List.nodup_flatten.1 hn).1 p hp
  have hin : ∀ t ∈ touching l (ringAt p i), False := by
    intro t ht
    have h1 : t ∈ l := by
      unfold touching at ht
      obtain ⟨x, hx, h⟩ := List.mem_flatMap.1 ht
      have : t = x := by
        rcases List.mem_append.1 h with h | h <;> · split_ifs at h <;> simp_all
      exact this ▸ hx
    have h3 : t ∈ touching (l ++ ⟨ringAt p i, ringAt p (i + 1)⟩ :: r) (ringAt p i) := by
      rw [touching_append]; exact List.mem_append_left _ ht
    have h4 := (rings_touching hn hp h2 hi hss).mem_iff.1 h3
    have h5 : t ∈ touching (Polygon.segments p) (ringAt p i) :=
      (ring_touching hnp h2 hi).mem_iff.2 h4
    rw [touching_filter (ring_seg_ne hnp h2)] at h5
    exact hl t h1 (List.mem_filter.1 h5).1
  have hl0 : touching l (ringAt p i) = [] := List.eq_nil_iff_forall_not_mem.2 hin
  have hT := rings_touching hn hp h2 hi hss
  rw [touching_append, hl0, List.nil_append, touching_cons] at hT
  have ho : touching [(⟨ringAt p i, ringAt p (i + 1)⟩ : Seg)] (ringAt p i) =
      [⟨ringAt p i, ringAt p (i + 1)⟩] := by
    simp [touching, (seg_ne hnp h2 hi).symm]
  rw [ho] at hT
  have hT' := (List.perm_cons _).1 (hT.trans (List.Perm.swap _ _ _))
  rw [List.perm_singleton] at hT'
  change touching r (ringAt p i) = _ at hT'
  have hget : Assoc.get (ofSegments (l ++ ⟨ringAt p i, ringAt p (i + 1)⟩ :: r)) (ringAt p i) =
      some [⟨ringAt p i, ringAt p (i + 1)⟩, ⟨ringAt p (i + p.length - 1), ringAt p i⟩] := by
    rw [C83_incident, touching_append, hl0, touching_cons, ho, hT']
    rfl
  refine ⟨ringAt p i, hv, by rw [hget]; rfl, fun c => ?_⟩
  unfold barrier
  rw [hget]
  exact visible_fold _ _ _

/-- Where the incoming edge is given before the outgoing one, the corner has the same entry as in
the generator built from the polygons, and so hides the same. -/
theorem C83_guarded_partial {ps : List (List Coord)} (hps : Simple ps) {ss : List Seg}
    (hss : ss.Perm (ps.flatMap Polygon.segments)) {a v b : Coord} (hc : CornerOf ps a v b)
    (ho : List.Sublist [⟨a, v⟩, ⟨v, b⟩] ss) :
    Assoc.get (ofSegments ss) v = Assoc.get (ofPolygons ps) v ∧
      ∀ c, barrier (ofSegments ss) v c = barrier (ofPolygons ps) v c := by
  have e : Assoc.get (ofSegments ss) v = Assoc.get (ofPolygons ps) v := by
    obtain ⟨a', b', hc', hg⟩ := MapOf.get (ps := ps) ⟨List.Perm.refl _⟩ (corner_mem hc).2.1
    obtain ⟨rfl, rfl⟩ := hps.corner_unique hc hc'
    obtain ⟨p, hp, i, hi, rfl, rfl, rfl⟩ := hc
    have h2 : 2 ≤ p.length := le_trans (by omega) (hps.len p hp)
    have hT := rings_touching hps.nodup hp h2 hi hss
    have hne : ∀ s ∈ ss, s.p ≠ s.q := by
      intro s hs
      obtain ⟨q, hq, hs⟩ := List.mem_flatMap.1 (hss.mem_iff.1 hs)
      exact ring_seg_ne (hps.poly hq) (le_trans (by omega) (hps.len q hq)) s hs
    have hsub := ho.filter fun s => decide (s.p = ringAt p i) || decide (s.q = ringAt p i)
    rw [← touching_filter hne] at hsub
    simp only [decide_true, Bool.or_true, Bool.true_or, List.filter_cons_of_pos,
      List.filter_nil] at hsub
    have hT2 := hsub.eq_of_length (by simpa using hT.length_eq.symm)
    rw [C83_incident, hg, ← hT2]
    rfl
  exact ⟨e, fun c => by unfold barrier; rw [e]⟩

/-- Given in the order in which a polygon lists its edges, all corners but the first are as in
the generator built from the polygon. -/
theorem C83_listed {p : List Coord} (hps : Simple [p]) {i : ℕ} (h0 : 0 < i) (hi : i < p.length) :
    Assoc.get (ofSegments (Polygon.segments p)) (ringAt p i) =
      Assoc.get (ofPolygons [p]) (ringAt p i) := by
  refine (C83_guarded_partial hps (by simp) (a := ringAt p (i + p.length - 1))
    (b := ringAt p (i + 1)) ⟨p, by simp, i, hi, rfl, rfl, rfl⟩ ?_).1
  have e1 : ringAt p (i + p.length - 1) = ringAt p (i - 1) := by
    unfold ringAt
    rw [show i + p.length - 1 = (i - 1) + p.length by omega, Nat.add_mod_right]
  have h : List.Sublist [i - 1, i] (List.range p.length) := by
    obtain ⟨k, rfl⟩ : ∃ k, i = k + 1 := ⟨i - 1, by omega⟩
    refine List.Sublist.trans ?_ (List.range_sublist.2 (show k + 1 + 1 ≤ p.length by omega))
    rw [List.range_succ, List.range_succ, List.append_assoc]
    exact List.sublist_append_right _ _
  have := h.map fun i => (⟨ringAt p i, ringAt p (i + 1)⟩ : Seg)
  simpa [Polygon.segments, e1, Nat.sub_add_cancel h0] using this

/-- The generator built from segments knows exactly the ends of the segments, each once: the scan
over all vertices and the scan over all segments as candidates get the same vertices. -/
theorem C83_vertices (ss : List Seg) : (vertices (ofSegments ss)).Perm (segVertices ss) := by
  have hn : (vertices (ofSegments ss)).Nodup := by
    unfold vertices ofSegments
    refine List.foldlRecOn (motive := fun m : VisMap => (m.map Prod.fst).Nodup) ss _ (by simp) ?_
    intro m hm s _
    refine Assoc.keys_set _ _ _ (Assoc.keys_set _ _ _ ?_)
    have h1 : ((match Assoc.get m s.p with
        | none => Assoc.set m s.p []
        | some _ => m).map Prod.fst).Nodup := by
      split
      · exact Assoc.keys_set _ _ _ hm
      · exact hm
    split
    · exact Assoc.keys_set _ _ _ h1
    · exact h1
  refine (List.perm_ext_iff_of_nodup hn (List.nodup_dedup _)).2 fun v => ?_
  have hg := C83_incident ss v
  have h1 : v ∈ vertices (ofSegments ss) ↔ touching ss v ≠ [] := by
    rw [← not_iff_not, not_not]
    change v ∉ (ofSegments ss).map Prod.fst ↔ _
    rw [← Assoc.get_eq_none, hg]
    split_ifs with h <;> simp [h]
  rw [h1, List.mem_dedup, List.mem_flatMap, ne_eq, touching,
    List.flatMap_eq_nil_iff]
  push Not
  refine exists_congr fun s => and_congr_right fun _ => ?_
  rw [List.mem_cons, List.mem_singleton, @eq_comm _ v, @eq_comm _ v]
  by_cases hp : s.p = v <;> by_cases hq : s.q = v <;> simp [hp, hq]

example : segVertices [⟨⟨0, 0⟩, ⟨4, 0⟩⟩, ⟨⟨4, 0⟩, ⟨4, 4⟩⟩] = [⟨0, 0⟩, ⟨4, 0⟩, ⟨4, 4⟩] := by decide

/-- A candidate segment with an end that the generator does not know makes a full scan fail. -/
theorem C83_unknown {m : VisMap} (hm : m ≠ []) {obs : Coord} {segs : List Seg} {t : Seg}
    (ht : t ∈ segs) {v : Coord} (hv : v = t.p ∨ v = t.q) (hne : v ≠ obs)
    (hk : v ∉ vertices m) (look : Seg → Seg → Bool) (r : List (Coord × Bool)) :
    candidatesC look m obs segs false ≠ .ok r := by
  have hg : Assoc.get m v = none := (Assoc.get_eq_none _ _).2 hk
  have key : ∀ (l : List Coord) (o : OpenEdges), v ∈ l →
      ∀ r, loopC look m obs false l o ≠ .ok r := by
    intro l
    induction l with
    | nil => simp
    | cons x u ih =>
      intro o hl r
      unfold loopC
      by_cases hx : obs = x
      · rw [if_pos hx]
        refine ih o ?_ r
        rcases List.mem_cons.1 hl with rfl | hl
        · exact absurd hx.symm hne
        · exact hl
      · rw [if_neg hx]
        intro hr
        simp only [beyondC, Bool.false_eq_true, if_false, Res.bind_ok] at hr
        split at hr
        · exact absurd hr (by simp)
        · rename_i hs
          have hl : v ∈ u := by
            rcases List.mem_cons.1 hl with rfl | hl
            · rw [hg] at hs; cases hs
            · exact hl
          obtain ⟨cw, -, hr⟩ := bind_eq_ok hr
          obtain ⟨ccw, -, hr⟩ := bind_eq_ok hr
          obtain ⟨b, -, hr⟩ := bind_eq_ok hr
          obtain ⟨w, -, hr⟩ := bind_eq_ok hr
          obtain ⟨o2, -, hr⟩ := bind_eq_ok hr
          obtain ⟨rest, hrest, -⟩ := bind_eq_ok hr
          exact ih o2 hl rest hrest
  intro hr
  unfold candidatesC scanC at hr
  rw [if_neg (by simpa using hm)] at hr
  obtain ⟨vs, hvs, hr⟩ := bind_eq_ok hr
  obtain ⟨_, -, hr⟩ := bind_eq_ok hr
  obtain ⟨o, -, hr⟩ := bind_eq_ok hr
  refine key vs o ?_ r hr
  unfold sortC at hvs
  split_ifs at hvs
  injection hvs with hvs
  rw [← hvs]
  refine (sort_perm obs _).mem_iff.2 (List.mem_dedup.2 (List.mem_flatMap.2 ⟨t, ht, ?_⟩))
  rcases hv with rfl | rfl <;> simp

example : (⟨7, 7⟩ : Coord) ∉ vertices (ofSegments [⟨⟨0, 0⟩, ⟨10, 0⟩⟩]) := by decide

/-- False: a scan from the end of a wall works.  At a point where only one segment ends, the check
at the observer's own corner reads past the end of a vector. -/
theorem C83_end_false {ss : List Seg} {obs : Coord} {s : Seg} (h : touching ss obs = [s])
    (look : Seg → Seg → Bool) {verts : List Coord} {v : Coord} (hv : v ∈ verts) (hne : v ≠ obs)
    (segs : List Seg) (r : List (Coord × Bool)) :
    scanC look (ofSegments ss) obs verts segs false ≠ .ok r := by
  have hg : Assoc.get (ofSegments ss) obs = some [s] := by
    rw [C83_incident, h]; rfl
  have hm : (ofSegments ss).isEmpty = false := by
    cases hm : ofSegments ss with
    | nil => rw [hm] at hg; simp [Assoc.get] at hg
    | cons _ _ => rfl
  have key : ∀ (l : List Coord) (o : OpenEdges), v ∈ l →
      ∀ r, loopC look (ofSegments ss) obs false l o ≠ .ok r := by
    intro l
    induction l with
    | nil => simp
    | cons x u ih =>
      intro o hl r
      unfold loopC
      by_cases hx : obs = x
      · rw [if_pos hx]
        refine ih o ?_ r
        rcases List.mem_cons.1 hl with rfl | hl
        · exact absurd hx.symm hne
        · exact hl
      · rw [if_neg hx]
        intro hr
        simp only [beyondC, Bool.false_eq_true, if_false, Res.bind_ok] at hr
        split at hr
        · exact absurd hr (by simp)
        · obtain ⟨cw, -, hr⟩ := bind_eq_ok hr
          obtain ⟨ccw, -, hr⟩ := bind_eq_ok hr
          obtain ⟨b, hb, hr⟩ := bind_eq_ok hr
          unfold isVisibleC at hb
          rw [if_neg fun h => hx h.symm] at hb
          obtain ⟨b', hb', hb⟩ := bind_eq_ok hb
          unfold barrierC at hb'
          rw [hg] at hb'
          exact absurd hb' (by simp)
  intro hr
  unfold scanC at hr
  rw [hm] at hr
  obtain ⟨vs, hvs, hr⟩ := bind_eq_ok hr
  obtain ⟨_, -, hr⟩ := bind_eq_ok hr
  obtain ⟨o, -, hr⟩ := bind_eq_ok hr
  refine key vs o ?_ r hr
  unfold sortC at hvs
  split_ifs at hvs
  injection hvs with hvs
  rw [← hvs]
  exact (sort_perm obs verts).mem_iff.2 hv

example : touching [⟨⟨0, 0⟩, ⟨10, 0⟩⟩] ⟨0, 0⟩ = [⟨⟨0, 0⟩, ⟨10, 0⟩⟩] := by decide

/-- A square, counter-clockwise. -/
def exSquareRing : List Coord := [⟨0, 0⟩, ⟨10, 0⟩, ⟨10, 10⟩, ⟨0, 10⟩]

theorem exSquareRing_simple : Simple [exSquareRing] :=
  ⟨by decide, by simp [exSquareRing]⟩

/-- The first corner of a square sees the opposite one through the interior if the generator is
built from the edges, and does not if it is built from the polygon. -/
theorem C83_through_false :
    scanC exLook (ofSegments (Polygon.segments exSquareRing)) ⟨0, 0⟩ exSquareRing
        (Polygon.segments exSquareRing) false =
      .ok [(⟨10, 0⟩, false), (⟨10, 10⟩, false), (⟨0, 10⟩, false)] ∧
    scanC exLook (ofPolygons [exSquareRing]) ⟨0, 0⟩ exSquareRing
        (segments (ofPolygons [exSquareRing])) false =
      .ok [(⟨10, 0⟩, false), (⟨0, 10⟩, false)] := by
  constructor <;> decide +kernel

example : ∃ v ∈ exSquareRing, (Assoc.get (ofSegments (Polygon.segments exSquareRing)) v).isSome ∧
    ∀ c, barrier (ofSegments (Polygon.segments exSquareRing)) v c = true :=
  C83_unguarded_false exSquareRing_simple (by simp) (by simp)

example : Assoc.get (ofSegments (Polygon.segments exSquareRing)) ⟨10, 0⟩ =
    some [⟨⟨0, 0⟩, ⟨10, 0⟩⟩, ⟨⟨10, 0⟩, ⟨10, 10⟩⟩] := by decide

/-- The segments of the ring in another order, with the corner `(10, 10)` still in order. -/
example : ∀ c, barrier (ofSegments [⟨⟨10, 0⟩, ⟨10, 10⟩⟩, ⟨⟨0, 0⟩, ⟨10, 0⟩⟩, ⟨⟨10, 10⟩, ⟨0, 10⟩⟩,
    ⟨⟨0, 10⟩, ⟨0, 0⟩⟩]) ⟨10, 10⟩ c = barrier (ofPolygons [exSquareRing]) ⟨10, 10⟩ c :=
  (C83_guarded_partial exSquareRing_simple (ss := [⟨⟨10, 0⟩, ⟨10, 10⟩⟩, ⟨⟨0, 0⟩, ⟨10, 0⟩⟩,
    ⟨⟨10, 10⟩, ⟨0, 10⟩⟩, ⟨⟨0, 10⟩, ⟨0, 0⟩⟩]) (by decide)
    (show CornerOf [exSquareRing] ⟨10, 0⟩ ⟨10, 10⟩ ⟨0, 10⟩ from
      ⟨exSquareRing, by simp, 2, by decide, rfl, rfl, rfl⟩) (by decide)).2

example : Assoc.get (ofSegments (Polygon.segments exSquareRing)) ⟨10, 10⟩ =
    Assoc.get (ofPolygons [exSquareRing]) ⟨10, 10⟩ :=
  C83_listed exSquareRing_simple (i := 2) (by decide) (by decide)

end Capi
