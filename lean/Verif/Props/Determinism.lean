import Verif.Lemmas.Determinism
import Verif.Lemmas.OrderlyCheck
import Verif.Props.Segment
import Verif.Props.Arithmetic
import Verif.Props.Angle
import Verif.Props.Visgraph
import Verif.Props.Disk

/-!
# When the graph does not depend on the order of containers (C39, C40)
-/

namespace Capi

open Vistree Visgraph

/-- No polygon goes along one of its edges in both directions. -/
def OneWay (ps : List (List Coord)) : Prop :=
  ∀ p ∈ ps, ∀ a b, a ≠ b → EdgeOf [p] ⟨a, b⟩ → ¬ EdgeOf [p] ⟨b, a⟩

/-- The edge crosses the latitude of `obs` east of `obs`, at the longitude `x`, with both ends
off that latitude. -/
def PassesEast (obs : Coord) (e : Seg) (x : ℚ) : Prop :=
  OnSeg e x obs.lat ∧ (obs.lon : ℚ) ≤ x ∧ e.p.lat ≠ obs.lat ∧ e.q.lat ≠ obs.lat

/-- Edges that do not have the same ends cross the latitude of `obs` east of it more than a
microdegree apart. -/
def CrossApart (ps : List (List Coord)) (obs : Coord) : Prop :=
  ∀ e e', EdgeOf ps e → EdgeOf ps e' → e ≠ e' → e ≠ ⟨e'.q, e'.p⟩ → ∀ x x', PassesEast obs e x →
    PassesEast obs e' x' → 1 + 1 / 100000 ≤ |x - x'|

/-- Of a vertex shared by several polygons the map keeps the edges of the last one. -/
theorem addPolygon_entries (q : List Coord) (m : VisMap) (hn : (m.map Prod.fst).Nodup)
    (is : List ℕ) (hi : ∀ i ∈ is, i < q.length) :
    let m' := is.foldl (fun m i => Assoc.set m (ringAt q i)
      [⟨ringAt q (i + q.length - 1), ringAt q i⟩, ⟨ringAt q i, ringAt q (i + 1)⟩]) m
    (m'.map Prod.fst).Nodup ∧
      ∀ e ∈ m', CornerEntry [q] e ∨ (e ∈ m ∧ ∀ i ∈ is, e.1 ≠ ringAt q i) := by
  induction is generalizing m with
  | nil => exact ⟨hn, fun e he => Or.inr ⟨he, by simp⟩⟩
  | cons i r ih =>
    have h1 := Assoc.keys_set m (ringAt q i)
      [⟨ringAt q (i + q.length - 1), ringAt q i⟩, ⟨ringAt q i, ringAt q (i + 1)⟩] hn
    obtain ⟨a1, a2⟩ := ih _ h1 fun j hj => hi j (by simp [hj])
    refine ⟨a1, fun e he => ?_⟩
    rcases a2 e he with hc | ⟨hm, hr⟩
    · exact Or.inl hc
    · have hg := (Assoc.get_eq_some _ e.1 e.2 h1).2 hm
      rw [Assoc.get_set] at hg
      by_cases hk : ringAt q i = e.1
      · left
        rw [if_pos hk] at hg
        refine ⟨_, _, ⟨q, by simp, i, hi i (by simp), rfl, hk.symm, rfl⟩, ?_⟩
        rw [← hk]
        exact (Option.some.inj hg).symm
      · right
        rw [if_neg hk] at hg
        refine ⟨(Assoc.get_eq_some _ e.1 e.2 hn).1 hg, fun j hj => ?_⟩
        rcases List.mem_cons.1 hj with rfl | hj
        · exact fun h => hk h.symm
        · exact hr j hj

/-- The end of a stored edge under which it is stored. -/
theorem stored_at {ps : List (List Coord)} {e : Coord × List Seg} (h : CornerEntry ps e) {s : Seg}
    (hs : s ∈ e.2) : EdgeOf ps s ∧ (e.1 = s.p ∨ e.1 = s.q) := by
  obtain ⟨a, b, hc, h2⟩ := h
  rw [h2] at hs
  rcases List.mem_cons.1 hs with rfl | hs
  · exact ⟨(corner_edges hc).1, Or.inr rfl⟩
  · rw [List.mem_singleton] at hs
    subst hs
    exact ⟨(corner_edges hc).2, Or.inl rfl⟩

/-- If an edge is stored in both directions, both are edges of one polygon. -/
theorem stored_both (ps : List (List Coord)) (s : Seg) :
    s ∈ segments (ofPolygons ps) → ⟨s.q, s.p⟩ ∈ segments (ofPolygons ps) →
      ∃ p ∈ ps, EdgeOf [p] s ∧ EdgeOf [p] ⟨s.q, s.p⟩ := by
  induction ps using List.reverseRecOn with
  | nil => intro h; simp [segments, ofPolygons] at h
  | append_singleton ps q ih =>
    intro h1 h2
    have e : ofPolygons (ps ++ [q]) = addPolygon (ofPolygons ps) q := by
      unfold ofPolygons
      rw [List.foldl_append]
      rfl
    have key := (addPolygon_entries q (ofPolygons ps) (ofPolygons_facts ps).1
      (List.range q.length) (fun i hi => List.mem_range.1 hi)).2
    rw [e] at h1 h2
    obtain ⟨x, hx, hsx⟩ := List.mem_flatMap.1 h1
    obtain ⟨y, hy, hsy⟩ := List.mem_flatMap.1 h2
    have clash : ∀ {x y : Coord × List Seg} {t u : Seg}, CornerEntry [q] x → t ∈ x.2 →
        CornerEntry ps y → u ∈ y.2 → (u.p = t.p ∨ u.p = t.q) → (u.q = t.p ∨ u.q = t.q) →
        (∀ i ∈ List.range q.length, y.1 ≠ ringAt q i) → False := by
      intro x y t u hx ht hy hu hup huq hno
      have hm := edge_mem (stored_at hx ht).1
      simp only [List.flatten_cons, List.flatten_nil, List.append_nil] at hm
      have hyq : y.1 ∈ q := by
        rcases (stored_at hy hu).2 with h | h <;> rw [h]
        · rcases hup with h | h <;> rw [h]
          exacts [hm.1, hm.2]
        · rcases huq with h | h <;> rw [h]
          exacts [hm.1, hm.2]
      obtain ⟨i, hi, he⟩ := mem_ringAt hyq
      exact hno i (List.mem_range.2 hi) he
    have old := (ofPolygons_facts ps).2.1
    rcases key x hx with cx | ⟨mx, nx⟩ <;> rcases key y hy with cy | ⟨my, ny⟩
    · exact ⟨q, by simp, (stored_at cx hsx).1, (stored_at cy hsy).1⟩
    · exact (clash cx hsx (old y my) hsy (Or.inr rfl) (Or.inl rfl) ny).elim
    · exact (clash cy hsy (old x mx) hsx (Or.inr rfl) (Or.inl rfl) nx).elim
    · obtain ⟨p, hp, r⟩ := ih (List.mem_flatMap.2 ⟨x, mx, hsx⟩) (List.mem_flatMap.2 ⟨y, my, hsy⟩)
      exact ⟨p, by simp [hp], r⟩

theorem stored_oneWay {ps : List (List Coord)} (h1 : OneWay ps) {m : VisMap} (h : MapOf ps m)
    {s t : Seg} (hs : s ∈ segments m) (ht : t ∈ segments m) (e : s = ⟨t.q, t.p⟩) : s = t := by
  have hm : ∀ s, s ∈ segments m ↔ s ∈ segments (ofPolygons ps) := by
    intro s
    unfold segments
    simp only [List.mem_flatMap, h.perm.mem_iff]
  rw [hm] at hs ht
  rw [e] at hs
  obtain ⟨p, hp, r1, r2⟩ := stored_both ps t ht hs
  obtain ⟨a, b⟩ := t
  by_cases hab : a = b
  · rw [e, hab]
  · exact absurd r2 (h1 p hp a b hab r1)

theorem lookEq_of {ps : List (List Coord)} (h1 : OneWay ps) {m : VisMap} (h : MapOf ps m)
    {look : Seg → Seg → Bool} (hl : LookOk look) : LookEq look (· ∈ segments m) := by
  intro s t hs ht
  constructor
  · intro hst
    have := hl.2 s t hst
    unfold Seg.sameAs at this
    simp only [Bool.or_eq_true, Bool.and_eq_true, beq_iff_eq] at this
    rcases this with ⟨a, b⟩ | ⟨a, b⟩
    · obtain ⟨p, q⟩ := s
      obtain ⟨p', q'⟩ := t
      simp only at a b
      rw [a, b]
    · refine stored_oneWay h1 h hs ht ?_
      rw [← a, ← b]
  · rintro rfl
    exact hl.1 s

/-- A segment is filed under the squared distance to a point close to where it crosses the
latitude of the observer. -/
theorem startKey_close {obs : Coord} (ho : obs.Per) {s : Seg} (hp : s.p.Per) (hq : s.q.Per) {k : ℤ}
    (h : startKey obs s = some k) :
    ∃ (x : ℚ) (d : ℤ), PassesEast obs s x ∧ 0 ≤ d ∧ k = d * d ∧
      |(obs.lon + d : ℚ) - x| ≤ 1 / 2 + 1 / 1000000 := by
  have hsp : (⟨maxPeriodicLon, obs.lat⟩ : Coord).Per := scanline_per ho
  have hwf : ∀ {c : Coord}, c.Per → c.Wf := fun hc => hc.wf
  unfold startKey at h
  by_cases h0 : obs = s.p ∨ obs = s.q
  · rw [if_pos h0] at h; simp at h
  rw [if_neg h0] at h
  push Not at h0
  cases hi : s.intersect (initialScanline obs) with
  | none => rw [hi] at h; simp at h
  | some r =>
    rw [hi] at h
    simp only at h
    split_ifs at h with hends
    simp only [Bool.and_eq_true, Bool.not_eq_true'] at hends
    have hk := Option.some.inj h
    have off : ∀ c : Coord, c.Per → (initialScanline obs).onSegment c = false →
        ¬ (OnSeg (initialScanline obs) c.lon c.lat) := by
      intro c hc hf hon
      rw [(onSegment_iff (hwf ho) (hwf hsp) (hwf hc)).2 hon] at hf
      simp at hf
    have e1 := off _ hp hends.1
    have e2 := off _ hq hends.2
    have far : OnSeg (initialScanline obs) (maxPeriodicLon : ℤ) obs.lat :=
      ⟨1, by norm_num, le_refl _, by simp [initialScanline], by simp [initialScanline]⟩
    have hnp : NonParallel s (initialScanline obs) := by
      rw [nonParallel_iff]
      intro hD
      unfold Seg.intersect at hi
      rw [if_pos hD] at hi
      unfold Seg.sharedEndpoint at hi
      by_cases a : s.p = obs ∨ s.p = ⟨maxPeriodicLon, obs.lat⟩
      · rcases a with a | a
        · exact h0.1 a.symm
        · refine e1 ?_
          rw [a]
          exact far
      rw [if_neg (by exact a)] at hi
      by_cases b : s.q = obs ∨ s.q = ⟨maxPeriodicLon, obs.lat⟩
      · rcases b with b | b
        · exact h0.2 b.symm
        · refine e2 ?_
          rw [b]
          exact far
      rw [if_neg (by exact b)] at hi
      simp at hi
    obtain ⟨x, y, o1, o2, c1, c2⟩ := C07_accuracy s (initialScanline obs) hp hq ho hsp hnp r
      ((C03_predicates s (initialScanline obs) obs hp hq ho hsp ho).2.2.trans (by rw [hi]))
    have hlon : obs.lon < maxPeriodicLon := by
      rcases lt_or_ge obs.lon maxPeriodicLon with h | h
      · exact h
      · exfalso
        unfold NonParallel initialScanline at hnp
        have : obs.lon = maxPeriodicLon := by
          unfold Coord.Per at ho
          simp only [maxPeriodicLon, maxLon, period] at *
          omega
        simp [this] at hnp
    obtain ⟨rfl, hx1, hx2⟩ := (onScan_iff hlon).1 o2
    have hlat : r.lat = obs.lat := by
      have := abs_le.1 c2
      have a1 : ((r.lat - obs.lat : ℤ) : ℚ) < 1 := by push_cast; linarith [this.2]
      have a2 : (-1 : ℚ) < ((r.lat - obs.lat : ℤ) : ℚ) := by push_cast; linarith [this.1]
      have a1' : r.lat - obs.lat < 1 := by exact_mod_cast a1
      have a2' : -1 < r.lat - obs.lat := by exact_mod_cast a2
      omega
    have hge : obs.lon ≤ r.lon := by
      have := abs_le.1 c1
      have a1 : (-1 : ℚ) < ((r.lon - obs.lon : ℤ) : ℚ) := by push_cast; linarith [this.1]
      have a1' : -1 < r.lon - obs.lon := by exact_mod_cast a1
      omega
    have hne : ∀ c : Coord, (c = s.p ∨ c = s.q) → c.Per →
        ¬ (OnSeg (initialScanline obs) c.lon c.lat) → c.lat ≠ obs.lat := by
      intro c hc hper hoff hlc
      -- then the whole crossing is at `c`
      have hcl : ¬ (obs.lon : ℚ) ≤ c.lon := by
        intro hcl
        refine hoff ((onScan_iff hlon).2 ⟨by exact_mod_cast hlc, hcl, ?_⟩)
        unfold Coord.Per at hper
        have : c.lon ≤ maxPeriodicLon := by
          simp only [maxPeriodicLon, maxLon, period]
          omega
        exact_mod_cast this
      apply hcl
      have hxc : x = c.lon := by
        obtain ⟨t, t0, t1, q1, q2⟩ := o1
        have hlne : s.p.lat ≠ s.q.lat := by
          intro he
          unfold NonParallel initialScanline at hnp
          simp [he] at hnp
        have hlne' : ((s.q.lat : ℚ) - s.p.lat) ≠ 0 := by
          rw [sub_ne_zero]
          exact_mod_cast hlne.symm
        rcases hc with rfl | rfl
        · rw [hlc] at q2 hlne'
          have : t = 0 := by
            have h3 : t * ((s.q.lat : ℚ) - obs.lat) = 0 := by linarith
            exact (mul_eq_zero.1 h3).resolve_right hlne'
          rw [q1, this]
          ring
        · rw [hlc] at q2 hlne'
          have : t = 1 := by
            have h3 : (t - 1) * ((obs.lat : ℚ) - s.p.lat) = 0 := by linarith
            have := (mul_eq_zero.1 h3).resolve_right hlne'
            linarith
          rw [q1, this]
          ring
      rw [← hxc]
      exact hx1
    refine ⟨x, r.lon - obs.lon, ⟨o1, hx1, hne _ (Or.inl rfl) hp e1, hne _ (Or.inr rfl) hq e2⟩,
      by omega, ?_, ?_⟩
    · rw [← hk]
      simp only [Coord.magSq, Coord.sub, Coord.add, Coord.neg, hlat]
      ring
    · push_cast
      rw [show (obs.lon + ((r.lon : ℚ) - obs.lon)) - x = r.lon - x by ring]
      exact c1

theorem startKey_inj {ps : List (List Coord)} (hr : ∀ v ∈ ps.flatten, v.Per) {m : VisMap}
    (hM : MapOf ps m) (hw : OneWay ps) {obs : Coord}
    (ho : obs.Per) (ha : CrossApart ps obs) (s t : Seg) (k : ℤ) (hsm : s ∈ segments m)
    (htm : t ∈ segments m)
    (h1 : startKey obs s = some k) (h2 : startKey obs t = some k) : s = t := by
  by_contra hne
  have hs := hM.segs hsm
  have ht := hM.segs htm
  have ms := edge_mem hs
  have mt := edge_mem ht
  obtain ⟨x, d, p1, d1, k1, c1⟩ := startKey_close ho (hr _ ms.1) (hr _ ms.2) h1
  obtain ⟨x', d', p2, d2, k2, c2⟩ := startKey_close ho (hr _ mt.1) (hr _ mt.2) h2
  have hd : d = d' := by nlinarith
  subst hd
  have := ha s t hs ht hne (fun e => hne (stored_oneWay hw hM hsm htm e)) x x' p1 p2
  have c1 := abs_le.1 c1
  have c2 := abs_le.1 c2
  have : |x - x'| ≤ 1 + 2 / 1000000 := by
    rw [abs_le]
    constructor <;> linarith [c1.1, c1.2, c2.1, c2.2]
  linarith

theorem incident_stored {m : VisMap} (hn : (m.map Prod.fst).Nodup) {v : Coord} {s : Seg}
    (h : s ∈ incident m v) : s ∈ segments m := by
  unfold incident at h
  cases hg : Assoc.get m v with
  | none => rw [hg] at h; simp at h
  | some i =>
    rw [hg, Option.getD_some] at h
    exact List.mem_flatMap.2 ⟨(v, i), (Assoc.get_eq_some _ _ _ hn).1 hg, h⟩

/-- **C39** If no polygon goes along an edge in both directions and the edges to the east of the
observer are more than a microdegree apart there, a scan answers the same no matter how the containers are
ordered and which of the segments with equal ends a look-up finds. -/
theorem C39_scan (ps : List (List Coord)) (m m' : VisMap) (segs segs' : List Seg)
    (look look' : Seg → Seg → Bool) (h : Setup ps m segs look) (h' : Setup ps m' segs' look')
    (h1 : OneWay ps) (obs : Coord) (ho : obs.Per) (ha : CrossApart ps obs) (half : Bool) :
    visible look m segs obs half = visible look' m' segs' obs half := by
  have hmm : m'.Perm m := h'.map.trans h.map.symm
  have hseg : ∀ s, s ∈ segments m' ↔ s ∈ segments m := by
    intro s
    unfold segments
    simp only [List.mem_flatMap, hmm.mem_iff]
  have hl := lookEq_of h1 h.mapOf h.look
  have hl' : LookEq look' (· ∈ segments m) := fun s t hs ht =>
    lookEq_of h1 h'.mapOf h'.look s t ((hseg s).2 hs) ((hseg t).2 ht)
  have hget : ∀ v, Assoc.get m v = Assoc.get m' v := by
    intro v
    cases hg : Assoc.get m v with
    | none =>
      rw [Assoc.get_eq_none] at hg
      refine ((Assoc.get_eq_none _ _).2 ?_).symm
      rwa [(hmm.map Prod.fst).mem_iff]
    | some i =>
      rw [Assoc.get_eq_some _ _ _ h.mapOf.nodup] at hg
      refine ((Assoc.get_eq_some _ _ _ h'.mapOf.nodup).2 ?_).symm
      exact hmm.mem_iff.2 hg
  have hsegs : ∀ s, s ∈ segs ↔ s ∈ segs' := by
    intro s
    rw [h.segs.mem_iff, h'.segs.mem_iff, hseg]
  have hv : (vertices m').Perm (vertices m) := hmm.map _
  unfold visible scan scanRaw
  have hemp : m.isEmpty = m'.isEmpty := by
    rw [Bool.eq_iff_iff, List.isEmpty_iff, List.isEmpty_iff]
    constructor
    · rintro rfl; exact hmm.eq_nil
    · rintro rfl; exact hmm.symm.eq_nil
  rw [hemp]
  cases m'.isEmpty with
  | true => rfl
  | false =>
    simp only [Bool.false_eq_true, if_false]
    rw [C11_order_independent obs (vertices m) (vertices m') ho h.per h.mapOf.nodup hv]
    rw [loop_same hl hl' hget (fun v s hs => incident_stored h.mapOf.nodup hs) obs half _
      (SameOpen.start hl hl' (startKey_inj h.range h.mapOf h1 ho ha)
        (fun s hs => h.segs.mem_iff.1 hs) hsegs)]

/-! ### A way to check the condition -/

/-- Where the line through the edge crosses the latitude. -/
def crossAt (lat : ℤ) (e : Seg) : ℚ :=
  e.p.lon + (lat - e.p.lat : ℤ) * (e.q.lon - e.p.lon : ℤ) / (e.q.lat - e.p.lat : ℤ)

/-- The edge has an end on each side of the latitude. -/
def straddles (lat : ℤ) (e : Seg) : Bool :=
  (decide (e.p.lat < lat) && decide (lat < e.q.lat)) ||
    (decide (e.q.lat < lat) && decide (lat < e.p.lat))

theorem passesEast_cross {obs : Coord} {e : Seg} {x : ℚ} (h : PassesEast obs e x) :
    straddles obs.lat e = true ∧ x = crossAt obs.lat e := by
  obtain ⟨⟨t, t0, t1, hx, hy⟩, -, h1, h2⟩ := h
  have h1q : (e.p.lat : ℚ) ≠ obs.lat := by exact_mod_cast h1
  have h2q : (e.q.lat : ℚ) ≠ obs.lat := by exact_mod_cast h2
  have t0' : 0 < t := by
    refine lt_of_le_of_ne t0 fun h0 => h1q ?_
    rw [hy, ← h0]; ring
  have t1' : t < 1 := by
    refine lt_of_le_of_ne t1 fun h0 => h2q ?_
    rw [hy, h0]; ring
  have hst : straddles obs.lat e = true := by
    unfold straddles
    simp only [Bool.or_eq_true, Bool.and_eq_true, decide_eq_true_eq]
    rcases lt_or_ge (e.p.lat : ℚ) e.q.lat with hlt | hge
    · left
      have a : (e.p.lat : ℚ) < obs.lat := by nlinarith
      have b : (obs.lat : ℚ) < e.q.lat := by nlinarith
      exact ⟨by exact_mod_cast a, by exact_mod_cast b⟩
    · right
      have hgt : (e.q.lat : ℚ) < e.p.lat := by
        refine lt_of_le_of_ne hge fun h0 => h1q ?_
        rw [hy, h0]; ring
      have a : (obs.lat : ℚ) < e.p.lat := by nlinarith
      have b : (e.q.lat : ℚ) < obs.lat := by nlinarith
      exact ⟨by exact_mod_cast b, by exact_mod_cast a⟩
  refine ⟨hst, ?_⟩
  have hne : ((e.q.lat : ℚ) - e.p.lat) ≠ 0 := by
    intro h0
    apply h1q
    rw [hy, h0]; ring
  unfold crossAt
  push_cast
  rw [hx, hy]
  field_simp
  ring

/-- Whether the edges of a list cross the latitude of `obs` far enough from each other. -/
def apartB (es : List Seg) (obs : Coord) : Bool :=
  es.all fun e => !straddles obs.lat e || es.all fun e' => !straddles obs.lat e' ||
    decide (e = e') || decide (e = ⟨e'.q, e'.p⟩) || decide (crossAt obs.lat e < obs.lon) || decide (crossAt obs.lat e' < obs.lon) ||
    decide (1 + 1 / 100000 ≤ |crossAt obs.lat e - crossAt obs.lat e'|)

theorem apart_of {es : List Seg} {obs : Coord} (h : apartB es obs = true) :
    ∀ e ∈ es, ∀ e' ∈ es, e ≠ e' → e ≠ ⟨e'.q, e'.p⟩ → ∀ x x', PassesEast obs e x →
      PassesEast obs e' x' → 1 + 1 / 100000 ≤ |x - x'| := by
  intro e he e' he' hne hne' x x' hx hx'
  obtain ⟨s1, rfl⟩ := passesEast_cross hx
  obtain ⟨s2, rfl⟩ := passesEast_cross hx'
  have h := List.all_eq_true.1 h e he
  rw [s1, Bool.not_true, Bool.false_or] at h
  have h := List.all_eq_true.1 h e' he'
  rw [s2] at h
  simp only [Bool.not_true, Bool.false_or, Bool.or_eq_true, decide_eq_true_eq] at h
  rcases h with (((h | h) | h) | h) | h
  · exact absurd h hne
  · exact absurd h hne'
  · exact absurd hx.2.1 (not_le.2 h)
  · exact absurd hx'.2.1 (not_le.2 h)
  · exact h

/-- An island and two that share a border, for the examples. -/
def exApart : List (List Coord) :=
  [[⟨0, 0⟩, ⟨100, 0⟩, ⟨70, 90⟩], [⟨300, -20⟩, ⟨400, 10⟩, ⟨310, 50⟩],
    [⟨400, 10⟩, ⟨390, 60⟩, ⟨310, 50⟩]]

theorem exApart_oneWay : OneWay exApart := by
  have h : ∀ p ∈ exApart, ∀ e ∈ edgeList [p], e.p ≠ e.q → ⟨e.q, e.p⟩ ∉ edgeList [p] := by
    decide +kernel
  intro p hp a b hab h1 h2
  exact h p hp _ (mem_edgeList.2 h1) hab (mem_edgeList.2 h2)

/-- Non-vacuity of `C39_scan`, from the corner `(0, 0)` with its rays through the second island,
once with the segments in the order of the polygons and once backwards. -/
example : visible exLook (ofPolygons exApart) (segments (ofPolygons exApart)) ⟨0, 0⟩ true =
      visible exLook (ofPolygons exApart).reverse (segments (ofPolygons exApart)).reverse ⟨0, 0⟩ true ∧
    straddles 0 ⟨⟨300, -20⟩, ⟨400, 10⟩⟩ = true ∧ straddles 0 ⟨⟨310, 50⟩, ⟨300, -20⟩⟩ = true := by
  refine ⟨C39_scan exApart _ _ _ _ _ _
    ⟨List.Perm.refl _, List.Perm.refl _, exLook_ok, by decide⟩
    ⟨List.reverse_perm _, ?_, exLook_ok, by decide⟩ exApart_oneWay ⟨0, 0⟩ (by decide) ?_ true,
    by decide, by decide⟩
  · refine (List.reverse_perm _).trans ?_
    unfold segments
    exact ((List.reverse_perm _).symm).flatMap_right _
  · intro e e' he he'
    exact apart_of (es := edgeList exApart) (by decide +kernel) e (mem_edgeList.2 he) e'
      (mem_edgeList.2 he')

/-! ### The whole graph -/

/-- Copies of edges that do not have the same ends cross the latitude of `obs` east of it more than
a microdegree apart. -/
def CopiesApart (ps : List (List Coord)) (obs : Coord) : Prop :=
  ∀ e e', EdgeOf ps e → EdgeOf ps e' → ∀ j j', IsCopy j → IsCopy j' → e.shift j ≠ e'.shift j' →
    e.shift j ≠ ⟨e'.q.shift j', e'.p.shift j'⟩ → ∀ x x', PassesEast obs (e.shift j) x → PassesEast obs (e'.shift j') x' →
      1 + 1 / 100000 ≤ |x - x'|

theorem OneWay.periodic {T : ℕ → Polygon.SumTree} {ps : List (List Coord)} (h1 : OneWay ps)
    (hst : ∀ p ∈ ps, Stable T p) : OneWay (polygonsPeriodic T ps) := by
  intro r hr a b hab ha hb
  obtain ⟨p, hp, k, hk, rfl⟩ := mem_polygonsPeriodic.1 hr
  rw [hst p hp k hk] at ha hb
  have back : ∀ s, EdgeOf [p.map (Coord.shift k)] s → ∃ e, EdgeOf [p] e ∧ s = e.shift k := by
    rintro s ⟨q, hq, i, hi, rfl⟩
    rw [List.mem_singleton] at hq
    subst hq
    rw [List.length_map] at hi
    have hp0 : p ≠ [] := by rintro rfl; simp at hi
    exact ⟨_, ⟨p, by simp, i, hi, rfl⟩, by rw [ringAt_map hp0, ringAt_map hp0]; rfl⟩
  obtain ⟨⟨x, y⟩, he, h2⟩ := back _ ha
  obtain ⟨⟨x', y'⟩, he', h3⟩ := back _ hb
  simp only [Seg.shift, Seg.mk.injEq] at h2 h3
  obtain ⟨rfl, rfl⟩ := h2
  simp only [Coord.shift, Coord.mk.injEq] at h3 hab
  have e1 : y = x' := Coord.ext' (by omega) (by omega)
  have e2 : x = y' := Coord.ext' (by omega) (by omega)
  subst e1 e2
  exact h1 p hp x y (fun e => hab (by subst e; rfl)) he he'

/-- Two scanners give the same answers. -/
theorem scanners_agree {T T' : ℕ → Polygon.SumTree} {ps : List (List Coord)}
    (hg : ∀ v ∈ ps.flatten, v.Geo) (hst : ∀ p ∈ ps, Stable T p) (hst' : ∀ p ∈ ps, Stable T' p)
    (h1 : OneWay ps) {s1 s2 : Coord → Res (List (Coord × Bool))} (i1 : IsScanner T ps s1)
    (i2 : IsScanner T' ps s2) {a : Coord} (hp : a.Per) (ha : CopiesApart ps a) : s1 a = s2 a := by
  have hT : polygonsPeriodic T' ps = polygonsPeriodic T ps := by
    unfold polygonsPeriodic
    refine List.flatMap_congr fun p hpp => ?_
    refine List.map_congr_left fun i hi => ?_
    have e : ∃ k, IsCopy k ∧ (p.map fun v => (periodicCopies v).getD i v) = p.map (Coord.shift k) := by
      have h3 : i < 3 := List.mem_range.1 hi
      refine ⟨if i = 0 then 0 else if i = 1 then 1 else -1, ?_, List.map_congr_left fun v _ => ?_⟩
      · rcases (by omega : i = 0 ∨ i = 1 ∨ i = 2) with rfl | rfl | rfl <;> decide
      · have := congrArg (fun l => l.getD i v) (copy_getD v)
        rcases (by omega : i = 0 ∨ i = 1 ∨ i = 2) with rfl | rfl | rfl <;>
          simpa [List.range_succ] using this
    obtain ⟨k, hk, e⟩ := e
    rw [e, hst p hpp k hk, hst' p hpp k hk]
  obtain ⟨m, segs, look, a1, a2, a3, a4⟩ := i1 a
  obtain ⟨m', segs', look', b1, b2, b3, b4⟩ := i2 a
  rw [hT] at b1
  have S1 : Setup (polygonsPeriodic T ps) m segs look := ⟨a1, a2, a3, periodic_range hg⟩
  have S2 : Setup (polygonsPeriodic T ps) m' segs' look' := ⟨b1, b2, b3, periodic_range hg⟩
  rw [a4, b4, C37_safe _ _ _ _ S1 a hp true, C37_safe _ _ _ _ S2 a hp true,
    C39_scan _ _ _ _ _ _ _ S1 S2 (h1.periodic hst) a hp ?_ true]
  intro e e' he he' hne hne'
  obtain ⟨d, hd, j, hj, rfl⟩ := stable_edge hst he
  obtain ⟨d', hd', j', hj', rfl⟩ := stable_edge hst he'
  exact ha d d' hd hd' j j' hj hj' hne hne'

/-- **C39** On a map on which no polygon goes along an edge in both directions and the edges to the east of each
vertex are more than a microdegree apart there, the generated graph is the same no matter in which
order the containers list their elements, which of the segments with equal ends a look-up finds,
in which order the compiler adds, and in which order the vertices are processed. -/
theorem C39_deterministic (T T' : ℕ → Polygon.SumTree) (ps : List (List Coord))
    (hg : ∀ v ∈ ps.flatten, v.Geo) (hst : ∀ p ∈ ps, Stable T p) (hst' : ∀ p ∈ ps, Stable T' p)
    (h1 : OneWay ps) (ha : ∀ v ∈ ps.flatten, CopiesApart ps v)
    (s1 s2 : Coord → Res (List (Coord × Bool))) (i1 : IsScanner T ps s1) (i2 : IsScanner T' ps s2)
    (o1 o2 : List Coord → List Coord) (p1 : ∀ l, (o1 l).Perm l) (p2 : ∀ l, (o2 l).Perm l) :
    ∃ g, generate ps s1 o1 = .ok g ∧ generate ps s2 o2 = .ok g := by
  obtain ⟨g, e1, e2⟩ := C39_order T ps hg s1 i1 o1 o2 p1 p2
  refine ⟨g, e1, e2 ▸ ?_⟩
  unfold generate
  rw [polygonVertices_eq]
  refine (sweepAll_congr _ _ fun a hm => ?_).symm
  have hm := (p2 _).mem_iff.1 hm
  exact scanners_agree hg hst hst' h1 i1 i2 (geo_per (hg a hm)) (ha a hm)

/-- All copies of the edges as a list. -/
def copyList (ps : List (List Coord)) : List Seg :=
  (edgeList ps).flatMap fun e => [e.shift 0, e.shift 1, e.shift (-1)]

theorem copiesApart_of {ps : List (List Coord)} {obs : Coord} (h : apartB (copyList ps) obs = true) :
    CopiesApart ps obs := by
  have mem : ∀ e, EdgeOf ps e → ∀ j, IsCopy j → e.shift j ∈ copyList ps := by
    intro e he j hj
    refine List.mem_flatMap.2 ⟨e, mem_edgeList.2 he, ?_⟩
    rcases hj with rfl | rfl | rfl <;> simp
  exact fun e e' he he' j j' hj hj' => apart_of h _ (mem e he j hj) _ (mem e' he' j' hj')

theorem exApart_copies : ∀ v ∈ exApart.flatten, CopiesApart exApart v := by
  have h : ∀ v ∈ exApart.flatten, apartB (copyList exApart) v = true := by decide +kernel
  exact fun v hv => copiesApart_of (h v hv)

theorem exApart_stable : ∀ p ∈ exApart, Stable Polygon.SumTree.sequential p := by
  intro p hp k hk
  simp only [exApart, List.mem_cons, List.not_mem_nil, or_false] at hp
  rcases hp with rfl | rfl | rfl <;> rcases hk with rfl | rfl | rfl <;> decide +kernel

/-- Non-vacuity of `C39_deterministic`: with the segments in either order. -/
example : ∃ g, generate exApart (exScanner Polygon.SumTree.sequential exApart) id = .ok g ∧
    generate exApart (exScannerRev Polygon.SumTree.sequential exApart) List.reverse = .ok g :=
  C39_deterministic Polygon.SumTree.sequential Polygon.SumTree.sequential exApart (by decide)
    exApart_stable exApart_stable exApart_oneWay exApart_copies _ _ (exScanner_ok _ exApart)
    (fun _ => ⟨_, _, _, List.Perm.refl _, List.reverse_perm _, exLook_ok, rfl⟩) _ _
    (fun l => List.Perm.refl l) List.reverse_perm

theorem mapM_same {α β : Type} {f g : α → Res β} (l : List α) (h : ∀ a ∈ l, f a = g a) :
    l.mapM f = l.mapM g := by
  induction l with
  | nil => rfl
  | cons a r ih =>
    rw [List.mapM_cons, List.mapM_cons, h a (by simp), ih fun b hb => h b (by simp [hb])]

/-- **C40** On such a map shards may be computed by different processes, each with its own order of
the containers and compiled in its own way: merged in any order they answer as the graph any
process computes at once. -/
theorem C40_processes (T : ℕ → Polygon.SumTree) (ps : List (List Coord))
    (hg : ∀ v ∈ ps.flatten, v.Geo) (hst : ∀ p ∈ ps, Stable T p) (h1 : OneWay ps)
    (ha : ∀ v ∈ ps.flatten, CopiesApart ps v) (shuffle : List Coord → List Coord)
    (hsh : ∀ l, (shuffle l).Perm l) (ranges : List (ℕ × ℕ))
    (hr : ∀ r ∈ ranges, r.1 ≤ r.2 ∧ r.2 ≤ ps.flatten.length)
    (hcov : ∀ i < ps.flatten.length, ∃ r ∈ ranges, r.1 ≤ i ∧ i < r.2)
    (T' : ℕ × ℕ → ℕ → Polygon.SumTree) (hst' : ∀ r, ∀ p ∈ ps, Stable (T' r) p)
    (sc : ℕ × ℕ → Coord → Res (List (Coord × Bool))) (hs : ∀ r, IsScanner (T' r) ps (sc r))
    (orders : ℕ × ℕ → List Coord → List Coord) (ho : ∀ r l, (orders r l).Perm l)
    (scanner : Coord → Res (List (Coord × Bool))) (hsc : IsScanner T ps scanner)
    (order : List Coord → List Coord) (ho' : ∀ l, (order l).Perm l) :
    ∃ gs g, ranges.mapM (fun r => generateRange ps (sc r) (orders r) shuffle r.1 r.2) = .ok gs ∧
      generate ps scanner order = .ok g ∧
      ∀ (ps' : List (List Coord)) (schedule : List Graph.Op → List Graph.Op),
        Graph.MergeOrder gs ps' → (∀ l, (schedule l).Perm l) →
        ∃ G, Graph.merge ps' schedule gs = .ok G ∧ SameAnswers G g := by
  obtain ⟨gs, g, e1, e2, e3⟩ := C40_shards T ps hg scanner hsc shuffle hsh ranges hr hcov orders ho
    order ho'
  refine ⟨gs, g, ?_, e2, e3⟩
  rw [← e1]
  refine mapM_same _ fun r hrr => ?_
  unfold generateRange
  simp only [polygonVertices_eq]
  split_ifs with h3 h4
  · rfl
  · rfl
  · obtain ⟨us, h5, h6⟩ := slice_ok (vs := shuffle ps.flatten) (lo := r.1) (hi := r.2)
      (by rw [(hsh _).length_eq]; exact (hr r hrr).2)
    rw [h5]
    refine sweepAll_congr _ _ fun a hm => ?_
    have hm := (ho r _).mem_iff.1 hm
    obtain ⟨i, -, -, hi⟩ := (h6 a).1 hm
    have hm : a ∈ ps.flatten := (hsh _).mem_iff.1 (List.mem_of_getElem? hi)
    exact scanners_agree hg (hst' r) hst h1 (hs r) hsc (geo_per (hg a hm)) (ha a hm)

/-- Non-vacuity of `C40_processes`: two shards, one by each of two processes. -/
example : ∃ gs g, [(0, 2), (2, 9)].mapM (fun r : ℕ × ℕ => generateRange exApart
      (if r.1 = 0 then exScanner Polygon.SumTree.sequential exApart
        else exScannerRev Polygon.SumTree.sequential exApart) id List.reverse r.1 r.2) = .ok gs ∧
    generate exApart (exScanner Polygon.SumTree.sequential exApart) id = .ok g ∧
    ∀ (ps' : List (List Coord)) (schedule : List Graph.Op → List Graph.Op),
      Graph.MergeOrder gs ps' → (∀ l, (schedule l).Perm l) →
      ∃ G, Graph.merge ps' schedule gs = .ok G ∧ SameAnswers G g :=
  C40_processes Polygon.SumTree.sequential exApart (by decide) exApart_stable exApart_oneWay
    exApart_copies List.reverse List.reverse_perm _ (by decide) (by decide)
    (fun _ => Polygon.SumTree.sequential) (fun _ => exApart_stable)
    (fun r => if r.1 = 0 then exScanner Polygon.SumTree.sequential exApart
      else exScannerRev Polygon.SumTree.sequential exApart)
    (fun r => by
      by_cases h : r.1 = 0
      · simp only [h, if_true]; exact exScanner_ok _ exApart
      · simp only [h, if_false]
        exact fun _ => ⟨_, _, _, List.Perm.refl _, List.reverse_perm _, exLook_ok, rfl⟩)
    (fun _ => id) (fun _ l => List.Perm.refl l) _ (exScanner_ok _ exApart) id
    (fun l => List.Perm.refl l)

section Files

open Frontend

variable {N : Type} [DecidableEq N]

/-- **C60** On such a map without repeated vertices, splits computed and written by different
processes and merged from the files give a file that answers as the graph any process generates at
once. -/
theorem C60_processes (T T1 T2 : ℕ → Polygon.SumTree) (ps : List (List Coord)) (hp : ps ≠ [])
    (hnd : ps.flatten.Nodup) (hg : ∀ v ∈ ps.flatten, v.Geo) (hst : ∀ p ∈ ps, Stable T p)
    (h1 : OneWay ps) (ha : ∀ v ∈ ps.flatten, CopiesApart ps v)
    (hst1 : ∀ p ∈ ps, Serial.polygonC T1 p = .ok p)
    (hst2 : ∀ p ∈ ps, Serial.polygonC T2 p = .ok p)
    (hl : ps.length < 2 ^ 64) (hv : ps.flatten.length < 2 ^ 32) (k : ℕ) (hk : 1 ≤ k)
    (sc : ℕ → Coord → Res (List (Coord × Bool))) (hs : ∀ i < k, IsScanner T ps (sc i))
    (scanner : Coord → Res (List (Coord × Bool))) (hsc : IsScanner T ps scanner)
    (order shuffle : List Coord → List Coord) (ho : ∀ l, (order l).Perm l)
    (hsh : ∀ l, (shuffle l).Perm l)
    (porder : List Graph → List (List Coord)) (hpo : ∀ gs, Graph.MergeOrder gs (porder gs))
    (schedule : List Graph.Op → List Graph.Op) (hsch : ∀ l, (schedule l).Perm l)
    (d : Disk N) (name : ℕ → N) (hinj : ∀ i < k, ∀ j < k, name i = name j → i = j) (out : N)
    (hout : ∀ i < k, name i ≠ out) (hf : ∀ i < k, d (name i) = none) (hfo : d out = none)
    (js ins : List ℕ) (hjs : js.Perm (List.range k)) (hins : ∀ i, i ∈ ins ↔ i < k) :
    ∃ d' d'' G g,
      runJobs d (js.map fun (i : ℕ) => splitJob ps (sc i) order shuffle k i (name i)) =
        (.ok (), d') ∧
      mergeJob T1 porder schedule (ins.map name) out d' = (.ok (), d'') ∧
      d''.load T2 out = .ok G ∧ generate ps scanner order = .ok g ∧ SameAnswers G g := by
  obtain ⟨s0, hs0, d', d'', G, g0, e1, e2, e3, e4, e5, -⟩ := C60_separate T T1 T2 ps hp hnd hg hst1
    hst2 hl hv k hk sc hs order shuffle ho hsh porder hpo schedule hsch d name hinj out hout hf hfo
    js ins hjs hins
  obtain ⟨g, f1, f2⟩ := C39_deterministic T T ps hg hst hst h1 ha s0 scanner hs0 hsc order order ho ho
  obtain rfl := Except.ok.inj (e4.symm.trans f1)
  exact ⟨d', d'', G, _, e1, e2, e3, f2, e5⟩

/-- Non-vacuity of `C60_processes`: two islands in two parts, each computed by another process. -/
example : ∃ (d'' : Disk ℕ) (G g : Graph), d''.load Polygon.SumTree.sequential 2 = .ok G ∧
    generate (exApart.take 2) (exScanner Polygon.SumTree.sequential (exApart.take 2)) id = .ok g ∧
    SameAnswers G g := by
  have h1 : OneWay (exApart.take 2) := fun p hp => exApart_oneWay p (List.mem_of_mem_take hp)
  have h2 : ∀ v ∈ (exApart.take 2).flatten, apartB (copyList (exApart.take 2)) v = true := by
    decide +kernel
  obtain ⟨_, d'', G, g, _, _, h1, h2, h3⟩ := C60_processes Polygon.SumTree.sequential
    Polygon.SumTree.sequential Polygon.SumTree.sequential (exApart.take 2) (by decide) (by decide)
    (by decide) (fun p hp => exApart_stable p (List.mem_of_mem_take hp)) h1
    (fun v hv => copiesApart_of (h2 v hv)) (by decide +kernel) (by decide +kernel) (by decide)
    (by decide) 2 (by decide)
    (fun i => if i = 0 then exScanner Polygon.SumTree.sequential (exApart.take 2)
      else exScannerRev Polygon.SumTree.sequential (exApart.take 2))
    (fun i _ => by
      by_cases h : i = 0
      · simp only [h, if_true]; exact exScanner_ok _ _
      · simp only [h, if_false]
        exact fun _ => ⟨_, _, _, List.Perm.refl _, List.reverse_perm _, exLook_ok, rfl⟩)
    _ (exScanner_ok _ _) id id (fun _ => .refl _) (fun _ => .refl _)
    (fun gs => (gs.flatMap Graph.polygons).dedup)
    (fun gs => ⟨List.nodup_dedup _, fun p => by rw [List.mem_dedup, List.mem_flatMap]⟩) id
    (fun _ => .refl _) (fun _ => none) id (fun _ _ _ _ h => h) 2 (by decide) (by simp) rfl
    [1, 0] [0, 1] (by decide) (by intro i; simp; omega)
  exact ⟨d'', G, g, h1, h2, h3⟩

end Files

end Capi
