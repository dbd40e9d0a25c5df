import Verif.Spec.Sweep
import Verif.Lemmas.Vistree
import Verif.Props.Segment

/-!
# Which edges are open during the sweep
-/

namespace Capi

open Vistree

/-! ### Edges of polygons without repeated vertices -/

/-- No vertex twice, at least three vertices each. -/
structure Simple (ps : List (List Coord)) : Prop where
  nodup : ps.flatten.Nodup
  len : ∀ p ∈ ps, 3 ≤ p.length

theorem ringAt_inj {p : List Coord} (hn : p.Nodup) (h0 : 0 < p.length) {i j : ℕ}
    (h : ringAt p i = ringAt p j) : i % p.length = j % p.length := by
  unfold ringAt at h
  have hi := Nat.mod_lt i h0
  have hj := Nat.mod_lt j h0
  rw [List.getD_eq_getElem?_getD, List.getD_eq_getElem?_getD, List.getElem?_eq_getElem hi,
    List.getElem?_eq_getElem hj] at h
  exact (hn.getElem_inj_iff).1 h

theorem Simple.same {ps : List (List Coord)} (h : Simple ps) {p q : List Coord} (hp : p ∈ ps)
    (hq : q ∈ ps) {c : Coord} (h1 : c ∈ p) (h2 : c ∈ q) : p = q := by
  by_contra hne
  have : Std.Symm (α := List Coord) List.Disjoint := ⟨fun _ _ h => List.Disjoint.symm h⟩
  have hd := (List.nodup_flatten.1 h.nodup).2.forall hp hq hne
  exact hd h1 h2

theorem Simple.poly {ps : List (List Coord)} (h : Simple ps) {p : List Coord} (hp : p ∈ ps) :
    p.Nodup := (List.nodup_flatten.1 h.nodup).1 p hp

theorem mod_cases {i n : ℕ} (hi : i < n) : (i + 1) % n = if i + 1 = n then 0 else i + 1 := by
  split_ifs with h
  · rw [h, Nat.mod_self]
  · exact Nat.mod_eq_of_lt (by omega)

theorem mod_pred {i n : ℕ} (hi : i < n) : (i + n - 1) % n = if i = 0 then n - 1 else i - 1 := by
  split_ifs with h
  · subst h; rw [Nat.zero_add]; exact Nat.mod_eq_of_lt (by omega)
  · have : i + n - 1 = (i - 1) + n := by omega
    rw [this, Nat.add_mod_right]; exact Nat.mod_eq_of_lt (by omega)

theorem Simple.edge_eq {ps : List (List Coord)} (h : Simple ps) {s t : Seg} (hs : EdgeOf ps s)
    (ht : EdgeOf ps t) (hst : s.sameAs t = true) : s = t := by
  obtain ⟨p, hp, i, hi, rfl⟩ := hs
  obtain ⟨q, hq, j, hj, rfl⟩ := ht
  have hp3 := h.len p hp
  have hq3 := h.len q hq
  unfold Seg.sameAs at hst
  simp only [Bool.or_eq_true, Bool.and_eq_true, beq_iff_eq] at hst
  rcases hst with ⟨h1, h2⟩ | ⟨h1, h2⟩
  · rw [h1, h2]
  · exfalso
    have hpq : p = q := h.same hp hq (c := ringAt p i) (Vistree.ringAt_mem (by omega))
      (h1 ▸ Vistree.ringAt_mem (by omega))
    subst hpq
    have e1 := ringAt_inj (h.poly hp) (by omega) h1
    have e2 := ringAt_inj (h.poly hp) (by omega) h2
    rw [Nat.mod_eq_of_lt hi, mod_cases hj] at e1
    rw [Nat.mod_eq_of_lt hj, mod_cases hi] at e2
    split_ifs at e1 e2 <;> omega

theorem Simple.ends_ne {ps : List (List Coord)} (h : Simple ps) {s : Seg} (hs : EdgeOf ps s) :
    s.p ≠ s.q := by
  obtain ⟨p, hp, i, hi, rfl⟩ := hs
  have hp3 := h.len p hp
  intro e
  have e1 := ringAt_inj (h.poly hp) (by omega) e
  rw [Nat.mod_eq_of_lt hi, mod_cases hi] at e1
  split_ifs at e1 <;> omega

theorem Simple.corner_unique {ps : List (List Coord)} (h : Simple ps) {a v b a' b' : Coord}
    (h1 : CornerOf ps a v b) (h2 : CornerOf ps a' v b') : a = a' ∧ b = b' := by
  obtain ⟨p, hp, i, hi, rfl, rfl, rfl⟩ := h1
  obtain ⟨q, hq, j, hj, rfl, hv, rfl⟩ := h2
  have hp3 := h.len p hp
  have hq3 := h.len q hq
  have hpq : p = q := h.same hp hq (c := ringAt p i) (Vistree.ringAt_mem (by omega))
    (hv ▸ Vistree.ringAt_mem (by omega))
  subst hpq
  have e1 := ringAt_inj (h.poly hp) (by omega) hv
  rw [Nat.mod_eq_of_lt hi, Nat.mod_eq_of_lt hj] at e1
  subst e1
  exact ⟨rfl, rfl⟩

/-- The edge leaving a vertex belongs to its corner, and so does the one arriving. -/
theorem edge_corner {ps : List (List Coord)} {s : Seg} (hs : EdgeOf ps s) :
    (∃ a, CornerOf ps a s.p s.q) ∧ ∃ b, CornerOf ps s.p s.q b := by
  obtain ⟨p, hp, i, hi, rfl⟩ := hs
  refine ⟨⟨_, p, hp, i, hi, rfl, rfl, rfl⟩, ?_⟩
  by_cases hl : i + 1 = p.length
  · refine ⟨_, p, hp, 0, by omega, ?_, ?_, rfl⟩
    · simp only [Nat.zero_add]
      congr 1; omega
    · unfold ringAt; rw [hl, Nat.mod_self, Nat.zero_mod]
  · refine ⟨_, p, hp, i + 1, by omega, ?_, rfl, rfl⟩
    have : i + 1 + p.length - 1 = i + p.length := by omega
    simp only [this]
    unfold ringAt; rw [Nat.add_mod_right]

theorem Simple.incident_form {ps : List (List Coord)} (h : Simple ps) {m : VisMap} (hm : MapOf ps m)
    {w : Coord} (hw : w ∈ ps.flatten) :
    ∃ a b, CornerOf ps a w b ∧ incident m w = [⟨a, w⟩, ⟨w, b⟩] ∧
      ∀ s, EdgeOf ps s → ((s.q = w ↔ s = ⟨a, w⟩) ∧ (s.p = w ↔ s = ⟨w, b⟩)) := by
  obtain ⟨a, b, hc, hg⟩ := hm.get hw
  refine ⟨a, b, hc, by unfold incident; rw [hg]; rfl, fun s hs => ⟨⟨?_, ?_⟩, ⟨?_, ?_⟩⟩⟩
  · intro e
    obtain ⟨b', hb'⟩ := (edge_corner hs).2
    rw [e] at hb'
    rw [(h.corner_unique hc hb').1, ← e]
  · rintro rfl; rfl
  · intro e
    obtain ⟨a', ha'⟩ := (edge_corner hs).1
    rw [e] at ha'
    rw [(h.corner_unique hc ha').2, ← e]
  · rintro rfl; rfl

/-! ### Ends of edges -/

theorem area2_swap (o a b : Coord) : area2 o b a = -area2 o a b := by
  unfold area2; ring

theorem ends_mem (obs : Coord) (s : Seg) :
    (startOf obs s = s.p ∧ endOf obs s = s.q) ∨ (startOf obs s = s.q ∧ endOf obs s = s.p) := by
  unfold startOf endOf
  split_ifs <;> simp

theorem area_ends {obs : Coord} {s : Seg} (h : Beside obs s) :
    0 < area2 obs (startOf obs s) (endOf obs s) := by
  unfold startOf endOf Beside at *
  split_ifs with h1
  · exact h1
  · rw [area2_swap]; omega

theorem ends_ne {obs : Coord} {s : Seg} (h : Beside obs s) : startOf obs s ≠ endOf obs s := by
  intro e
  have := area_ends h
  rw [e] at this
  unfold area2 at this
  linarith

theorem orient_iff {obs w : Coord} {s : Seg} (hw : s.q = w ∨ s.p = w) (hne : s.p ≠ s.q) :
    ((Seg.mk obs w).orientPt (other s w) = .clockwise ↔ Beside obs s ∧ endOf obs s = w) ∧
    ((Seg.mk obs w).orientPt (other s w) = .counterClockwise ↔
      Beside obs s ∧ startOf obs s = w) := by
  have key : ∀ c, (Seg.mk obs w).signedArea c = area2 obs w c := fun c => rfl
  unfold Seg.orientPt Seg.orientOfArea Beside startOf endOf other
  rcases hw with rfl | rfl
  · rw [if_neg (Ne.symm hne), key, area2_swap obs s.p s.q]
    constructor
    · split_ifs <;> simp_all <;> omega
    · split_ifs <;> simp_all <;> omega
  · rw [if_pos rfl, key]
    constructor
    · have hne' := Ne.symm hne
      split_ifs <;> simp_all <;> omega
    · have hne' := Ne.symm hne
      split_ifs <;> simp_all
      omega

theorem across_wraps {obs : Coord} {s : Seg} (h : AcrossEast obs s) :
    SweepBefore obs (endOf obs s) (startOf obs s) := by
  obtain ⟨h1, h2⟩ := h
  have ne1 : endOf obs s ≠ obs := fun e => by rw [e] at h2; omega
  have ne2 : startOf obs s ≠ obs := fun e => by rw [e] at h1; omega
  refine Or.inr ⟨ne1, ne2, Or.inl ?_⟩
  have o1 : offset obs (endOf obs s) ≠ ⟨0, 0⟩ := by
    intro e
    have := congrArg Coord.lat e
    simp only [offset] at this; omega
  have o2 : offset obs (startOf obs s) ≠ ⟨0, 0⟩ := by
    intro e
    have := congrArg Coord.lat e
    simp only [offset] at this; omega
  rw [← angleLt_iff o1 o2]
  unfold AngleSorter.angleLt AngleSorter.lowerHalf offset
  have a1 : decide ((startOf obs s).lat - obs.lat < 0) = true := by
    rw [decide_eq_true_eq]; omega
  have a2 : decide ((endOf obs s).lat - obs.lat < 0) = false := by
    rw [decide_eq_false_iff_not]; omega
  have a3 : decide ((endOf obs s).lat - obs.lat = 0) = false := by
    rw [decide_eq_false_iff_not]; omega
  simp only [a1, a2, a3, Bool.false_and, Bool.or_false, Bool.true_or, Bool.false_eq_true,
    if_false, Bool.not_false, Bool.and_self]

/-! ### The initial scanline -/

theorem onScan_iff {obs : Coord} (hlon : obs.lon < maxPeriodicLon) {x y : ℚ} :
    OnSeg (initialScanline obs) x y ↔ y = obs.lat ∧ (obs.lon : ℚ) ≤ x ∧ x ≤ (maxPeriodicLon : ℤ) := by
  have hq : (obs.lon : ℚ) < (maxPeriodicLon : ℤ) := by exact_mod_cast hlon
  unfold OnSeg initialScanline
  simp only
  constructor
  · rintro ⟨t, h0, h1, rfl, rfl⟩
    refine ⟨by ring, ?_, ?_⟩ <;> nlinarith
  · rintro ⟨rfl, h1, h2⟩
    have hd : (0 : ℚ) < (maxPeriodicLon : ℤ) - obs.lon := by linarith
    refine ⟨(x - obs.lon) / ((maxPeriodicLon : ℤ) - obs.lon), div_nonneg (by linarith) hd.le, ?_,
      ?_, by ring⟩
    · rw [div_le_one hd]; linarith
    · field_simp; ring

theorem OnSeg_swap {s : Seg} {x y : ℚ} : OnSeg ⟨s.q, s.p⟩ x y ↔ OnSeg s x y := by
  constructor <;> rintro ⟨t, h0, h1, hx, hy⟩ <;>
    exact ⟨1 - t, by linarith, by linarith, by rw [hx]; ring, by rw [hy]; ring⟩

theorem OnSeg_ends {obs : Coord} {s : Seg} {x y : ℚ} :
    OnSeg ⟨startOf obs s, endOf obs s⟩ x y ↔ OnSeg s x y := by
  rcases ends_mem obs s with ⟨h1, h2⟩ | ⟨h1, h2⟩
  · rw [h1, h2]
  · rw [h1, h2]; exact OnSeg_swap

theorem area_at {obs a b : Coord} {t X : ℚ} (hX : X = a.lon + t * (b.lon - a.lon))
    (hY : (obs.lat : ℚ) = a.lat + t * (b.lat - a.lat)) :
    ((area2 obs a b : ℤ) : ℚ) = (b.lat - a.lat) * (X - obs.lon) := by
  unfold area2
  push_cast
  rw [hX, hY]; ring

theorem init_sound {obs : Coord} {s : Seg} (ho : obs.Per) (hlon : obs.lon < maxPeriodicLon)
    (hp : s.p.Per) (hq : s.q.Per) (h1 : obs ≠ s.p) (h2 : obs ≠ s.q)
    (hoff : ¬ OnSeg s obs.lon obs.lat) {x : Coord}
    (hx : s.intersect (initialScanline obs) = some x)
    (hnp : (initialScanline obs).onSegment s.p = false)
    (hnq : (initialScanline obs).onSegment s.q = false) :
    Beside obs s ∧ AcrossEast obs s ∧ EastDist obs s (x.sub obs).magSq := by
  have hsc := scanline_per ho
  have np : ¬ OnSeg (initialScanline obs) s.p.lon s.p.lat := fun hc => by
    rw [← onSegment_iff ho.wf hsc.wf hp.wf] at hc
    rw [hc] at hnp; exact absurd hnp (by simp)
  have nq : ¬ OnSeg (initialScanline obs) s.q.lon s.q.lat := fun hc => by
    rw [← onSegment_iff ho.wf hsc.wf hq.wf] at hc
    rw [hc] at hnq; exact absurd hnq (by simp)
  have hD : s.detD (initialScanline obs) ≠ 0 := by
    intro h0
    have onq : OnSeg (initialScanline obs) (maxPeriodicLon : ℤ) obs.lat :=
      (onScan_iff hlon).2 ⟨rfl, by exact_mod_cast hlon.le, le_refl _⟩
    unfold Seg.intersect Seg.sharedEndpoint at hx
    rw [if_pos h0] at hx
    split_ifs at hx with c1 c2
    · rcases c1 with c1 | c1
      · exact h1 c1.symm
      · rw [c1] at np; exact np onq
    · rcases c2 with c2 | c2
      · exact h2 c2.symm
      · rw [c2] at nq; exact nq onq
  obtain ⟨X, Y, u, w, hs, ht, e1, e2, b1, b2⟩ := intersect_exact_close hp hq hD hx
  obtain ⟨rfl, hX1, hX2⟩ := (onScan_iff hlon).1 ht
  have hXne : X ≠ obs.lon := fun e => hoff (e ▸ hs)
  have hXpos : (0 : ℚ) < X - obs.lon := by
    rcases lt_or_eq_of_le hX1 with h | h
    · linarith
    · exact absurd h.symm hXne
  obtain ⟨t, t0, t1, tX, tY⟩ := (OnSeg_ends (obs := obs)).2 hs
  simp only at tX tY
  have har := area_at tX tY
  have nstart : ¬ OnSeg (initialScanline obs) (startOf obs s).lon (startOf obs s).lat := by
    rcases ends_mem obs s with ⟨h, _⟩ | ⟨h, _⟩ <;> rw [h] <;> assumption
  have nend : ¬ OnSeg (initialScanline obs) (endOf obs s).lon (endOf obs s).lat := by
    rcases ends_mem obs s with ⟨_, h⟩ | ⟨_, h⟩ <;> rw [h] <;> assumption
  have hb : Beside obs s := by
    intro h0
    have hse : area2 obs (startOf obs s) (endOf obs s) = 0 := by
      rcases ends_mem obs s with ⟨h, h'⟩ | ⟨h, h'⟩ <;> rw [h, h']
      · exact h0
      · rw [area2_swap, h0]; rfl
    rw [hse] at har
    have hlat : ((endOf obs s).lat : ℚ) - (startOf obs s).lat = 0 := by
      rcases mul_eq_zero.1 har.symm with h | h
      · exact h
      · linarith
    have hl : (endOf obs s).lat = (startOf obs s).lat := by
      have : ((endOf obs s).lat : ℚ) = (startOf obs s).lat := by linarith
      exact_mod_cast this
    have hpq : s.q.lat = s.p.lat := by
      rcases ends_mem obs s with ⟨h, h'⟩ | ⟨h, h'⟩ <;> rw [h, h'] at hl <;> omega
    apply hD
    unfold Seg.detD initialScanline
    simp only [Coord.sub, Coord.add, Coord.neg, hpq]
    ring
  refine ⟨hb, ?_, x.lon, X, hs, ?_, ?_⟩
  · have hpos := area_ends hb
    have hposq : (0 : ℚ) < area2 obs (startOf obs s) (endOf obs s) := by exact_mod_cast hpos
    rw [har] at hposq
    have hlt : (0 : ℚ) < (endOf obs s).lat - (startOf obs s).lat := by
      by_contra hc
      push Not at hc
      nlinarith
    have hle1 : ((startOf obs s).lat : ℚ) ≤ obs.lat := by rw [tY]; nlinarith
    have hle2 : (obs.lat : ℚ) ≤ (endOf obs s).lat := by rw [tY]; nlinarith
    have i1 : (startOf obs s).lat ≤ obs.lat := by exact_mod_cast hle1
    have i2 : obs.lat ≤ (endOf obs s).lat := by exact_mod_cast hle2
    constructor
    · rcases lt_or_eq_of_le i1 with h | h
      · exact h
      · exfalso
        apply nstart
        have ht0 : t = 0 := by
          rw [← h] at tY
          have : t * (((endOf obs s).lat : ℚ) - (startOf obs s).lat) = 0 := by linarith
          rcases mul_eq_zero.1 this with h' | h'
          · exact h'
          · linarith
        rw [ht0] at tX
        rw [h, show ((startOf obs s).lon : ℚ) = X by rw [tX]; ring]
        exact ht
    · rcases lt_or_eq_of_le i2 with h | h
      · exact h
      · exfalso
        apply nend
        have ht0 : t = 1 := by
          rw [h] at tY
          have : (1 - t) * (((endOf obs s).lat : ℚ) - (startOf obs s).lat) = 0 := by linarith
          rcases mul_eq_zero.1 this with h' | h'
          · linarith
          · linarith
        rw [ht0] at tX
        rw [← h, show ((endOf obs s).lon : ℚ) = X by rw [tX]; ring]
        exact ht
  · have e3 := abs_le.1 (roundHalfAway_err u)
    have b1 := abs_le.1 b1
    rw [e1, abs_le]; push_cast
    constructor <;> linarith [e3.1, e3.2, b1.1, b1.2]
  · have hlat : x.lat = obs.lat := by
      have e3 := abs_le.1 (roundHalfAway_err w)
      have b2 := abs_le.1 b2
      have e2q : (x.lat : ℚ) = s.p.lat + (roundHalfAway w : ℤ) := by exact_mod_cast e2
      have l1 : (x.lat : ℚ) < obs.lat + 1 := by linarith [e3.2, b2.2]
      have l2 : (obs.lat : ℚ) < x.lat + 1 := by linarith [e3.1, b2.1]
      have l1' : x.lat < obs.lat + 1 := by exact_mod_cast l1
      have l2' : obs.lat < x.lat + 1 := by exact_mod_cast l2
      omega
    rw [Coord.magSq, sub_lon, sub_lat, hlat]
    ring

theorem init_complete {obs : Coord} {s : Seg} (ho : obs.Per) (hlon : obs.lon < maxPeriodicLon)
    (hp : s.p.Per) (hq : s.q.Per) (hb : Beside obs s) (h : AcrossEast obs s) :
    (s.intersect (initialScanline obs)).isSome ∧
      (initialScanline obs).onSegment s.p = false ∧
      (initialScanline obs).onSegment s.q = false := by
  have hsc := scanline_per ho
  obtain ⟨h1, h2⟩ := h
  have hends : ∀ c, (c = s.p ∨ c = s.q) → c.lat ≠ obs.lat := by
    intro c hc
    rcases ends_mem obs s with ⟨e1, e2⟩ | ⟨e1, e2⟩ <;> rw [e1] at h1 <;> rw [e2] at h2 <;>
      rcases hc with rfl | rfl <;> omega
  have off : ∀ c : Coord, c.Per → c.lat ≠ obs.lat → (initialScanline obs).onSegment c = false := by
    intro c hc hne
    by_contra hcon
    rw [Bool.not_eq_false, onSegment_iff ho.wf hsc.wf hc.wf, onScan_iff hlon] at hcon
    exact hne (by exact_mod_cast hcon.1)
  have hD : s.detD (initialScanline obs) ≠ 0 := by
    unfold Seg.detD initialScanline
    simp only [Coord.sub, Coord.add, Coord.neg]
    have hne : s.q.lat - s.p.lat ≠ 0 := by
      rcases ends_mem obs s with ⟨e1, e2⟩ | ⟨e1, e2⟩ <;> rw [e1] at h1 <;> rw [e2] at h2 <;> omega
    have hl : maxPeriodicLon - obs.lon ≠ 0 := by omega
    intro h0
    have : (s.q.lat - s.p.lat) * (maxPeriodicLon - obs.lon) = 0 := by linarith
    rcases mul_eq_zero.1 this with h | h
    · exact hne h
    · exact hl h
  refine ⟨(intersect_isSome_iff hD).2 ?_, off _ hp (hends _ (Or.inl rfl)),
    off _ hq (hends _ (Or.inr rfl))⟩
  set a := startOf obs s with ha
  set b := endOf obs s with hbb
  have hd : (0 : ℚ) < b.lat - a.lat := by
    have : a.lat < b.lat := by omega
    have : (a.lat : ℚ) < b.lat := by exact_mod_cast this
    linarith
  have q1 : (a.lat : ℚ) < obs.lat := by exact_mod_cast h1
  have q2 : (obs.lat : ℚ) < b.lat := by exact_mod_cast h2
  set t : ℚ := (obs.lat - a.lat) / (b.lat - a.lat) with htd
  have t0 : 0 ≤ t := div_nonneg (by linarith) hd.le
  have t1 : t ≤ 1 := by rw [htd, div_le_one hd]; linarith
  have tY : (obs.lat : ℚ) = a.lat + t * (b.lat - a.lat) := by
    rw [htd]; field_simp; ring
  have har := area_at (obs := obs) (X := a.lon + t * (b.lon - a.lon)) rfl tY
  refine ⟨a.lon + t * (b.lon - a.lon), obs.lat, OnSeg_ends.1 ⟨t, t0, t1, rfl, tY⟩,
    (onScan_iff hlon).2 ⟨rfl, ?_, ?_⟩⟩
  · have hpos : (0 : ℚ) < area2 obs a b := by exact_mod_cast area_ends hb
    rw [har] at hpos
    by_contra hc
    push Not at hc
    nlinarith
  · have pa : (a.lon : ℚ) ≤ (maxPeriodicLon : ℤ) ∧ (b.lon : ℚ) ≤ (maxPeriodicLon : ℤ) := by
      have key : ∀ c : Coord, c.Per → (c.lon : ℚ) ≤ (maxPeriodicLon : ℤ) := by
        intro c hc
        have : c.lon ≤ maxPeriodicLon := by
          unfold Coord.Per at hc; simp only [maxPeriodicLon, maxLon, period]; omega
        exact_mod_cast this
      rcases ends_mem obs s with ⟨e1, e2⟩ | ⟨e1, e2⟩
      · rw [ha, hbb, e1, e2]; exact ⟨key _ hp, key _ hq⟩
      · rw [ha, hbb, e1, e2]; exact ⟨key _ hq, key _ hp⟩
    have e : (a.lon : ℚ) + t * (b.lon - a.lon) = (1 - t) * a.lon + t * b.lon := by ring
    rw [e]
    nlinarith [pa.1, pa.2]

/-! ### The two maps of open edges -/

/-- The two maps agree: `E` the edges, `P` what is known of an edge and its key. -/
structure OpenInv (E : Seg → Prop) (P : Seg → ℤ → Prop) (o : OpenEdges) : Prop where
  sorted : o.byDist.Pairwise fun x y => x.1 < y.1
  agree : ∀ x ∈ o.byDist, (x.2, x.1) ∈ o.distOf
  nodup : (o.distOf.map Prod.fst).Nodup
  known : ∀ x ∈ o.distOf, E x.1 ∧ P x.1 x.2

theorem OpenInv.mono {E : Seg → Prop} {P Q : Seg → ℤ → Prop} {o : OpenEdges} (h : OpenInv E P o)
    (hpq : ∀ x ∈ o.distOf, P x.1 x.2 → Q x.1 x.2) : OpenInv E Q o :=
  ⟨h.sorted, h.agree, h.nodup, fun x hx => ⟨(h.known x hx).1, hpq x hx (h.known x hx).2⟩⟩

theorem emplace_sorted {d : ℤ} {s : Seg} {l : List (ℤ × Seg)}
    (h : l.Pairwise fun x y => x.1 < y.1) :
    (OpenEdges.emplace d s l).Pairwise fun x y => x.1 < y.1 := by
  induction l with
  | nil => simp [OpenEdges.emplace]
  | cons x r ih =>
    rw [List.pairwise_cons] at h
    simp only [OpenEdges.emplace]
    split_ifs with h1 h2
    · rw [List.pairwise_cons]
      refine ⟨fun y hy => ?_, List.pairwise_cons.2 h⟩
      rcases List.mem_cons.1 hy with rfl | hy
      · exact h1
      · exact lt_trans h1 (h.1 y hy)
    · exact List.pairwise_cons.2 h
    · rw [List.pairwise_cons]
      refine ⟨fun y hy => ?_, ih h.2⟩
      rcases emplace_mem hy with rfl | hy
      · simp only; omega
      · exact h.1 y hy

theorem emplace_keeps {d : ℤ} {s : Seg} {l : List (ℤ × Seg)} {x : ℤ × Seg} (h : x ∈ l) :
    x ∈ OpenEdges.emplace d s l := by
  induction l with
  | nil => simp at h
  | cons y r ih =>
    simp only [OpenEdges.emplace]
    split_ifs
    · exact List.mem_cons_of_mem _ h
    · exact h
    · rcases List.mem_cons.1 h with rfl | h
      · simp
      · exact List.mem_cons_of_mem _ (ih h)

theorem emplace_new {d : ℤ} {s : Seg} {l : List (ℤ × Seg)} (h : ∀ x ∈ l, x.1 = d → x.2 = s) :
    (d, s) ∈ OpenEdges.emplace d s l := by
  induction l with
  | nil => simp [OpenEdges.emplace]
  | cons y r ih =>
    simp only [OpenEdges.emplace]
    split_ifs with h1 h2
    · simp
    · have := h y (by simp) h2.symm
      rw [h2, ← this]; simp
    · exact List.mem_cons_of_mem _ (ih fun x hx => h x (by simp [hx]))

/-- Lookups among the edges `E` find equal segments only. -/
def LookEq (look : Seg → Seg → Bool) (E : Seg → Prop) : Prop :=
  ∀ s t, E s → E t → (look s t = true ↔ s = t)

theorem assign_mem {look : Seg → Seg → Bool} {E : Seg → Prop} (hl : LookEq look E) {s : Seg}
    (hs : E s) {d : ℤ} {l : List (Seg × ℤ)} (hE : ∀ x ∈ l, E x.1) (hn : (l.map Prod.fst).Nodup)
    (x : Seg × ℤ) : x ∈ OpenEdges.assign look s d l ↔ x = (s, d) ∨ (x ∈ l ∧ x.1 ≠ s) := by
  induction l with
  | nil => simp [OpenEdges.assign]
  | cons y r ih =>
    rw [List.map_cons, List.nodup_cons] at hn
    have ih := ih (fun z hz => hE z (by simp [hz])) hn.2
    simp only [OpenEdges.assign]
    by_cases hy : s = y.1
    · rw [if_pos ((hl s y.1 hs (hE y (by simp))).2 hy), List.mem_cons, List.mem_cons]
      constructor
      · rintro (rfl | hx)
        · left; rw [hy]
        · right
          refine ⟨Or.inr hx, fun e => hn.1 ?_⟩
          rw [← hy, ← e]; exact List.mem_map_of_mem hx
      · rintro (rfl | ⟨rfl | hx, hne⟩)
        · left; rw [hy]
        · exact absurd hy.symm hne
        · exact Or.inr hx
    · rw [if_neg fun h => hy ((hl s y.1 hs (hE y (by simp))).1 h), List.mem_cons, List.mem_cons, ih]
      constructor
      · rintro (rfl | h | ⟨h, hne⟩)
        · exact Or.inr ⟨Or.inl rfl, fun e => hy e.symm⟩
        · exact Or.inl h
        · exact Or.inr ⟨Or.inr h, hne⟩
      · rintro (h | ⟨rfl | h, hne⟩)
        · exact Or.inr (Or.inl h)
        · exact Or.inl rfl
        · exact Or.inr (Or.inr ⟨h, hne⟩)

theorem assign_nodup {look : Seg → Seg → Bool} {E : Seg → Prop} (hl : LookEq look E) {s : Seg}
    (hs : E s) {d : ℤ} {l : List (Seg × ℤ)} (hE : ∀ x ∈ l, E x.1) (hn : (l.map Prod.fst).Nodup) :
    ((OpenEdges.assign look s d l).map Prod.fst).Nodup := by
  induction l with
  | nil => simp [OpenEdges.assign]
  | cons y r ih =>
    have hn' := hn
    rw [List.map_cons, List.nodup_cons] at hn
    have hEr : ∀ x ∈ r, E x.1 := fun z hz => hE z (by simp [hz])
    simp only [OpenEdges.assign]
    by_cases hy : s = y.1
    · rw [if_pos ((hl s y.1 hs (hE y (by simp))).2 hy)]
      exact hn'
    · rw [if_neg fun h => hy ((hl s y.1 hs (hE y (by simp))).1 h), List.map_cons, List.nodup_cons]
      refine ⟨fun hm => ?_, ih hEr hn.2⟩
      obtain ⟨z, hz, hzy⟩ := List.mem_map.1 hm
      rcases (assign_mem hl hs hEr hn.2 z).1 hz with rfl | ⟨hz, -⟩
      · exact hy hzy
      · exact hn.1 (hzy ▸ List.mem_map_of_mem hz)

theorem OpenInv.add {look : Seg → Seg → Bool} {E : Seg → Prop} (hl : LookEq look E)
    {P : Seg → ℤ → Prop} {o : OpenEdges} (h : OpenInv E P o) {s : Seg} {d : ℤ} (hs : E s)
    (hd : ∀ k, (s, k) ∈ o.distOf → k = d) (hP : P s d) : OpenInv E P (o.add look d s) := by
  have hE : ∀ x ∈ o.distOf, E x.1 := fun x hx => (h.known x hx).1
  refine ⟨emplace_sorted h.sorted, fun x hx => ?_, assign_nodup hl hs hE h.nodup, fun x hx => ?_⟩
  · refine (assign_mem hl hs hE h.nodup _).2 ?_
    rcases emplace_mem hx with rfl | hx
    · exact Or.inl rfl
    · have hx' := h.agree x hx
      by_cases hxs : x.2 = s
      · left
        rw [hxs] at hx' ⊢
        rw [hd _ hx']
      · exact Or.inr ⟨hx', hxs⟩
  · rcases (assign_mem hl hs hE h.nodup _).1 hx with rfl | ⟨hx, -⟩
    · exact ⟨hs, hP⟩
    · exact h.known x hx

theorem eraseAt_sub (d : ℤ) (s : Seg) (l : List (ℤ × Seg)) :
    (OpenEdges.eraseAt d s l).Sublist l := by
  induction l with
  | nil => exact List.Sublist.refl _
  | cons x r ih =>
    simp only [OpenEdges.eraseAt]
    split_ifs
    · exact List.sublist_cons_self _ _
    · exact List.Sublist.refl _
    · exact ih.cons_cons _

theorem sameAs_self (s : Seg) : s.sameAs s = true := by
  simp [Seg.sameAs]

theorem eraseAt_gone {d : ℤ} {s : Seg} {l : List (ℤ × Seg)}
    (hl : l.Pairwise fun x y => x.1 < y.1) : (d, s) ∉ OpenEdges.eraseAt d s l := by
  induction l with
  | nil => simp [OpenEdges.eraseAt]
  | cons x r ih =>
    rw [List.pairwise_cons] at hl
    simp only [OpenEdges.eraseAt]
    have hr : x.1 = d → (d, s) ∉ r := fun hx hm => by
      have := hl.1 _ hm; simp only at this; omega
    split_ifs with h1 h2
    · exact hr h1
    · intro hm
      rcases List.mem_cons.1 hm with h | h
      · rw [← h] at h2; exact h2 (sameAs_self s)
      · exact hr h1 h
    · intro hm
      rcases List.mem_cons.1 hm with h | h
      · rw [← h] at h1; exact h1 rfl
      · exact ih hl.2 h

theorem eraseAt_keeps {d : ℤ} {s : Seg} {l : List (ℤ × Seg)} {x : ℤ × Seg} (h : x ∈ l)
    (hx : x.2.sameAs s = false) : x ∈ OpenEdges.eraseAt d s l := by
  induction l with
  | nil => simp at h
  | cons y r ih =>
    simp only [OpenEdges.eraseAt]
    split_ifs with h1 h2
    · rcases List.mem_cons.1 h with rfl | h
      · rw [hx] at h2; simp at h2
      · exact h
    · exact h
    · rcases List.mem_cons.1 h with rfl | h
      · simp
      · exact List.mem_cons_of_mem _ (ih h)

/-- The segments of `E` that are equal up to direction are equal. -/
def SameEq (E : Seg → Prop) : Prop := ∀ s t, E s → E t → s.sameAs t = true → s = t

theorem OpenInv.remove {look : Seg → Seg → Bool} {E : Seg → Prop} (hl : LookEq look E)
    {P : Seg → ℤ → Prop} {o : OpenEdges} (h : OpenInv E P o) {s : Seg} (hs : E s) :
    OpenInv E (fun t k => P t k ∧ t ≠ s) (o.remove look s) := by
  have hE : ∀ x ∈ o.distOf, E x.1 := fun x hx => (h.known x hx).1
  unfold OpenEdges.remove
  cases hf : o.distOf.find? fun e => look s e.1 with
  | none =>
    have hnone : ∀ x ∈ o.distOf, x.1 ≠ s := by
      intro x hx hxs
      have := List.find?_eq_none.1 hf x hx
      exact this ((hl s x.1 hs (hE x hx)).2 hxs.symm)
    exact h.mono fun x hx hp => ⟨hp, hnone x hx⟩
  | some e =>
    have he := List.mem_of_find?_eq_some hf
    have hlook := List.find?_some hf
    have hes : s = e.1 := (hl s e.1 hs (hE e he)).1 hlook
    have huniq : ∀ k, (s, k) ∈ o.distOf → k = e.2 := by
      intro k hk
      have := List.inj_on_of_nodup_map h.nodup hk he (by simp only; exact hes)
      rw [← this]
    have hd : ∀ x, x ∈ o.distOf.eraseP (fun e => look s e.1) ↔ x ∈ o.distOf ∧ x.1 ≠ s := by
      intro x
      constructor
      · intro hx
        have hm := List.eraseP_subset hx
        refine ⟨hm, fun hxs => ?_⟩
        have hn : (o.distOf.eraseP fun e => look s e.1).length + 1 = o.distOf.length := by
          rw [List.length_eraseP_of_mem he (by rw [hl s e.1 hs (hE e he)]; exact hes)]
          have : 0 < o.distOf.length := List.length_pos_of_mem he
          omega
        obtain ⟨a, l1, l2, hl1, ha, he1, he2⟩ :=
          List.exists_of_eraseP he (p := fun e => look s e.1)
            (by rw [hl s e.1 hs (hE e he)]; exact hes)
        rw [he2] at hx
        have hamem : a ∈ o.distOf := by rw [he1]; simp
        have has : s = a.1 := (hl s a.1 hs (hE a hamem)).1 ha
        have hnd := h.nodup
        rw [he1, List.map_append, List.map_cons, List.nodup_middle, List.nodup_cons] at hnd
        apply hnd.1
        rw [← List.map_append, ← has, ← hxs]
        exact List.mem_map_of_mem hx
      · rintro ⟨hx, hne⟩
        exact (List.mem_eraseP_of_neg (by
          rw [hl s x.1 hs (hE x hx)]; exact fun h => hne h.symm)).2 hx
    refine ⟨h.sorted.sublist (eraseAt_sub _ _ _), fun x hx => ?_, ?_, fun x hx => ?_⟩
    · rw [hd]
      have hx' := eraseAt_mem hx
      refine ⟨h.agree x hx', fun hxs => ?_⟩
      have hxd := h.agree x hx'
      simp only at hxs
      rw [hxs] at hxd
      have : x = (e.2, s) := Prod.ext (huniq _ hxd) hxs
      rw [this] at hx
      exact eraseAt_gone h.sorted hx
    · exact h.nodup.sublist ((List.eraseP_sublist).map _)
    · obtain ⟨h1, h2⟩ := (hd x).1 hx
      exact ⟨hE x h1, (h.known x h1).2, h2⟩

theorem remove_keeps {look : Seg → Seg → Bool} {o : OpenEdges} {s : Seg} {x : ℤ × Seg}
    (h : x ∈ o.byDist) (hx : x.2.sameAs s = false) : x ∈ (o.remove look s).byDist := by
  unfold OpenEdges.remove
  split
  · exact h
  · exact eraseAt_keeps h hx

theorem OpenInv.removes {look : Seg → Seg → Bool} {E : Seg → Prop} (hl : LookEq look E)
    {P : Seg → ℤ → Prop} (cs : List Seg) (hcs : ∀ s ∈ cs, E s) {o : OpenEdges}
    (h : OpenInv E P o) :
    OpenInv E (fun t k => P t k ∧ t ∉ cs) (cs.foldl (fun o s => o.remove look s) o) := by
  induction cs generalizing o P with
  | nil => exact h.mono fun x _ hp => ⟨hp, by simp⟩
  | cons s r ih =>
    have := ih (fun t ht => hcs t (by simp [ht])) (h.remove hl (hcs s (by simp)))
    refine this.mono fun x _ hp => ⟨hp.1.1, ?_⟩
    rw [List.mem_cons, not_or]
    exact ⟨hp.1.2, hp.2⟩

theorem removes_keeps {look : Seg → Seg → Bool} {x : ℤ × Seg} (cs : List Seg)
    (hcs : ∀ s ∈ cs, x.2.sameAs s = false) {o : OpenEdges} (h : x ∈ o.byDist) :
    x ∈ (cs.foldl (fun o s => o.remove look s) o).byDist := by
  induction cs generalizing o with
  | nil => exact h
  | cons s r ih =>
    exact ih (fun t ht => hcs t (by simp [ht])) (remove_keeps h (hcs s (by simp)))

theorem OpenInv.adds {look : Seg → Seg → Bool} {E : Seg → Prop} (hl : LookEq look E)
    {P : Seg → ℤ → Prop} (f : Seg → ℤ) (os : List Seg) (hos : ∀ s ∈ os, E s ∧ P s (f s))
    {o : OpenEdges} (h : OpenInv E P o) (hd : ∀ s ∈ os, ∀ k, (s, k) ∈ o.distOf → k = f s) :
    OpenInv E P (os.foldl (fun o s => o.add look (f s) s) o) := by
  induction os generalizing o with
  | nil => exact h
  | cons s r ih =>
    have hs := hos s (by simp)
    refine ih (fun t ht => hos t (by simp [ht])) (h.add hl hs.1 (hd s (by simp)) hs.2) ?_
    intro t ht k hk
    rcases (assign_mem hl hs.1 (fun x hx => (h.known x hx).1) h.nodup _).1 hk with e | ⟨hk, -⟩
    · obtain ⟨rfl, rfl⟩ := Prod.mk.inj e; rfl
    · exact hd t (by simp [ht]) k hk

theorem adds_keeps {look : Seg → Seg → Bool} (f : Seg → ℤ) {x : ℤ × Seg} (os : List Seg)
    {o : OpenEdges} (h : x ∈ o.byDist) :
    x ∈ (os.foldl (fun o s => o.add look (f s) s) o).byDist := by
  induction os generalizing o with
  | nil => exact h
  | cons s r ih => exact ih (emplace_keeps h)

/-! ### The sweep -/

/-- What the sweep works with, for obstacles without repeated vertices and an observer not inside
an edge. -/
structure World (ps : List (List Coord)) (m : VisMap) (segs : List Seg)
    (look : Seg → Seg → Bool) (obs : Coord) : Prop where
  map : MapOf ps m
  segs : ∀ s, s ∈ segs ↔ EdgeOf ps s
  look : LookOk look
  range : ∀ v ∈ ps.flatten, v.Per
  simple : Simple ps
  here : obs.Per
  lon : obs.lon < maxPeriodicLon
  off : ∀ s, EdgeOf ps s → obs ≠ s.p → obs ≠ s.q → ¬ OnSeg s obs.lon obs.lat

theorem Beside.ne {obs : Coord} {s : Seg} (h : Beside obs s) : obs ≠ s.p ∧ obs ≠ s.q := by
  unfold Beside area2 at h
  constructor
  · intro e; apply h; rw [e]; ring
  · intro e; apply h; rw [e]; ring

section
variable {ps : List (List Coord)} {m : VisMap} {segs : List Seg} {look : Seg → Seg → Bool}
  {obs : Coord}

theorem World.lookEq (W : World ps m segs look obs) : LookEq look (Wall ps obs) := by
  intro s t hs ht
  refine ⟨fun h => W.simple.edge_eq hs.1 ht.1 (W.look.2 s t h), ?_⟩
  rintro rfl
  exact W.look.1 s

theorem World.not_same (W : World ps m segs look obs) {s t : Seg} (hs : EdgeOf ps s)
    (ht : EdgeOf ps t) (hne : s ≠ t) : s.sameAs t = false := by
  by_contra h
  rw [Bool.not_eq_false] at h
  exact hne (W.simple.edge_eq hs ht h)

theorem World.wall {s : Seg} (hs : EdgeOf ps s) (hb : Beside obs s) : Wall ps obs s :=
  ⟨hs, hb.ne.1, hb.ne.2⟩

theorem World.mem_orient (W : World ps m segs look obs) {w : Coord} (hw : w ∈ ps.flatten)
    (s : Seg) :
    (s ∈ orientSegs (incident m w) obs w .clockwise ↔
      EdgeOf ps s ∧ Beside obs s ∧ endOf obs s = w) ∧
    (s ∈ orientSegs (incident m w) obs w .counterClockwise ↔
      EdgeOf ps s ∧ Beside obs s ∧ startOf obs s = w) := by
  obtain ⟨a, b, hc, hi, hu⟩ := W.simple.incident_form W.map hw
  have hinc : s ∈ incident m w ↔ EdgeOf ps s ∧ (s.q = w ∨ s.p = w) := by
    constructor
    · exact fun h => W.map.incident h
    · rintro ⟨hs, h | h⟩
      · rw [hi, (hu s hs).1.1 h]; simp
      · rw [hi, (hu s hs).2.1 h]; simp
  unfold orientSegs
  constructor
  · rw [List.mem_filter, hinc, beq_iff_eq]
    constructor
    · rintro ⟨⟨hs, he⟩, ho⟩
      exact ⟨hs, ((orient_iff he (W.simple.ends_ne hs)).1).1 ho⟩
    · rintro ⟨hs, hb, he⟩
      have he' : s.q = w ∨ s.p = w := by
        rcases ends_mem obs s with ⟨_, h⟩ | ⟨_, h⟩
        · left; rw [← h, he]
        · right; rw [← h, he]
      exact ⟨⟨hs, he'⟩, ((orient_iff he' (W.simple.ends_ne hs)).1).2 ⟨hb, he⟩⟩
  · rw [List.mem_filter, hinc, beq_iff_eq]
    constructor
    · rintro ⟨⟨hs, he⟩, ho⟩
      exact ⟨hs, ((orient_iff he (W.simple.ends_ne hs)).2).1 ho⟩
    · rintro ⟨hs, hb, he⟩
      have he' : s.q = w ∨ s.p = w := by
        rcases ends_mem obs s with ⟨h, _⟩ | ⟨h, _⟩
        · right; rw [← h, he]
        · left; rw [← h, he]
      exact ⟨⟨hs, he'⟩, ((orient_iff he' (W.simple.ends_ne hs)).2).2 ⟨hb, he⟩⟩

/-- The key of an edge opened at `w` is the squared distance of `w`. -/
theorem World.openDist_eq (W : World ps m segs look obs) {w : Coord} (hw : w ∈ ps.flatten)
    {s : Seg} (hs : EdgeOf ps s) (hb : Beside obs s) (hst : startOf obs s = w) :
    openDist obs w s = dist2 obs w := by
  have he : s.q = w ∨ s.p = w := by
    rcases ends_mem obs s with ⟨h, _⟩ | ⟨h, _⟩
    · right; rw [← h, hst]
    · left; rw [← h, hst]
  have hm := edge_mem hs
  have hD := (intersect_beside (o := .counterClockwise) (by simp) he
    ((orient_iff he (W.simple.ends_ne hs)).2.2 ⟨hb, hst⟩)).1
  have hon : OnSeg s w.lon w.lat := by
    rcases he with rfl | rfl
    · exact OnSeg_right s
    · exact OnSeg_left s
  have hx := C07_exact_at_lattice s ⟨obs, w⟩ (W.range _ hm.1) (W.range _ hm.2) W.here
    (W.range _ hw) ((nonParallel_iff _ _).2 hD) w hon (OnSeg_right (Seg.mk obs w))
  rw [Seg.intersectC_ok (W.range _ hm.1) (W.range _ hm.2) W.here (W.range _ hw),
    Except.ok.injEq] at hx
  unfold openDist
  rw [hx]
  simp only [Coord.magSq, sub_lon, sub_lat, dist2]
  ring

/-- Open after the vertices `pre`. -/
def Opened (obs : Coord) (pre : List Coord) (s : Seg) (k : ℤ) : Prop :=
  Beside obs s ∧
    ((AcrossEast obs s ∧ endOf obs s ∉ pre ∧ EastDist obs s k) ∨
      (startOf obs s ∈ pre ∧
        (SweepBefore obs (endOf obs s) (startOf obs s) ∨ endOf obs s ∉ pre) ∧
        k = dist2 obs (startOf obs s)))

/-- One vertex of the sweep. -/
def sweepStep (look : Seg → Seg → Bool) (m : VisMap) (obs : Coord) (o : OpenEdges) (w : Coord) :
    OpenEdges :=
  if obs = w then o else openAt look m obs w (closeAt look m obs w o)

theorem loop_mem (pre post : List Coord) (v : Coord) (hv : v ≠ obs) (o : OpenEdges)
    (hn : (pre ++ v :: post).Nodup) :
    v ∈ loop look m obs false (pre ++ v :: post) o ↔
      isVisible m (closeAt look m obs v (pre.foldl (sweepStep look m obs) o)) obs v = true := by
  induction pre generalizing o with
  | nil =>
    rw [List.nil_append, List.nodup_cons] at hn
    have hnot : ∀ o, v ∉ loop look m obs false post o := fun o h =>
      hn.1 ((loop_sublist _ _ _ _ _ _).1.subset h)
    simp only [List.nil_append, loop, List.foldl_nil, if_neg (Ne.symm hv), Bool.false_and,
      Bool.false_eq_true, if_false]
    split_ifs with h
    · simp [h]
    · exact iff_of_false (hnot _) h
  | cons w r ih =>
    rw [List.cons_append, List.nodup_cons] at hn
    have hwv : v ≠ w := by
      rintro rfl; exact hn.1 (by simp)
    rw [List.cons_append, List.foldl_cons]
    unfold sweepStep
    simp only [loop, Bool.false_and, Bool.false_eq_true, if_false]
    split_ifs with h1 h2
    · exact ih _ hn.2
    · rw [List.mem_cons]
      simp only [hwv, false_or]
      exact ih _ hn.2
    · exact ih _ hn.2

theorem World.init (W : World ps m segs look obs) (l : List Seg) (hl : ∀ s ∈ l, EdgeOf ps s)
    (o : OpenEdges)
    (h : OpenInv (Wall ps obs) (fun s k => Beside obs s ∧ AcrossEast obs s ∧ EastDist obs s k ∧
      ∃ x, s.intersect (initialScanline obs) = some x ∧ k = (x.sub obs).magSq) o) :
    OpenInv (Wall ps obs) (fun s k => Beside obs s ∧ AcrossEast obs s ∧ EastDist obs s k ∧
      ∃ x, s.intersect (initialScanline obs) = some x ∧ k = (x.sub obs).magSq)
      (l.foldl (openInitial look obs) o) := by
  induction l generalizing o with
  | nil => exact h
  | cons s r ih =>
    refine ih (fun t ht => hl t (by simp [ht])) _ ?_
    have hs := hl s (by simp)
    have hm := edge_mem hs
    unfold openInitial
    by_cases h1 : obs = s.p ∨ obs = s.q
    · rw [if_pos h1]; exact h
    · rw [if_neg h1]
      push Not at h1
      cases hx : s.intersect (initialScanline obs) with
      | none => exact h
      | some x =>
        simp only
        split_ifs with h2
        · rw [Bool.and_eq_true, Bool.not_eq_true', Bool.not_eq_true'] at h2
          obtain ⟨a1, a2, a3⟩ := init_sound W.here W.lon (W.range _ hm.1) (W.range _ hm.2) h1.1 h1.2
            (W.off s hs h1.1 h1.2) hx h2.1 h2.2
          refine h.add W.lookEq ⟨hs, h1⟩ ?_ ⟨a1, a2, a3, x, hx, rfl⟩
          intro k hk
          obtain ⟨_, _, _, _, x', hx', rfl⟩ := h.known _ hk
          simp only at hx'
          rw [hx] at hx'
          rw [Option.some.inj hx']
        · exact h

theorem World.start (W : World ps m segs look obs) :
    OpenInv (Wall ps obs) (Opened obs []) (initialOpen look obs segs) := by
  have := W.init segs (fun s hs => (W.segs s).1 hs) .empty
    ⟨by simp [OpenEdges.empty], by simp [OpenEdges.empty], by simp [OpenEdges.empty],
      by simp [OpenEdges.empty]⟩
  exact this.mono fun x _ h => ⟨h.1, Or.inl ⟨h.2.1, by simp, h.2.2.1⟩⟩

/-- An edge across the east with a distance of its own is stored at the start. -/
theorem World.start_stored (W : World ps m segs look obs) {e : Seg} (he : EdgeOf ps e)
    (hb : Beside obs e) (ha : AcrossEast obs e)
    (hd : ∀ s d, EdgeOf ps s → s ≠ e → AcrossEast obs s → EastDist obs e d → ¬ EastDist obs s d) :
    ∃ K, EastDist obs e K ∧ (K, e) ∈ (initialOpen look obs segs).byDist := by
  have hm := edge_mem he
  obtain ⟨h1, h2, h3⟩ := init_complete W.here W.lon (W.range _ hm.1) (W.range _ hm.2) hb ha
  obtain ⟨x, hx⟩ := Option.isSome_iff_exists.1 h1
  have hsnd := init_sound W.here W.lon (W.range _ hm.1) (W.range _ hm.2) hb.ne.1 hb.ne.2
    (W.off e he hb.ne.1 hb.ne.2) hx h2 h3
  refine ⟨_, hsnd.2.2, ?_⟩
  obtain ⟨l1, l2, hsplit⟩ := List.append_of_mem ((W.segs e).2 he)
  unfold initialOpen
  have hsub : ∀ s ∈ l1, EdgeOf ps s := fun s hs =>
    (W.segs s).1 (by rw [hsplit]; exact List.mem_append_left _ hs)
  have hI := W.init l1 hsub .empty
    ⟨by simp [OpenEdges.empty], by simp [OpenEdges.empty], by simp [OpenEdges.empty],
      by simp [OpenEdges.empty]⟩
  rw [hsplit, List.foldl_append, List.foldl_cons]
  have hkeep : ∀ (l : List Seg) (o : OpenEdges) (y : ℤ × Seg), y ∈ o.byDist →
      y ∈ (l.foldl (openInitial look obs) o).byDist := by
    intro l
    induction l with
    | nil => exact fun _ _ h => h
    | cons s r ih =>
      intro o y hy
      refine ih _ y ?_
      unfold openInitial
      split
      · exact hy
      · split
        · split
          · exact emplace_keeps hy
          · exact hy
        · exact hy
  apply hkeep
  generalize l1.foldl (openInitial look obs) .empty = o at hI
  unfold openInitial
  rw [if_neg (by push Not; exact hb.ne), hx]
  simp only [h2, h3, Bool.not_false, Bool.and_self, if_true]
  refine emplace_new ?_
  intro y hy hk
  by_contra hne
  obtain ⟨hw, -, k2, k3, -⟩ := hI.known _ (hI.agree y hy)
  simp only at hw k2 k3
  rw [hk] at k3
  exact hd _ _ hw.1 hne k2 hsnd.2.2 k3

/-- Closing at `w`. -/
theorem World.close (W : World ps m segs look obs) {w : Coord} (hw : w ∈ ps.flatten)
    {P : Seg → ℤ → Prop} {o : OpenEdges} (h : OpenInv (Wall ps obs) P o) :
    OpenInv (Wall ps obs) (fun s k => P s k ∧ (Beside obs s → endOf obs s ≠ w))
      (closeAt look m obs w o) := by
  refine (h.removes W.lookEq _ fun s hs => ?_).mono ?_
  · obtain ⟨h1, h2, -⟩ := ((W.mem_orient hw s).1).1 hs
    exact ⟨h1, h2.ne⟩
  · intro x hx hp
    refine ⟨hp.1, fun hb he => hp.2 ?_⟩
    refine ((W.mem_orient hw x.1).1).2 ⟨?_, hb, he⟩
    have hsub := h.removes W.lookEq (orientSegs (incident m w) obs w .clockwise) (fun s hs => by
      obtain ⟨h1, h2, -⟩ := ((W.mem_orient hw s).1).1 hs
      exact ⟨h1, h2.ne⟩)
    exact (hsub.known x hx).1.1

theorem World.close_keeps (W : World ps m segs look obs) {w : Coord} (hw : w ∈ ps.flatten)
    {o : OpenEdges} {e : Seg} (he : EdgeOf ps e) (hne : endOf obs e ≠ w) {K : ℤ}
    (h : (K, e) ∈ o.byDist) : (K, e) ∈ (closeAt look m obs w o).byDist := by
  refine removes_keeps _ (fun s hs => ?_) h
  obtain ⟨h1, -, h3⟩ := ((W.mem_orient hw s).1).1 hs
  refine W.not_same he h1 ?_
  rintro rfl
  exact hne h3

theorem World.step_keeps (W : World ps m segs look obs) {w : Coord} (hw : w ∈ ps.flatten)
    {o : OpenEdges} {e : Seg} (he : EdgeOf ps e) (hne : endOf obs e ≠ w) {K : ℤ}
    (h : (K, e) ∈ o.byDist) : (K, e) ∈ (sweepStep look m obs o w).byDist := by
  unfold sweepStep
  split_ifs
  · exact h
  · exact adds_keeps _ _ (W.close_keeps hw he hne h)

theorem World.steps_keep (W : World ps m segs look obs) (l : List Coord)
    (hl : ∀ w ∈ l, w ∈ ps.flatten) {o : OpenEdges} {e : Seg} (he : EdgeOf ps e)
    (hne : endOf obs e ∉ l) {K : ℤ} (h : (K, e) ∈ o.byDist) :
    (K, e) ∈ (l.foldl (sweepStep look m obs) o).byDist := by
  induction l generalizing o with
  | nil => exact h
  | cons w r ih =>
    rw [List.mem_cons, not_or] at hne
    exact ih (fun x hx => hl x (by simp [hx])) hne.2 (W.step_keeps (hl w (by simp)) he hne.1 h)

theorem sweep_asymm {obs a b : Coord} (h1 : SweepBefore obs a b) (h2 : SweepBefore obs b a) :
    False := by
  have h := sweep_trans h1 h2
  unfold SweepBefore at h
  rcases h with ⟨h, h'⟩ | ⟨_, _, h | ⟨_, h⟩⟩
  · exact h' h
  · exact lt_irrefl _ h
  · exact lt_irrefl _ h

/-- Edges met at different distances. -/
theorem Distinct.of_distances {ps : List (List Coord)} {obs : Coord} {e : Seg}
    (east : ∀ s d, EdgeOf ps s → s ≠ e → AcrossEast obs s → AcrossEast obs e → EastDist obs e d →
      ¬ EastDist obs s d)
    (mixed : ∀ s, EdgeOf ps s → s ≠ e → AcrossEast obs s →
      ¬ EastDist obs s (dist2 obs (startOf obs e)))
    (start : ∀ s, EdgeOf ps s → s ≠ e → Beside obs s →
      dist2 obs (startOf obs s) = dist2 obs (startOf obs e) →
      startOf obs s = startOf obs e ∧ e.q = startOf obs e) : Distinct ps obs e := by
  refine ⟨east, fun s hs hne hF => ?_, fun s hs hne hb h => (start s hs hne hb (by rw [h])).2⟩
  obtain ⟨hb, ⟨h1, -, h3⟩ | ⟨h1, -, h3⟩⟩ := hF
  · exact mixed s hs hne h1 h3
  · have := (start s hs hne hb h3.symm).1
    rw [this] at h1
    exact sweep_asymm h1 h1

/-- The list the sweep runs over. -/
structure Order (ps : List (List Coord)) (obs : Coord) (L : List Coord) : Prop where
  sorted : L.Pairwise (SweepBefore obs)
  nodup : L.Nodup
  mem : ∀ w, w ∈ L ↔ w ∈ ps.flatten

theorem Order.before {pre rest : List Coord} {w a : Coord}
    (O : Order ps obs (pre ++ w :: rest)) (ha : a ∈ ps.flatten) (h : SweepBefore obs a w) :
    a ∈ pre := by
  rcases List.mem_append.1 ((O.mem a).2 ha) with h' | h'
  · exact h'
  · exfalso
    rcases List.mem_cons.1 h' with rfl | h'
    · exact sweep_asymm h h
    · have := (List.pairwise_cons.1 (List.pairwise_append.1 O.sorted).2.1).1 a h'
      exact sweep_asymm h this

theorem Order.of_mem {pre rest : List Coord} {w a : Coord}
    (O : Order ps obs (pre ++ w :: rest)) (ha : a ∈ pre) : SweepBefore obs a w :=
  (List.pairwise_append.1 O.sorted).2.2 a ha w (by simp)

theorem Order.after {pre rest : List Coord} {w a : Coord}
    (O : Order ps obs (pre ++ w :: rest)) (ha : a ∈ ps.flatten) (h : a ∉ pre) (hw : a ≠ w) :
    SweepBefore obs w a := by
  rcases List.mem_append.1 ((O.mem a).2 ha) with h' | h'
  · exact absurd h' h
  · rcases List.mem_cons.1 h' with rfl | h'
    · exact absurd rfl hw
    · exact (List.pairwise_cons.1 (List.pairwise_append.1 O.sorted).2.1).1 a h'

theorem ends_vertices {s : Seg} (hs : EdgeOf ps s) :
    startOf obs s ∈ ps.flatten ∧ endOf obs s ∈ ps.flatten := by
  have hm := edge_mem hs
  rcases ends_mem obs s with ⟨h1, h2⟩ | ⟨h1, h2⟩ <;> rw [h1, h2]
  · exact hm
  · exact hm.symm

theorem ends_ne_obs {s : Seg} (hb : Beside obs s) : startOf obs s ≠ obs ∧ endOf obs s ≠ obs := by
  have hm := hb.ne
  rcases ends_mem obs s with ⟨h1, h2⟩ | ⟨h1, h2⟩ <;> rw [h1, h2]
  · exact ⟨hm.1.symm, hm.2.symm⟩
  · exact ⟨hm.2.symm, hm.1.symm⟩

theorem World.inv (W : World ps m segs look obs) (pre : List Coord) :
    ∀ rest, Order ps obs (pre ++ rest) →
    OpenInv (Wall ps obs) (Opened obs pre)
      (pre.foldl (sweepStep look m obs) (initialOpen look obs segs)) := by
  induction pre using List.reverseRecOn with
  | nil => exact fun _ _ => W.start
  | append_singleton pre w ih =>
    intro rest O
    rw [List.append_assoc] at O
    have hI := ih _ O
    have hw : w ∈ ps.flatten := (O.mem w).1 (by simp)
    have hwpre : w ∉ pre := fun h => by
      have := O.of_mem h
      exact sweep_asymm this this
    rw [List.foldl_append, List.foldl_cons, List.foldl_nil]
    generalize pre.foldl (sweepStep look m obs) (initialOpen look obs segs) = o at hI
    have mono : ∀ s k, Opened obs pre s k → endOf obs s ≠ w → Opened obs (pre ++ [w]) s k := by
      rintro s k ⟨hb, ⟨h1, h2, h3⟩ | ⟨h1, h2, h3⟩⟩ hne
      · refine ⟨hb, Or.inl ⟨h1, ?_, h3⟩⟩
        simp [h2, hne]
      · refine ⟨hb, Or.inr ⟨by simp [h1], ?_, h3⟩⟩
        rcases h2 with h2 | h2
        · exact Or.inl h2
        · right; simp [h2, hne]
    unfold sweepStep
    split_ifs with how
    · refine hI.mono fun x _ hp => mono _ _ hp ?_
      rw [← how]; exact (ends_ne_obs hp.1).2
    · have hC := W.close hw hI
      have hos : ∀ s ∈ orientSegs (incident m w) obs w .counterClockwise,
          Wall ps obs s ∧ Opened obs (pre ++ [w]) s (openDist obs w s) := by
        intro s hs
        obtain ⟨h1, h2, h3⟩ := ((W.mem_orient hw s).2).1 hs
        refine ⟨⟨h1, h2.ne⟩, h2, Or.inr ⟨by simp [h3], ?_, ?_⟩⟩
        · by_cases he : endOf obs s ∈ pre
          · left; rw [h3]; exact O.of_mem he
          · right
            have := ends_ne h2
            rw [h3] at this
            simp [he, this.symm]
        · rw [h3]; exact W.openDist_eq hw h1 h2 h3
      have hd : ∀ s ∈ orientSegs (incident m w) obs w .counterClockwise, ∀ k,
          (s, k) ∈ (closeAt look m obs w o).distOf → k = openDist obs w s := by
        intro s hs k hk
        exfalso
        obtain ⟨h1, h2, h3⟩ := ((W.mem_orient hw s).2).1 hs
        obtain ⟨-, ⟨-, h⟩, -⟩ := hC.known _ hk
        rcases h with ⟨h4, h5, -⟩ | ⟨h4, -, -⟩
        · have := across_wraps h4
          simp only at this h5
          rw [h3] at this
          exact h5 (O.before (ends_vertices h1).2 this)
        · simp only at h4
          rw [h3] at h4; exact hwpre h4
      refine OpenInv.adds W.lookEq _ _ hos (hC.mono fun x _ hp => mono _ _ hp.1 (hp.2 hp.1.1)) hd

theorem filter_pair {p : Seg → Bool} {x y e : Seg} (hm : e ∈ [x, y].filter p)
    (h : e = x ∨ p x = false) : ∃ r, [x, y].filter p = e :: r := by
  rcases h with rfl | h
  · have := (List.mem_filter.1 hm).2
    simp [List.filter_cons, this]
  · simp only [List.filter_cons, h, Bool.false_eq_true, if_false] at hm ⊢
    split_ifs at hm ⊢ with hy
    · simp only [List.filter_nil, List.mem_singleton] at hm
      rw [hm]; exact ⟨_, rfl⟩
    · simp at hm

/-- An edge is stored at its first end if there is no other entry at its distance. -/
theorem World.stored_of (W : World ps m segs look obs) {e : Seg} (he : EdgeOf ps e)
    (hb : Beside obs e)
    (hstart : ∀ s, EdgeOf ps s → s ≠ e → Beside obs s → startOf obs s = startOf obs e →
      e.q = startOf obs e) {pre : List Coord}
    (hfree : ∀ x ∈ (closeAt look m obs (startOf obs e)
      (pre.foldl (sweepStep look m obs) (initialOpen look obs segs))).byDist,
      x.1 = dist2 obs (startOf obs e) → x.2 = e) :
    (dist2 obs (startOf obs e), e) ∈
      ((pre ++ [startOf obs e]).foldl (sweepStep look m obs) (initialOpen look obs segs)).byDist := by
  have hw := (ends_vertices (obs := obs) he).1
  rw [List.foldl_append, List.foldl_cons, List.foldl_nil]
  generalize pre.foldl (sweepStep look m obs) (initialOpen look obs segs) = o at hfree
  unfold sweepStep
  rw [if_neg (ends_ne_obs hb).1.symm]
  unfold openAt
  generalize closeAt look m obs (startOf obs e) o = o' at hfree
  obtain ⟨a, b, hc, hi, hu⟩ := W.simple.incident_form W.map hw
  have hmem := ((W.mem_orient hw e).2).2 ⟨he, hb, rfl⟩
  have hhead : ∃ r, orientSegs (incident m (startOf obs e)) obs (startOf obs e) .counterClockwise =
      e :: r := by
    unfold orientSegs at hmem ⊢
    rw [hi] at hmem ⊢
    refine filter_pair hmem ?_
    by_cases hq : e = ⟨a, startOf obs e⟩
    · exact Or.inl hq
    · right
      by_contra hpos
      rw [Bool.not_eq_false] at hpos
      have hm : (Seg.mk a (startOf obs e)) ∈
          orientSegs (incident m (startOf obs e)) obs (startOf obs e) .counterClockwise := by
        unfold orientSegs
        rw [hi]
        exact List.mem_filter.2 ⟨by simp, hpos⟩
      obtain ⟨h1, h2, h3⟩ := ((W.mem_orient hw _).2).1 hm
      have := hstart _ h1 (fun e' => hq e'.symm) h2 h3
      exact hq ((hu e he).1.1 this)
  obtain ⟨r, hr⟩ := hhead
  rw [hr, List.foldl_cons]
  refine adds_keeps _ _ ?_
  rw [W.openDist_eq hw he hb rfl]
  exact emplace_new hfree

/-- An edge with a distance of its own is stored at its first end. -/
theorem World.stored (W : World ps m segs look obs) {e : Seg} (he : EdgeOf ps e)
    (hb : Beside obs e) (D : Distinct ps obs e) {pre rest : List Coord}
    (O : Order ps obs (pre ++ startOf obs e :: rest)) :
    (dist2 obs (startOf obs e), e) ∈
      ((pre ++ [startOf obs e]).foldl (sweepStep look m obs) (initialOpen look obs segs)).byDist := by
  have hC := W.close (ends_vertices (obs := obs) he).1 (W.inv pre _ O)
  refine W.stored_of he hb D.start fun x hx hk => ?_
  by_contra hne
  obtain ⟨hwall, ⟨hbx, h⟩, hend⟩ := hC.known _ (hC.agree x hx)
  simp only at hwall hbx h hend
  have hmx := ends_vertices (obs := obs) hwall.1
  rw [hk] at h
  refine D.filed _ hwall.1 hne ⟨hbx, ?_⟩
  rcases h with ⟨h1, h2, h3⟩ | ⟨h1, h2, h3⟩
  · exact Or.inl ⟨h1, O.after hmx.2 h2 (hend hbx), h3⟩
  · refine Or.inr ⟨O.of_mem h1, ?_, h3⟩
    rcases h2 with h2 | h2
    · exact Or.inl h2
    · exact Or.inr (O.after hmx.2 h2 (hend hbx))

/-- An edge across the east with a distance of its own stays stored until left. -/
theorem World.stored_east (W : World ps m segs look obs) {e : Seg} (he : EdgeOf ps e)
    (hb : Beside obs e) (h1 : AcrossEast obs e)
    (hd : ∀ s d, EdgeOf ps s → s ≠ e → AcrossEast obs s → EastDist obs e d → ¬ EastDist obs s d)
    {pre rest : List Coord} {v : Coord} (O : Order ps obs (pre ++ v :: rest))
    (h2 : SweepBefore obs v (endOf obs e)) :
    ∃ K, EastDist obs e K ∧ (K, e) ∈ (closeAt look m obs v
      (pre.foldl (sweepStep look m obs) (initialOpen look obs segs))).byDist := by
  have hv : v ∈ ps.flatten := (O.mem v).1 (by simp)
  have hpre : ∀ w ∈ pre, w ∈ ps.flatten := fun w hw => (O.mem w).1 (by simp [hw])
  obtain ⟨K, hK, hm⟩ := W.start_stored he hb h1 hd
  refine ⟨K, hK, W.close_keeps hv he ?_ (W.steps_keep pre hpre he ?_ hm)⟩
  · intro e; rw [e] at h2; exact sweep_asymm h2 h2
  · exact fun hp => sweep_asymm h2 (O.of_mem hp)

/-- An edge stored at its first end stays stored until left. -/
theorem World.stored_met (W : World ps m segs look obs) {e : Seg} (he : EdgeOf ps e)
    {pre rest : List Coord} {v : Coord}
    (hst : ∀ pre rest, Order ps obs (pre ++ startOf obs e :: rest) →
      (dist2 obs (startOf obs e), e) ∈ ((pre ++ [startOf obs e]).foldl (sweepStep look m obs)
        (initialOpen look obs segs)).byDist)
    (O : Order ps obs (pre ++ v :: rest)) (h1 : SweepBefore obs (startOf obs e) v)
    (h2 : SweepBefore obs (endOf obs e) (startOf obs e) ∨ SweepBefore obs v (endOf obs e)) :
    (dist2 obs (startOf obs e), e) ∈ (closeAt look m obs v
      (pre.foldl (sweepStep look m obs) (initialOpen look obs segs))).byDist := by
  have hv : v ∈ ps.flatten := (O.mem v).1 (by simp)
  have hpre : ∀ w ∈ pre, w ∈ ps.flatten := fun w hw => (O.mem w).1 (by simp [hw])
  have hnot : ∀ {a}, SweepBefore obs v a → a ∉ pre ∧ a ≠ v := fun h =>
    ⟨fun hp => sweep_asymm h (O.of_mem hp), fun e => by rw [e] at h; exact sweep_asymm h h⟩
  have hin := O.before (ends_vertices he).1 h1
  obtain ⟨p1, p2, hp⟩ := List.append_of_mem hin
  have O' : Order ps obs (p1 ++ startOf obs e :: (p2 ++ v :: rest)) := by
    rw [hp, List.append_assoc, List.cons_append] at O; exact O
  have hend : endOf obs e ∉ p2 ∧ endOf obs e ≠ v := by
    rcases h2 with h2 | h2
    · constructor
      · intro hm
        have : SweepBefore obs (startOf obs e) (endOf obs e) :=
          (List.pairwise_cons.1 (List.pairwise_append.1 O'.sorted).2.1).1 _
            (List.mem_append_left _ hm)
        exact sweep_asymm h2 this
      · intro ev
        rw [ev] at h2
        exact sweep_asymm h1 h2
    · obtain ⟨a1, a2⟩ := hnot h2
      refine ⟨fun hm => a1 ?_, a2⟩
      rw [hp]; simp [hm]
  refine W.close_keeps hv he hend.2 ?_
  have := hst _ _ O'
  rw [hp, show p1 ++ startOf obs e :: p2 = (p1 ++ [startOf obs e]) ++ p2 by simp,
    List.foldl_append]
  exact W.steps_keep p2 (fun w hw => hpre w (by rw [hp]; simp [hw])) he hend.1 this

/-- With an edge met at a distance of its own and not yet left, the closest open edge is this one
or another one met nearer. -/
theorem World.closest_le (W : World ps m segs look obs) {e : Seg} (he : EdgeOf ps e)
    (D : Distinct ps obs e) {pre rest : List Coord} {v : Coord} {K : ℤ}
    (O : Order ps obs (pre ++ v :: rest)) (hF : Filed obs v e K) :
    ∃ c k K', (closeAt look m obs v
      (pre.foldl (sweepStep look m obs) (initialOpen look obs segs))).closest = some c ∧
      EdgeOf ps c ∧ Filed obs v c k ∧ Filed obs v e K' ∧ (c = e ∨ k < K') := by
  have hv : v ∈ ps.flatten := (O.mem v).1 (by simp)
  have hI := W.inv pre _ O
  have hC := W.close hv hI
  obtain ⟨hb, hF⟩ := hF
  -- the edge is stored
  have hst : ∃ K', Filed obs v e K' ∧ (K', e) ∈ (closeAt look m obs v
      (pre.foldl (sweepStep look m obs) (initialOpen look obs segs))).byDist := by
    rcases hF with ⟨h1, h2, h3⟩ | ⟨h1, h2, h3⟩
    · obtain ⟨K', hK', hm⟩ := W.stored_east he hb h1
        (fun s d hs hne ha => D.east s d hs hne ha h1) O h2
      exact ⟨K', ⟨hb, Or.inl ⟨h1, h2, hK'⟩⟩, hm⟩
    · exact ⟨_, ⟨hb, Or.inr ⟨h1, h2, rfl⟩⟩, W.stored_met he (fun _ _ O => W.stored he hb D O) O h1 h2⟩
  obtain ⟨K', hK', hmem⟩ := hst
  generalize closeAt look m obs v
    (pre.foldl (sweepStep look m obs) (initialOpen look obs segs)) = o at hC hmem
  unfold OpenEdges.closest
  cases hbd : o.byDist with
  | nil => rw [hbd] at hmem; simp at hmem
  | cons x r =>
    rw [hbd] at hmem
    obtain ⟨hwall, ⟨hbx, hx⟩, hend⟩ := hC.known _ (hC.agree x (by rw [hbd]; simp))
    simp only at hwall hbx hx hend
    have hmx := ends_vertices (obs := obs) hwall.1
    have hFx : Filed obs v x.2 x.1 := by
      refine ⟨hbx, ?_⟩
      rcases hx with ⟨h1, h2, h3⟩ | ⟨h1, h2, h3⟩
      · exact Or.inl ⟨h1, O.after hmx.2 h2 (hend hbx), h3⟩
      · refine Or.inr ⟨O.of_mem h1, ?_, h3⟩
        rcases h2 with h2 | h2
        · exact Or.inl h2
        · exact Or.inr (O.after hmx.2 h2 (hend hbx))
    refine ⟨x.2, x.1, K', rfl, hwall.1, hFx, hK', ?_⟩
    rcases List.mem_cons.1 hmem with h | h
    · left; rw [← h]
    · right
      have hs := hC.sorted
      rw [hbd] at hs
      exact (List.pairwise_cons.1 hs).1 (K', e) h

/-- The edge met nearest, with a distance of its own, is the closest open edge. -/
theorem World.closest (W : World ps m segs look obs) {e : Seg} (he : EdgeOf ps e)
    (D : Distinct ps obs e) {pre rest : List Coord} {v : Coord} {K : ℤ}
    (O : Order ps obs (pre ++ v :: rest)) (hF : Filed obs v e K)
    (hmin : ∀ s k K, EdgeOf ps s → s ≠ e → Filed obs v s k → Filed obs v e K → K ≤ k) :
    (closeAt look m obs v
      (pre.foldl (sweepStep look m obs) (initialOpen look obs segs))).closest = some e := by
  obtain ⟨c, k, K', h1, h2, h3, h4, h5⟩ := W.closest_le he D O hF
  rw [h1]
  congr 1
  by_contra hne
  have := hmin _ _ _ h2 hne h3 h4
  rcases h5 with h5 | h5
  · exact hne h5
  · omega

end

end Capi
