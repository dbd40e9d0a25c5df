import Verif.Lemmas.Convex

/-!
# C70: convex obstacles, and obstacles in front of others, hide what is behind them

C35 shows by examples that a vertex behind an edge may be reported.  Here are two natural situations
in which it never is, and one in which the answer is exactly the set of visible vertices.
-/

namespace Capi

open Vistree

theorem distinct_of {ps : List (List Coord)} {A : List Coord} {obs : Coord} {e : Seg}
    (hN : NoTies A obs) (he : EdgeOf [A] e) (hq : e.q = startOf obs e)
    (hsep : ∀ s, EdgeOf ps s → ¬ EdgeOf [A] s →
      (∀ d, EastDist obs e d → ¬ EastDist obs s d) ∧ ¬ EastDist obs s (dist2 obs (startOf obs e)) ∧
        dist2 obs (startOf obs s) ≠ dist2 obs (startOf obs e)) : Distinct ps obs e := by
  have hst : ∀ {s : Seg}, EdgeOf [A] s → startOf obs s ∈ A := by
    intro s hs
    have m := edge_in hs
    rcases ends_mem obs s with ⟨a, -⟩ | ⟨a, -⟩ <;> rw [a]
    · exact m.1
    · exact m.2
  refine .of_distances ?_ ?_ ?_
  · intro s d hs hne ha hae hd
    by_cases h : EdgeOf [A] s
    · exact hN.east e s d he h (Ne.symm hne) hae ha hd
    · exact (hsep s hs h).1 d hd
  · intro s hs hne ha
    by_cases h : EdgeOf [A] s
    · exact hN.mixed s h ha _ (hst he)
    · exact (hsep s hs h).2.1
  · intro s hs hne _ hd
    by_cases h : EdgeOf [A] s
    · exact ⟨hN.vertices _ (hst h) _ (hst he) hd, hq⟩
    · exact absurd hd (hsep s hs h).2.2

theorem near_start {obs : Coord} {e : Seg} (h : area2 e.p e.q obs < 0) : e.q = startOf obs e := by
  have : area2 obs e.p e.q = area2 e.p e.q obs := by unfold area2; ring
  unfold startOf
  rw [if_neg (by rw [this]; omega)]

/-- **C70** A vertex of a strictly convex polygon that lies behind one of its edges, a microdegree
or more, is not reported. -/
theorem C70_convex_copies (p : List Coord) (m : VisMap) (segs : List Seg) (look : Seg → Seg → Bool)
    (h : Setup [p] m segs look) (hc : Convex p) (hnd : p.Nodup) (hlen : 3 ≤ p.length)
    (obs v : Coord) (ho : obs.Per) (hlon : obs.lon < 540000001) (hties : NoTies p obs) (hv : v ∈ p)
    (e : Seg) (he : EdgeOf [p] e) (hcross : Crosses obs v e)
    (hfar : ∀ x y : ℚ, OnSeg e x y → OnSeg ⟨obs, v⟩ x y → 1 ≤ |x - v.lon| ∨ 1 ≤ |y - v.lat|)
    (half : Bool) :
    ∃ raw : List Coord, raw.Nodup ∧ (∀ w ∈ raw, w ∈ p ∧ w ≠ obs ∧ w ≠ v) ∧
      List.Forall₂ ReportOf raw (visible look m segs obs half) := by
  have hnd' : [p].flatten.Nodup := by simpa using hnd
  have hlen' : ∀ q ∈ [p], 3 ≤ q.length := by simpa using hlen
  have hs : Simple [p] := ⟨hnd', hlen'⟩
  have hv0 : v ≠ obs := by
    rintro rfl
    have := hcross.1
    unfold area2 at this; simp at this
  have v1 : v ≠ e.p := by
    intro h; have := hcross.2; rw [h] at this; unfold area2 at this; simp at this
  have v2 : v ≠ e.q := by
    intro h; have := hcross.2
    have z : area2 e.p e.q e.q = 0 := by unfold area2; ring
    rw [h, z] at this; simp at this
  have hEv := hc.pos he hv v1 v2
  have hEo : area2 e.p e.q obs < 0 := by
    by_contra hcon
    push Not at hcon
    have := mul_nonneg hcon hEv.le
    have := hcross.2
    linarith
  have hoff : ∀ s, EdgeOf [p] s → obs ≠ s.p → obs ≠ s.q → ¬ OnSeg s obs.lon obs.lat := by
    rintro s hs - - ⟨t, t0, t1, hx, hy⟩
    have ms := edge_in hs
    have q1 : (0 : ℚ) ≤ (area2 e.p e.q s.p : ℤ) := by exact_mod_cast hc.nonneg he ms.1
    have q2 : (0 : ℚ) ≤ (area2 e.p e.q s.q : ℤ) := by exact_mod_cast hc.nonneg he ms.2
    have q3 : ((area2 e.p e.q obs : ℤ) : ℚ) < 0 := by exact_mod_cast hEo
    have : ((area2 e.p e.q obs : ℤ) : ℚ) =
        (1 - t) * (area2 e.p e.q s.p : ℤ) + t * (area2 e.p e.q s.q : ℤ) := by
      unfold area2
      push_cast
      rw [hx, hy]
      ring
    have := mul_nonneg (sub_nonneg.2 t1) q1
    have := mul_nonneg t0 q2
    linarith
  have := C35_behind_partial [p] m segs look h obs v ho hlon hnd' hlen' hoff (by simpa using hv) e he
    hcross (distinct_of hties he (near_start hEo) (fun s hs hn => absurd hs hn)) ?_ half
  · simpa using this
  · intro s k K hse hk _ _
    have hoffv := filed_off hk
    have ms := edge_in hse
    obtain ⟨t', r', -, hz⟩ := filed_point hk hv0
      (hc.not_through hs he hv hcross ms.1 (Ne.symm hoffv.1))
      (hc.not_through hs he hv hcross ms.2 (Ne.symm hoffv.2))
    obtain ⟨t, r, -, hr1, hx⟩ := crosses_point hcross
    have := hc.only hs he hse hv v1 v2 hoffv.1 hoffv.2 hr1 hx hz
    rw [this]
    exact ⟨hcross, hfar⟩

/-- **C70** The same within the ordinary range of longitudes, where it says that `v` is not in the
answer. -/
theorem C70_convex (p : List Coord) (m : VisMap) (segs : List Seg) (look : Seg → Seg → Bool)
    (h : Setup [p] m segs look) (hgeo : ∀ w ∈ p, w.Geo) (hc : Convex p) (hnd : p.Nodup)
    (hlen : 3 ≤ p.length) (obs v : Coord) (ho : obs.Geo) (hties : NoTies p obs) (hv : v ∈ p)
    (e : Seg) (he : EdgeOf [p] e) (hcross : Crosses obs v e)
    (hfar : ∀ x y : ℚ, OnSeg e x y → OnSeg ⟨obs, v⟩ x y → 1 ≤ |x - v.lon| ∨ 1 ≤ |y - v.lat|)
    (half b : Bool) : (v, b) ∉ visible look m segs obs half := by
  intro hm
  have hoP : obs.Per ∧ obs.lon < 540000001 := by
    unfold Coord.Geo at ho; unfold Coord.Per; omega
  obtain ⟨raw, -, h2, h3⟩ := C70_convex_copies p m segs look h hc hnd hlen obs v hoP.1 hoP.2 hties hv e
    he hcross hfar half
  obtain ⟨w, hw, hR⟩ := forall₂_mem h3 hm
  obtain ⟨w1, -, w3⟩ := h2 w hw
  exact w3 (geo_report (hgeo v hv) (hgeo w w1) hR)

/-! ### Obstacles in front of others -/

theorem eastDist_le {obs : Coord} {s : Seg} {d : ℤ} {R : ℚ} (hR : 0 ≤ R)
    (h : ∀ x y : ℚ, OnSeg s x y → (x - obs.lon) ^ 2 + (y - obs.lat) ^ 2 ≤ R ^ 2)
    (hd : EastDist obs s d) : (d : ℚ) ≤ (R + 3 / 5) ^ 2 := by
  obtain ⟨x, X, hX, hx, rfl⟩ := hd
  have h1 := h X _ hX
  have h2 : |X - obs.lon| ≤ R := abs_le_of_sq_le_sq (by nlinarith [sq_nonneg ((obs.lat : ℚ) - obs.lat)]) hR
  rw [abs_le] at h2 hx
  push_cast
  apply sq_le_sq'
  · linarith
  · linarith

theorem eastDist_ge {obs : Coord} {s : Seg} {d : ℤ} {R : ℚ} (hR : 0 ≤ R)
    (h : ∀ x y : ℚ, OnSeg s x y → (R + 2) ^ 2 ≤ (x - obs.lon) ^ 2 + (y - obs.lat) ^ 2)
    (hd : EastDist obs s d) : (R + 7 / 5) ^ 2 ≤ (d : ℚ) := by
  obtain ⟨x, X, hX, hx, rfl⟩ := hd
  have h1 := h X _ hX
  have h2 : R + 2 ≤ |X - obs.lon| := by
    apply abs_le_of_sq_le_sq' _ (abs_nonneg _) |>.2
    rw [sq_abs]
    nlinarith
  have h3 : R + 7 / 5 ≤ |(x : ℚ) - obs.lon| := by
    have := abs_sub_abs_le_abs_sub (X - obs.lon) ((x : ℚ) - obs.lon)
    have e1 : X - obs.lon - ((x : ℚ) - obs.lon) = -((x : ℚ) - X) := by ring
    rw [e1, abs_neg] at this
    linarith
  push_cast
  rw [← sq_abs ((x : ℚ) - obs.lon)]
  exact pow_le_pow_left₀ (by linarith) h3 2

theorem dist_start {obs : Coord} (s : Seg) :
    OnSeg s (startOf obs s).lon (startOf obs s).lat ∧
      ((dist2 obs (startOf obs s) : ℤ) : ℚ) =
        ((startOf obs s).lon - obs.lon) ^ 2 + ((startOf obs s).lat - obs.lat) ^ 2 := by
  constructor
  · rcases ends_mem obs s with ⟨a, -⟩ | ⟨a, -⟩ <;> rw [a]
    · exact OnSeg_left s
    · exact OnSeg_right s
  · unfold dist2; push_cast; ring

theorem filed_le {obs v : Coord} {s : Seg} {d : ℤ} {R : ℚ} (hR : 0 ≤ R)
    (h : ∀ x y : ℚ, OnSeg s x y → (x - obs.lon) ^ 2 + (y - obs.lat) ^ 2 ≤ R ^ 2)
    (hF : Filed obs v s d) : (d : ℚ) ≤ (R + 3 / 5) ^ 2 := by
  obtain ⟨-, ⟨-, -, hd⟩ | ⟨-, -, rfl⟩⟩ := hF
  · exact eastDist_le hR h hd
  · obtain ⟨h1, h2⟩ := dist_start (obs := obs) s
    rw [h2]
    have := h _ _ h1
    nlinarith

theorem filed_ge {obs v : Coord} {s : Seg} {d : ℤ} {R : ℚ} (hR : 0 ≤ R)
    (h : ∀ x y : ℚ, OnSeg s x y → (R + 2) ^ 2 ≤ (x - obs.lon) ^ 2 + (y - obs.lat) ^ 2)
    (hF : Filed obs v s d) : (R + 7 / 5) ^ 2 ≤ (d : ℚ) := by
  obtain ⟨-, ⟨-, -, hd⟩ | ⟨-, -, rfl⟩⟩ := hF
  · exact eastDist_ge hR h hd
  · obtain ⟨h1, h2⟩ := dist_start (obs := obs) s
    rw [h2]
    have := h _ _ h1
    nlinarith

/-- Points at least two microdegrees farther out differ by a microdegree in a coordinate. -/
theorem apart {R a b c d : ℚ} (hR : 0 ≤ R) (h1 : a ^ 2 + b ^ 2 ≤ R ^ 2)
    (h2 : (R + 2) ^ 2 ≤ c ^ 2 + d ^ 2) : 1 ≤ |a - c| ∨ 1 ≤ |b - d| := by
  by_contra hcon
  push Not at hcon
  obtain ⟨k1, k2⟩ := hcon
  have s1 : (a - c) ^ 2 < 1 := by rw [← sq_abs]; nlinarith [abs_nonneg (a - c)]
  have s2 : (b - d) ^ 2 < 1 := by rw [← sq_abs]; nlinarith [abs_nonneg (b - d)]
  -- with z = (a, b) and w = (c - a, d - b): z·w ≤ 3/2 R
  have hzw : (a * (c - a) + b * (d - b)) ^ 2 ≤ (a ^ 2 + b ^ 2) * ((a - c) ^ 2 + (b - d) ^ 2) := by
    nlinarith [sq_nonneg (a * (d - b) - b * (c - a))]
  have hzw2 : (a * (c - a) + b * (d - b)) ^ 2 ≤ (3 / 2 * R) ^ 2 := by
    have : (a ^ 2 + b ^ 2) * ((a - c) ^ 2 + (b - d) ^ 2) ≤ R ^ 2 * 2 :=
      mul_le_mul h1 (by linarith) (by positivity) (by positivity)
    nlinarith [sq_nonneg R]
  have hle := (abs_le_of_sq_le_sq' hzw2 (by positivity)).2
  nlinarith

/-- **C70** An obstacle lying wholly nearer than all others hides what is behind it: a vertex of
another obstacle is not reported if the line of sight enters the obstacle in front through one of
its edges and passes through none of its vertices. -/
theorem C70_front_copies (ps : List (List Coord)) (m : VisMap) (segs : List Seg)
    (look : Seg → Seg → Bool) (h : Setup ps m segs look) (hnd : ps.flatten.Nodup)
    (hlen : ∀ p ∈ ps, 3 ≤ p.length) (obs v : Coord) (ho : obs.Per) (hlon : obs.lon < 540000001)
    (A : List Coord) (hA : A ∈ ps) (R : ℚ) (hR : 0 ≤ R) (hin : NoFarther obs R A)
    (hout : ∀ p ∈ ps, p ≠ A → NoNearer obs (R + 2) p)
    (hoff : ∀ s, EdgeOf [A] s → obs ≠ s.p → obs ≠ s.q → ¬ OnSeg s obs.lon obs.lat)
    (hties : NoTies A obs) (hv : v ∈ ps.flatten) (hvA : v ∉ A)
    (hgen : ∀ w ∈ A, w ≠ obs → area2 obs v w ≠ 0)
    (e : Seg) (he : EdgeOf [A] e) (hnear : area2 e.p e.q obs < 0) (hcross : Crosses obs v e)
    (half : Bool) :
    ∃ raw : List Coord, raw.Nodup ∧ (∀ w ∈ raw, w ∈ ps.flatten ∧ w ≠ obs ∧ w ≠ v) ∧
      List.Forall₂ ReportOf raw (visible look m segs obs half) := by
  have split : ∀ s, EdgeOf ps s → EdgeOf [A] s ∨
      ∀ x y : ℚ, OnSeg s x y → (R + 2) ^ 2 ≤ (x - obs.lon) ^ 2 + (y - obs.lat) ^ 2 := by
    rintro s ⟨p, hp, i, hi, rfl⟩
    by_cases hpA : p = A
    · left; subst hpA; exact ⟨p, by simp, i, hi, rfl⟩
    · right; exact hout p hp hpA _ ⟨p, by simp, i, hi, rfl⟩
  have lift : ∀ {s}, EdgeOf [A] s → EdgeOf ps s := by
    rintro s ⟨p, hp, i, hi, rfl⟩
    rw [List.mem_singleton] at hp
    subst hp
    exact ⟨p, hA, i, hi, rfl⟩
  have hv0 : v ≠ obs := by
    rintro rfl
    have := hcross.1
    unfold area2 at this; simp at this
  have gap : ∀ {a b : ℤ}, (a : ℚ) ≤ (R + 3 / 5) ^ 2 → (R + 7 / 5) ^ 2 ≤ (b : ℚ) → a < b := by
    intro a b h1 h2
    have : (a : ℚ) < b := by nlinarith
    exact_mod_cast this
  have hvfar : (R + 2) ^ 2 ≤ ((v.lon : ℚ) - obs.lon) ^ 2 + ((v.lat : ℚ) - obs.lat) ^ 2 := by
    obtain ⟨q, hq, hvq⟩ := List.mem_flatten.1 hv
    obtain ⟨n, hn⟩ := edge_from hvq
    exact hout q hq (fun e => hvA (e ▸ hvq)) _ hn _ _ (OnSeg_left _)
  have hoff' : ∀ s, EdgeOf ps s → obs ≠ s.p → obs ≠ s.q → ¬ OnSeg s obs.lon obs.lat := by
    intro s hs n1 n2 hon
    rcases split s hs with h' | h'
    · exact hoff s h' n1 n2 hon
    · have := h' _ _ hon
      nlinarith
  refine C35_behind_partial ps m segs look h obs v ho hlon hnd hlen hoff' hv e (lift he) hcross
    (distinct_of hties he (near_start hnear) ?_) ?_ half
  · intro s hs hns
    have hfar := (split s hs).resolve_left hns
    obtain ⟨i1, i2⟩ := dist_start (obs := obs) e
    obtain ⟨j1, j2⟩ := dist_start (obs := obs) s
    have e1 : ((dist2 obs (startOf obs e) : ℤ) : ℚ) ≤ (R + 3 / 5) ^ 2 := by
      rw [i2]; have := hin e he _ _ i1; nlinarith
    have s1 : (R + 7 / 5) ^ 2 ≤ ((dist2 obs (startOf obs s) : ℤ) : ℚ) := by
      rw [j2]; have := hfar _ _ j1; nlinarith
    refine ⟨fun d hd hd' => ?_, fun hd => ?_, fun hd => ?_⟩
    · exact absurd (gap (eastDist_le hR (hin e he) hd) (eastDist_ge hR hfar hd')) (lt_irrefl _)
    · exact absurd (gap e1 (eastDist_ge hR hfar hd)) (lt_irrefl _)
    · exact absurd (gap e1 s1) (by rw [hd]; exact lt_irrefl _)
  · intro s k K hs hk hK hor
    have hsA : EdgeOf [A] s := by
      rcases split s hs with h' | h'
      · exact h'
      · exfalso
        have := gap (filed_le hR (hin e he) hK) (filed_ge hR h' hk)
        rcases hor with rfl | hor
        · have := gap (filed_le hR (hin _ he) hk) (filed_ge hR h' hk)
          omega
        · omega
    have hne := hk.1.ne
    have ms := edge_in hsA
    have hp := hgen _ ms.1 (Ne.symm hne.1)
    have hq := hgen _ ms.2 (Ne.symm hne.2)
    obtain ⟨t, r, hr, hz⟩ := filed_point hk hv0 hp hq
    have hzin := hin s hsA _ _ hz.onSeg
    have hr1 : r < 1 := by
      by_contra hcon
      push Not at hcon
      have e1 : ((obs.lon : ℚ) + r * (v.lon - obs.lon) - obs.lon) ^ 2 +
          ((obs.lat : ℚ) + r * (v.lat - obs.lat) - obs.lat) ^ 2 =
          r ^ 2 * (((v.lon : ℚ) - obs.lon) ^ 2 + ((v.lat : ℚ) - obs.lat) ^ 2) := by ring
      rw [e1] at hzin
      have : 1 ≤ r ^ 2 := by nlinarith
      nlinarith [sq_nonneg ((v.lon : ℚ) - obs.lon), sq_nonneg ((v.lat : ℚ) - obs.lat)]
    refine ⟨point_crosses hz hr hr1 hp hk.1, ?_⟩
    intro x y hon _
    have := apart hR (hin s hsA x y hon) hvfar
    have e1 : x - (obs.lon : ℚ) - (v.lon - obs.lon) = x - v.lon := by ring
    have e2 : y - (obs.lat : ℚ) - (v.lat - obs.lat) = y - v.lat := by ring
    rwa [e1, e2] at this

/-- **C70** The same within the ordinary range of longitudes, where it says that `v` is not in the
answer. -/
theorem C70_front (ps : List (List Coord)) (m : VisMap) (segs : List Seg)
    (look : Seg → Seg → Bool) (h : Setup ps m segs look) (hgeo : ∀ w ∈ ps.flatten, w.Geo)
    (hnd : ps.flatten.Nodup) (hlen : ∀ p ∈ ps, 3 ≤ p.length) (obs v : Coord) (ho : obs.Geo)
    (A : List Coord) (hA : A ∈ ps) (R : ℚ) (hR : 0 ≤ R) (hin : NoFarther obs R A)
    (hout : ∀ p ∈ ps, p ≠ A → NoNearer obs (R + 2) p)
    (hoff : ∀ s, EdgeOf [A] s → obs ≠ s.p → obs ≠ s.q → ¬ OnSeg s obs.lon obs.lat)
    (hties : NoTies A obs) (hv : v ∈ ps.flatten) (hvA : v ∉ A)
    (hgen : ∀ w ∈ A, w ≠ obs → area2 obs v w ≠ 0)
    (e : Seg) (he : EdgeOf [A] e) (hnear : area2 e.p e.q obs < 0) (hcross : Crosses obs v e)
    (half b : Bool) : (v, b) ∉ visible look m segs obs half := by
  intro hm
  have hoP : obs.Per ∧ obs.lon < 540000001 := by
    unfold Coord.Geo at ho; unfold Coord.Per; omega
  obtain ⟨raw, -, h2, h3⟩ := C70_front_copies ps m segs look h hnd hlen obs v hoP.1 hoP.2 A hA R hR hin
    hout hoff hties hv hvA hgen e he hnear hcross half
  obtain ⟨w, hw, hR⟩ := forall₂_mem h3 hm
  obtain ⟨w1, -, w3⟩ := h2 w hw
  exact w3 (geo_report (hgeo v hv) (hgeo w w1) hR)

/-! ### Exactly the visible vertices -/

/-- Two reports of vertices in the ordinary range. -/
theorem reports_same {v w : Coord} (hv : v.Geo) (hw : w.Geo) {x : Coord × Bool} (h1 : ReportOf v x)
    (h2 : ReportOf w x) : w = v := by
  obtain ⟨⟨a1, k, a2⟩, -⟩ := h1
  obtain ⟨⟨b1, l, b2⟩, -⟩ := h2
  unfold Coord.Geo at hv hw
  have hk : k = l := by omega
  rw [hk] at a2
  exact Coord.ext' (by omega) (by omega)

/-- With no edge of a convex polygon properly crossed and no other vertex in line, the line of
sight is clear. -/
theorem Convex.clear {p : List Coord} (hc : Convex p) (hs : Simple [p]) {obs v : Coord} (hv : v ∈ p)
    (hoff : ∀ s, EdgeOf [p] s → ¬ OnSeg s obs.lon obs.lat)
    (hgen : ∀ w ∈ p, w ≠ v → area2 obs v w ≠ 0) (hno : ∀ e, EdgeOf [p] e → ¬ Crosses obs v e) {s : Seg}
    (hse : EdgeOf [p] s) : Clear obs v s := by
  rintro x y ⟨t, t0, t1, hx, hy⟩ ⟨r, r0, r1, hx', hy'⟩
  have ms := edge_in hse
  simp only at hx' hy'
  have area : ∀ a b : Coord, (1 - t) * ((area2 a b s.p : ℤ) : ℚ) + t * ((area2 a b s.q : ℤ) : ℚ) =
      (1 - r) * ((area2 a b obs : ℤ) : ℚ) + r * ((area2 a b v : ℤ) : ℚ) := by
    intro a b
    have h1 : (s.p.lon : ℚ) + t * (s.q.lon - s.p.lon) = obs.lon + r * (v.lon - obs.lon) := by
      rw [← hx, ← hx']
    have h2 : (s.p.lat : ℚ) + t * (s.q.lat - s.p.lat) = obs.lat + r * (v.lat - obs.lat) := by
      rw [← hy, ← hy']
    unfold area2
    push_cast
    linear_combination ((b.lon : ℚ) - a.lon) * h2 - ((b.lat : ℚ) - a.lat) * h1
  have z1 : ∀ a b : Coord, area2 a b a = 0 := fun a b => by unfold area2; ring
  have z2 : ∀ a b : Coord, area2 a b b = 0 := fun a b => by unfold area2; ring
  have hL := area obs v
  rw [z1, z2, Int.cast_zero, mul_zero, mul_zero, add_zero] at hL
  have hne := hs.ends_ne hse
  by_cases h1 : s.p = v
  · have hq : ((area2 obs v s.q : ℤ) : ℚ) ≠ 0 := by
      exact_mod_cast hgen _ ms.2 (fun e => hne (h1.trans e.symm))
    rw [h1, z2, Int.cast_zero, mul_zero, zero_add] at hL
    have : t = 0 := (mul_eq_zero.1 hL).resolve_right hq
    rw [this, h1] at hx hy
    exact ⟨by linarith, by linarith⟩
  by_cases h2 : s.q = v
  · have hp : ((area2 obs v s.p : ℤ) : ℚ) ≠ 0 := by
      exact_mod_cast hgen _ ms.1 (fun e => hne (e.trans h2.symm))
    rw [h2, z2, Int.cast_zero, mul_zero, add_zero] at hL
    have : 1 - t = 0 := (mul_eq_zero.1 hL).resolve_right hp
    have : t = 1 := by linarith
    rw [this, h2] at hx hy
    exact ⟨by linarith, by linarith⟩
  exfalso
  have hp : ((area2 obs v s.p : ℤ) : ℚ) ≠ 0 := by exact_mod_cast hgen _ ms.1 h1
  have hq : ((area2 obs v s.q : ℤ) : ℚ) ≠ 0 := by exact_mod_cast hgen _ ms.2 h2
  have tp : 0 < t := by
    refine lt_of_le_of_ne t0 (fun e => ?_)
    rw [← e] at hL
    apply hp; linarith
  have tl : t < 1 := by
    refine lt_of_le_of_ne t1 (fun e => ?_)
    rw [e] at hL
    apply hq; linarith
  have hS := area s.p s.q
  rw [z1, z2, Int.cast_zero, mul_zero, mul_zero, add_zero] at hS
  have hSv : (0 : ℚ) < (area2 s.p s.q v : ℤ) := by
    exact_mod_cast hc.pos hse hv (Ne.symm h1) (Ne.symm h2)
  have rp : 0 < r := by
    refine lt_of_le_of_ne r0 (fun e => ?_)
    apply hoff s hse
    rw [← e] at hx' hy'
    exact ⟨t, t0, t1, by linarith, by linarith⟩
  have rl : r < 1 := by
    refine lt_of_le_of_ne r1 (fun e => ?_)
    rw [e] at hS
    linarith
  refine hno s hse (point_crosses ⟨tp, tl, by rw [← hx, ← hx'], by rw [← hy, ← hy']⟩ rp rl ?_ ?_)
  · exact_mod_cast hp
  · intro hb
    have hb' : area2 s.p s.q obs = 0 := by rw [← hb]; unfold area2; ring
    rw [hb', Int.cast_zero, mul_zero, zero_add] at hS
    have := mul_pos rp hSv
    linarith

/-- **C70** Around a strictly convex polygon, with no other vertex in line, a vertex is in the
answer exactly if no edge is in between. -/
theorem C70_exact (p : List Coord) (m : VisMap) (segs : List Seg) (look : Seg → Seg → Bool)
    (h : Setup [p] m segs look) (hgeo : ∀ w ∈ p, w.Geo) (hc : Convex p) (hnd : p.Nodup)
    (hlen : 3 ≤ p.length) (obs v : Coord) (ho : obs.Geo)
    (hoff : ∀ s, EdgeOf [p] s → ¬ OnSeg s obs.lon obs.lat) (hties : NoTies p obs) (hv : v ∈ p)
    (hgen : ∀ w ∈ p, w ≠ v → area2 obs v w ≠ 0)
    (hfar : ∀ e, EdgeOf [p] e → Crosses obs v e → ∀ x y : ℚ, OnSeg e x y → OnSeg ⟨obs, v⟩ x y →
      1 ≤ |x - v.lon| ∨ 1 ≤ |y - v.lat|) :
    (∃ x ∈ visible look m segs obs false, ReportOf v x) ↔ ∀ e, EdgeOf [p] e → ¬ Crosses obs v e := by
  have hoP : obs.Per ∧ obs.lon < 540000001 := by
    unfold Coord.Geo at ho; unfold Coord.Per; omega
  have hs : Simple [p] := ⟨by simpa using hnd, by simpa using hlen⟩
  constructor
  · rintro ⟨x, hx, hR⟩ e he hcross
    obtain ⟨raw, -, h2, h3⟩ := C70_convex_copies p m segs look h hc hnd hlen obs v hoP.1 hoP.2 hties hv
      e he hcross (hfar e he hcross) false
    obtain ⟨w, hw, hR'⟩ := forall₂_mem h3 hx
    obtain ⟨w1, -, w3⟩ := h2 w hw
    exact w3 (reports_same (hgeo v hv) (hgeo w w1) hR hR')
  · intro hno
    have hop : obs ∉ p := by
      intro hop
      obtain ⟨n, hn⟩ := edge_from hop
      exact hoff _ hn (OnSeg_left _)
    refine C34_clear_is_reported [p] m segs look h obs v hoP.1 (by simpa using hv)
      (fun e => hop (e ▸ hv)) (fun s hse _ _ => hc.clear hs hv hoff hgen hno hse) ?_ false (by simp)
    intro a b hcor
    exact absurd (by simpa using (corner_mem hcor).2.1) hop

/-! ### Examples -/

theorem exHiding_ties : NoTies exHiding ⟨0, 0⟩ := by
  refine ⟨by decide, ?_, ?_⟩
  · intro s t d hs _ _ ha
    exfalso
    rcases exHiding_edges hs with rfl | rfl | rfl <;> exact absurd ha.1 (by decide)
  · intro s hs ha
    exfalso
    rcases exHiding_edges hs with rfl | rfl | rfl <;> exact absurd ha.1 (by decide)

/-- The triangle of C35 is convex and hides its far vertex. -/
example (half b : Bool) : ((⟨0, 30⟩ : Coord), b) ∉ visible exLook (ofPolygons [exHiding])
    (segments (ofPolygons [exHiding])) ⟨0, 0⟩ half := by
  refine C70_convex exHiding _ _ exLook ⟨.refl _, .refl _, exLook_ok, by decide⟩ (by decide) (by decide)
    (by decide) (by decide) _ _ (by decide) exHiding_ties (by decide) ⟨⟨-10, 12⟩, ⟨10, 10⟩⟩
    ⟨exHiding, by simp, 0, by decide, rfl⟩ (by decide) ?_ half b
  rintro x y ⟨t, t0, t1, -, hy⟩ -
  right
  simp only at hy
  rw [le_abs]
  right
  push_cast at hy ⊢
  linarith

/-- The triangle in front of another. -/
def exFront : List (List Coord) := [exHiding, [⟨-5, 50⟩, ⟨4, 48⟩, ⟨6, 60⟩]]

theorem exFront_edges {s : Seg} (h : EdgeOf [[⟨-5, 50⟩, ⟨4, 48⟩, ⟨6, 60⟩]] s) :
    s = ⟨⟨-5, 50⟩, ⟨4, 48⟩⟩ ∨ s = ⟨⟨4, 48⟩, ⟨6, 60⟩⟩ ∨ s = ⟨⟨6, 60⟩, ⟨-5, 50⟩⟩ := by
  obtain ⟨p, hp, i, hi, rfl⟩ := h
  rw [List.mem_singleton] at hp
  subst hp
  have : i = 0 ∨ i = 1 ∨ i = 2 := by
    simp only [List.length_cons, List.length_nil] at hi
    omega
  rcases this with rfl | rfl | rfl
  · exact Or.inl rfl
  · exact Or.inr (Or.inl rfl)
  · exact Or.inr (Or.inr rfl)

example (half b : Bool) : ((⟨4, 48⟩ : Coord), b) ∉ visible exLook (ofPolygons exFront)
    (segments (ofPolygons exFront)) ⟨0, 0⟩ half := by
  refine C70_front exFront _ _ exLook ⟨.refl _, .refl _, exLook_ok, by decide⟩ (by decide) (by decide)
    (by decide) _ _ (by decide) exHiding (by simp [exFront]) 32 (by norm_num) ?_ ?_ ?_ exHiding_ties
    (by decide) (by decide) (by decide) ⟨⟨-10, 12⟩, ⟨10, 10⟩⟩ ⟨exHiding, by simp, 0, by decide, rfl⟩
    (by decide) (by decide) half b
  · rintro s hs x y ⟨t, t0, t1, hx, hy⟩
    rcases exHiding_edges hs with rfl | rfl | rfl <;> push_cast at hx hy ⊢ <;> rw [hx, hy] <;> nlinarith
  · intro p hp hne s hs x y ⟨t, t0, t1, hx, hy⟩
    have : p = [⟨-5, 50⟩, ⟨4, 48⟩, ⟨6, 60⟩] := by
      simp only [exFront, List.mem_cons, List.not_mem_nil, or_false] at hp
      exact hp.resolve_left hne
    subst this
    rcases exFront_edges hs with rfl | rfl | rfl <;> push_cast at hx hy ⊢ <;> rw [hx, hy] <;> nlinarith
  · rintro s hs - - ⟨t, t0, t1, hx, hy⟩
    rcases exHiding_edges hs with rfl | rfl | rfl <;> push_cast at hx hy <;> linarith

/-- The hypotheses of `C70_exact` hold here for all three vertices, two of which are visible. -/
example : (∀ s, EdgeOf [exHiding] s → ¬ OnSeg s (⟨0, 0⟩ : Coord).lon (⟨0, 0⟩ : Coord).lat) ∧
    (∀ v ∈ exHiding, ∀ w ∈ exHiding, w ≠ v → area2 ⟨0, 0⟩ v w ≠ 0) ∧
    Crosses ⟨0, 0⟩ ⟨0, 30⟩ ⟨⟨-10, 12⟩, ⟨10, 10⟩⟩ ∧
    ∀ e, EdgeOf [exHiding] e → ¬ Crosses ⟨0, 0⟩ ⟨10, 10⟩ e := by
  refine ⟨?_, by decide, by decide, ?_⟩
  · rintro s hs ⟨t, t0, t1, hx, hy⟩
    rcases exHiding_edges hs with rfl | rfl | rfl <;> push_cast at hx hy <;> linarith
  · intro e he
    rcases exHiding_edges he with rfl | rfl | rfl <;> decide

end Capi
