import Verif.Lemmas.Loop
import Verif.Props.Sphere
import Verif.Props.Query
import Verif.Props.Polygon
import Verif.Model.Frontend

/-!
# C81: islands as loops of S2

A polygon is cleaned and oriented in the plane of longitude and latitude and then handed to S2, which
takes the left of its edges on the sphere for land.
-/

namespace Capi

open Sphere ShortestPath

namespace Sphere

theorem normalize_in {c : Coord} (hc : c.Geo) : normalizeC c = .ok c :=
  C01_normalize_id c (by unfold Coord.Geo at hc; omega) (by unfold Coord.Geo at hc; omega)

/-- Endpoints on land are refused. -/
theorem refused {D : Type} [LinearOrder D] (A : Arith D) (L : Libm) (S : Queries) (E : Env)
    {s d : Coord} (hs : s.Geo) (hd : d.Geo) (h : onLand L S s = true ∨ onLand L S d = true)
    (r : Res (List Coord)) : Query A (env L S E) s d false r ↔ r = .error .exn :=
  C48_rejected A (env L S E) s d s d (normalize_in hs) (normalize_in hd) h r

/-- A point south of the corners of a triangle in the north is not in it. -/
theorem not_inTriangle_south {L : Libm} (hL : L.Ok) {a b c p : Coord} (ha : a.Geo) (hb : b.Geo)
    (hc : c.Geo) (hp : p.Geo) (la : 0 ≤ a.lat) (lb : 0 ≤ b.lat) (lc : 0 ≤ c.lat) (lp : p.lat < 0) :
    ¬ InTriangle (toPoint L a) (toPoint L b) (toPoint L c) (toPoint L p) := by
  rintro ⟨s, t, u, hs, ht, hu, h⟩
  have z : ∀ {v : Coord}, v.Geo → 0 ≤ v.lat → 0 ≤ (toPoint L v).2.2 := fun hv lv =>
    not_lt.1 fun h' => absurd ((lat_z hL hv).2.1 h') (by omega)
  have h' := congrArg (fun q : Point => q.2.2) h
  simp only [Prod.snd_add, Prod.smul_snd, smul_eq_mul] at h'
  have := (lat_z hL hp).2.2 lp
  rw [h'] at this
  linarith [mul_nonneg hs (z ha la), mul_nonneg ht (z hb lb), mul_nonneg hu (z hc lc)]

/-- A point of the half of the sphere around longitude 0 is not in a triangle of the other half. -/
theorem not_inTriangle_side {L : Libm} (hL : L.Ok) {a b c p : Coord} (ha : a.Geo) (hb : b.Geo)
    (hc : c.Geo) (hp : p.Geo) (la : 90000000 < |a.lon|) (lb : 90000000 < |b.lon|)
    (lc : 90000000 < |c.lon|) (lp : |p.lon| ≤ 90000000) :
    ¬ InTriangle (toPoint L a) (toPoint L b) (toPoint L c) (toPoint L p) := by
  rintro ⟨s, t, u, hs, ht, hu, h⟩
  have x : ∀ {v : Coord}, v.Geo → 90000000 < |v.lon| → (toPoint L v).1 ≤ 0 := fun hv lv =>
    ((lon_x hL hv).2 lv).le
  have h' := congrArg (fun q : Point => q.1) h
  simp only [Prod.fst_add, Prod.smul_fst, smul_eq_mul] at h'
  have := (lon_x hL hp).1 lp
  rw [h'] at this
  linarith [mul_nonpos_of_nonneg_of_nonpos hs (x ha la), mul_nonpos_of_nonneg_of_nonpos ht (x hb lb),
    mul_nonpos_of_nonneg_of_nonpos hu (x hc lc)]

end Sphere

/-! ### Rings that make proper loops -/

theorem three_of_area {vs : List Coord} (h : twiceArea vs ≠ 0) : 3 ≤ vs.length := by
  rcases vs with _ | ⟨a, _ | ⟨b, _ | ⟨c, r⟩⟩⟩
  · simp [twiceArea] at h
  · simp [twiceArea, ringAt] at h
  · exfalso
    apply h
    simp [twiceArea, ringAt, Finset.sum_range_succ]
    ring
  · simp

theorem noRepeat_reverse {vs : List Coord} (h : NoRepeat vs) : NoRepeat vs.reverse := by
  rcases vs with _ | ⟨x, t⟩
  · exact h
  rw [noRepeat_cons] at h
  rw [List.reverse_cons, noRepeat_rotate, List.singleton_append, noRepeat_cons]
  unfold NE at *
  rw [chainPairs_reverse]
  intro p hp
  simp only [List.mem_reverse, List.mem_map] at hp
  obtain ⟨q, hq, rfl⟩ := hp
  exact fun e => h q hq e.symm

/-- **C81** A ring that encloses an area and lists no corner twice in a row becomes a loop that S2
accepts as far as single edges go: at least three vertices, and no edge of length zero. -/
theorem C81_loop (L : Libm) (hL : L.Ok) (T : ℕ → Polygon.SumTree) (vs : List Coord)
    (hg : ∀ v ∈ vs, v.Geo) (hn : NoRepeat vs) (ha : twiceArea vs ≠ 0) :
    3 ≤ (loop L (Polygon.mk T vs)).length ∧
    ∀ e ∈ loopEdges (loop L (Polygon.mk T vs)), e.1 ≠ e.2 := by
  obtain ⟨-, h1, h2⟩ := C14_preserves vs hn
  have h3 := three_of_area (h1 ▸ ha)
  have hsub : ∀ v ∈ Polygon.mk T vs, v.Geo := by
    intro v hv
    apply hg
    apply (removeCollinear_sublist vs).subset
    rcases C12_same_vertices T vs with e | e <;> rw [e] at hv
    · exact hv
    · exact List.mem_reverse.1 hv
  have hlen : 3 ≤ (Polygon.mk T vs).length := by
    rcases C12_same_vertices T vs with e | e <;> rw [e]
    · exact h3
    · rw [List.length_reverse]; exact h3
  have hnr : NoRepeat (Polygon.mk T vs) := by
    rcases C12_same_vertices T vs with e | e <;> rw [e]
    · exact h2
    · exact noRepeat_reverse h2
  refine ⟨by unfold loop; rw [List.length_map]; exact hlen, ?_⟩
  intro e he h
  rw [loopEdges_loop] at he
  obtain ⟨t, ht, rfl⟩ := List.mem_map.1 he
  obtain ⟨g1, g2⟩ := segments_geo (ps := [Polygon.mk T vs]) (by simpa using hsub)
    (List.mem_singleton.2 rfl) ht
  have e := C67_injective L hL _ _ g1 g2 h
  obtain ⟨i, hi, rfl⟩ := List.mem_map.1 ht
  exact hnr i (List.mem_range.1 hi) e

example : NoRepeat [⟨0, 0⟩, ⟨0, 1000⟩, ⟨1000, 0⟩] ∧
    twiceArea [⟨0, 0⟩, ⟨0, 1000⟩, ⟨1000, 0⟩] ≠ 0 := by decide +kernel

/-! ### Triangles -/

/-- **C81** A triangle drawn counter-clockwise on the sphere makes no land outside it. Missing for the
full statement: rings drawn counter-clockwise in the plane only, for which it is false
(`C81_land_false`). -/
theorem C81_triangle_partial (L : Libm) (hL : L.Ok) (inside : List Point → Point → Prop)
    (hi : LoopRules L inside) (a b c : Coord) (ha : a.Geo) (hb : b.Geo) (hc : c.Geo)
    (h : 1 / 2 ^ 41 < sphereDet a b c) (S : Queries) (hS : S.ByLoops L [[a, b, c]] inside)
    (p : Coord) (hp : p.Geo) (hl : onLand L S p = true) :
    InTriangle (toPoint L a) (toPoint L b) (toPoint L c) (toPoint L p) := by
  obtain ⟨vs, hv, h'⟩ := (hS p hp).1 hl
  rw [List.mem_singleton] at hv
  subst hv
  exact hi.counter a b c p ha hb hc hp (det_pos hL ha hb hc h) h'

example : 1 / 2 ^ 41 < sphereDet ⟨0, 0⟩ ⟨90000000, 0⟩ ⟨0, 90000000⟩ := by
  simp [sphereDet, onSphere, rad_0, rad_90]
  norm_num

/-- **C81** A triangle drawn clockwise on the sphere makes land of everything outside it. -/
theorem C81_clockwise (L : Libm) (hL : L.Ok) (inside : List Point → Point → Prop)
    (hi : LoopRules L inside) (a b c : Coord) (ha : a.Geo) (hb : b.Geo) (hc : c.Geo)
    (h : sphereDet a b c < -(1 / 2 ^ 41)) (ps : List (List Coord)) (hm : [a, b, c] ∈ ps)
    (S : Queries) (hS : S.ByLoops L ps inside) (p : Coord) (hp : p.Geo)
    (hn : ¬ InTriangle (toPoint L a) (toPoint L b) (toPoint L c) (toPoint L p)) :
    onLand L S p = true :=
  (hS p hp).2 ⟨_, hm, hi.clockwise a b c p ha hb hc hp (det_neg hL ha hb hc h) hn⟩

/-! ### Corners listed twice -/

/-- **C81** A polygon left with a single corner in the south makes the whole world land: every
query without correction is refused. -/
theorem C81_one_corner {D : Type} [LinearOrder D] (A : Arith D) (L : Libm) (hL : L.Ok)
    (inside : List Point → Point → Prop) (hi : LoopRules L inside) (v : Coord) (hv : v.Geo)
    (hlat : v.lat < 0) (ps : List (List Coord)) (hm : [v] ∈ ps) (S : Queries)
    (hS : S.ByLoops L ps inside) (E : Env) (s d : Coord) (hs : s.Geo) (hd : d.Geo)
    (r : Res (List Coord)) : Query A (env L S E) s d false r ↔ r = .error .exn :=
  refused A L S E hs hd
    (Or.inl ((hS s hs).2 ⟨_, hm, (hi.one v s hv hs).2 ((lat_z hL hv).2.2 hlat)⟩)) r

/-- A file with a narrow triangle: two of its corners are less than a microdegree apart. -/
def exNarrow : List Frontend.Shape :=
  [⟨true, [(10, -20), (10 + 3 / 10000000, -20), (11, -205 / 10), (10, -20)], [0]⟩]

/-- **C81** From such a file one corner is left. -/
theorem C81_narrow (T : ℕ → Polygon.SumTree) :
    (Frontend.readShapes exNarrow >>= Frontend.toPolygons T) = .ok [[⟨11000000, -20500000⟩]] := by
  have h1 : Frontend.readShapes exNarrow =
      .ok [[(10, -20), (10 + 3 / 10000000, -20), (11, -205 / 10)]] := by
    decide +kernel
  have h2 : ([(10, -20), (10 + 3 / 10000000, -20), (11, -205 / 10)] : List (ℚ × ℚ)).mapM
      (fun p => Coord.ofDegreesC p.1 p.2) =
      .ok [⟨10000000, -20000000⟩, ⟨10000000, -20000000⟩, ⟨11000000, -20500000⟩] := by decide +kernel
  have h3 : Polygon.mk T [⟨10000000, -20000000⟩, ⟨10000000, -20000000⟩, ⟨11000000, -20500000⟩] =
      [⟨11000000, -20500000⟩] := by
    have e : Polygon.removeCollinear [⟨10000000, -20000000⟩, ⟨10000000, -20000000⟩,
      ⟨11000000, -20500000⟩] = [⟨11000000, -20500000⟩] := by decide +kernel
    unfold Polygon.mk
    rw [e]
    rfl
  rw [h1, Res.bind_ok]
  unfold Frontend.toPolygons
  rw [List.mapM_cons, h2, List.mapM_nil, Res.bind_ok]
  show Except.ok [Polygon.mk T _] = _
  rw [h3]

/-! ### Long sides -/

/-- A triangle whose northern corner is south of the arc between the two others. -/
def exFlat : List Coord := [exWest, exEast, ⟨0, 60000000⟩]

theorem exFlat_det : sphereDet exWest exEast ⟨0, 60000000⟩ < -(1 / 2 ^ 41) := by
  have hc : onSphere ⟨0, 60000000⟩ = (1 / 2, 0, √3 / 2) := by
    unfold onSphere
    dsimp only
    rw [rad_60, rad_0, Real.cos_pi_div_three, Real.sin_pi_div_three]
    simp
  unfold sphereDet
  rw [sphere_west, sphere_east, hc]
  dsimp only
  have h3 : √3 ^ 2 = 3 := Real.sq_sqrt (by norm_num)
  have h2 : √2 ^ 2 = 2 := Real.sq_sqrt (by norm_num)
  have h0 : 0 < √3 := Real.sqrt_pos.2 (by norm_num)
  have h1 : √3 < 1.8 := by
    rw [Real.sqrt_lt' (by norm_num)]
    norm_num
  have h4 : 1.7 < √3 := by
    rw [Real.lt_sqrt (by norm_num)]
    norm_num
  have e : √2 / 2 * (1 / 2) * (√2 / 2 * (√3 / 2) * (√3 / 2) - √2 / 2 * 0) -
      √2 / 2 * -(√3 / 2) * (√2 / 2 * (1 / 2) * (√3 / 2) - √2 / 2 * (1 / 2)) +
      √2 / 2 * (√2 / 2 * (1 / 2) * 0 - √2 / 2 * (√3 / 2) * (1 / 2)) =
      √2 ^ 2 / 4 * (√3 ^ 2 / 4 - √3 / 2) := by ring
  refine lt_of_eq_of_lt e ?_
  rw [h2, h3]
  norm_num at h4 ⊢
  linarith

theorem mk_large {T : ℕ → Polygon.SumTree} (hT : Polygon.PlanOk T) (hd : (T 3).depth ≤ 1000)
    {a b c : Coord} (hg : ∀ v ∈ [a, b, c], v.Geo)
    (hA : 1000000 < |twiceArea [a, b, c]|) :
    Polygon.mk T [a, b, c] = if 0 < twiceArea [a, b, c] then [a, b, c] else [c, b, a] := by
  have harea : twiceArea [a, b, c] = (b.sub a).cross (c.sub b) := by
    simp [twiceArea, ringAt, Finset.sum_range_succ, Coord.cross, sub_lon, sub_lat]
    ring
  have hne : twiceArea [a, b, c] ≠ 0 := by
    intro h
    rw [h] at hA
    simp at hA
  have e : Polygon.removeCollinear [a, b, c] = [a, b, c] := by
    have key : ∀ {x y z : Coord}, (y.sub x).cross (z.sub y) = twiceArea [a, b, c] →
        Polygon.keeps x y z = true := by
      intro x y z h
      by_contra hk
      exact hne (h ▸ ((keeps_false_iff_cross x y z).1 (by simpa using hk)).1)
    have k1 := key harea.symm
    have k2 : Polygon.keeps b c a = true := key (by
      rw [harea]; simp only [Coord.cross, sub_lon, sub_lat]; ring)
    have k3 : Polygon.keeps c a b = true := key (by
      rw [harea]; simp only [Coord.cross, sub_lon, sub_lat]; ring)
    simp [Polygon.removeCollinear, ringAt, List.range_succ, k1, k2, k3]
  unfold Polygon.mk
  rw [e, mk_of_resolved (T := T) hT (c := [a, b, c])]
  · rfl
  · intro v hv
    obtain ⟨g1, g2, g3, g4⟩ := hg v hv
    exact ⟨by omega, by omega, g3, g4⟩
  · exact hd.trans (by norm_num)
  · show ((3 : ℕ) : ℤ) * (156 + 44 * (T 3).depth) < _
    have : ((T 3).depth : ℤ) ≤ 1000 := by exact_mod_cast hd
    refine lt_trans ?_ hA
    push_cast
    omega

/-- **C81** An island of the north with a long flat side makes the whole south land. -/
theorem C81_flat {D : Type} [LinearOrder D] (A : Arith D) (L : Libm) (hL : L.Ok)
    (inside : List Point → Point → Prop) (hi : LoopRules L inside) (T : ℕ → Polygon.SumTree)
    (hT : Polygon.PlanOk T) (hd : (T 3).depth ≤ 1000) (ps : List (List Coord))
    (hm : Polygon.mk T exFlat ∈ ps) (S : Queries) (hS : S.ByLoops L ps inside) (E : Env)
    (s d : Coord) (hs : s.Geo) (hd : d.Geo) (hl : s.lat < 0 ∨ d.lat < 0)
    (r : Res (List Coord)) : Query A (env L S E) s d false r ↔ r = .error .exn := by
  have e : Polygon.mk T exFlat = exFlat := by
    unfold exFlat
    rw [mk_large hT ‹_› (by decide) (by decide +kernel), if_pos (by decide +kernel)]
  rw [e] at hm
  have land : ∀ p : Coord, p.Geo → p.lat < 0 → onLand L S p = true := fun p hp lp =>
    C81_clockwise L hL inside hi _ _ _ (by decide) (by decide) (by decide) exFlat_det ps hm S hS p hp
      (not_inTriangle_south hL (by decide) (by decide) (by decide) hp (by decide) (by decide)
        (by decide) lp)
  exact refused A L S E hs hd (hl.imp (land s hs) (land d hd)) r

/-! ### Across the meridian of 180 degrees -/

/-- A triangle across the meridian: `w` microdegrees to either side along the equator, `h` high. -/
def astride (w h : ℤ) : List Coord := [⟨180000000 - w, 0⟩, ⟨-180000000 + w, 0⟩, ⟨180000000, h⟩]

theorem astride_det {w h : ℤ} (hw : 1000 ≤ w) (hw' : w ≤ 45000000) (hh : 1000 ≤ h)
    (hh' : h ≤ 90000000) :
    sphereDet ⟨180000000, h⟩ ⟨-180000000 + w, 0⟩ ⟨180000000 - w, 0⟩ < -(1 / 2 ^ 41) := by
  have r1 : rad (180000000 - w) = Real.pi - rad w := by rw [rad_sub, rad_180]
  have r2 : rad (-180000000 + w) = -(Real.pi - rad w) := by rw [← r1, ← rad_neg]; congr 1; ring
  have hpi := Real.pi_pos
  have lin : ∀ n : ℤ, 2 / Real.pi * rad n = n / 90000000 := by
    intro n
    unfold rad
    field_simp
    ring
  have hwr : (1000 : ℝ) ≤ w := by exact_mod_cast hw
  have hwr' : (w : ℝ) ≤ 45000000 := by exact_mod_cast hw'
  have hhr : (1000 : ℝ) ≤ h := by exact_mod_cast hh
  have hhr' : (h : ℝ) ≤ 90000000 := by exact_mod_cast hh'
  have b : ∀ n : ℝ, 0 ≤ n → n ≤ 90000000 → 0 ≤ n / 1000000 * (Real.pi / 180) ∧
      n / 1000000 * (Real.pi / 180) ≤ Real.pi / 2 := by
    intro n h1 h2
    refine ⟨by positivity, ?_⟩
    nlinarith
  have hs : 1 / 90000 ≤ Real.sin (rad w) := by
    have := Real.mul_le_sin (b w (by linarith) (by linarith)).1 (b w (by linarith) (by linarith)).2
    rw [show (w : ℝ) / 1000000 * (Real.pi / 180) = rad w from rfl, lin] at this
    linarith
  have hh2 : 1 / 90000 ≤ Real.sin (rad h) := by
    have := Real.mul_le_sin (b h (by linarith) (by linarith)).1 (b h (by linarith) (by linarith)).2
    rw [show (h : ℝ) / 1000000 * (Real.pi / 180) = rad h from rfl, lin] at this
    linarith
  have hc : 1 / 2 ≤ Real.cos (rad w) := by
    have := Real.one_sub_mul_le_cos (b w (by linarith) (by linarith)).1
      (b w (by linarith) (by linarith)).2
    rw [show (w : ℝ) / 1000000 * (Real.pi / 180) = rad w from rfl, lin] at this
    linarith
  unfold sphereDet onSphere
  dsimp only
  rw [r1, r2, rad_0, rad_180, Real.sin_neg, Real.cos_neg, Real.sin_pi_sub, Real.cos_pi_sub,
    Real.cos_pi, Real.sin_pi, Real.cos_zero, Real.sin_zero]
  have p1 : 1 / 90000 * (1 / 2) ≤ Real.sin (rad w) * Real.cos (rad w) :=
    mul_le_mul hs hc (by norm_num) (by linarith)
  have p2 : 1 / 90000 * (1 / 2) * (1 / 90000) ≤
      Real.sin (rad w) * Real.cos (rad w) * Real.sin (rad h) :=
    mul_le_mul p1 hh2 (by norm_num) (by linarith)
  norm_num at *
  linarith

/-- **C81** An island across the meridian of 180 degrees, given with longitudes between -180 and 180,
is turned around: the south and the half of the world around longitude 0 become land. -/
theorem C81_astride {D : Type} [LinearOrder D] (A : Arith D) (L : Libm) (hL : L.Ok)
    (inside : List Point → Point → Prop) (hi : LoopRules L inside) (T : ℕ → Polygon.SumTree)
    (hT : Polygon.PlanOk T) (hd : (T 3).depth ≤ 1000) (w h : ℤ) (hw : 1000 ≤ w)
    (hw' : w ≤ 45000000) (hh : 1000 ≤ h) (hh' : h ≤ 90000000) (ps : List (List Coord))
    (hm : Polygon.mk T (astride w h) ∈ ps) (S : Queries) (hS : S.ByLoops L ps inside) (E : Env)
    (s d : Coord) (hs : s.Geo) (hd : d.Geo)
    (hl : (s.lat < 0 ∨ |s.lon| ≤ 90000000) ∨ d.lat < 0 ∨ |d.lon| ≤ 90000000)
    (r : Res (List Coord)) : Query A (env L S E) s d false r ↔ r = .error .exn := by
  have g1 : (⟨180000000 - w, 0⟩ : Coord).Geo := by unfold Coord.Geo; dsimp only; omega
  have g2 : (⟨-180000000 + w, 0⟩ : Coord).Geo := by unfold Coord.Geo; dsimp only; omega
  have g3 : (⟨180000000, h⟩ : Coord).Geo := by unfold Coord.Geo; dsimp only; omega
  have hA : twiceArea (astride w h) = -(h * (360000000 - 2 * w)) := by
    simp [twiceArea, astride, ringAt, Finset.sum_range_succ]
    ring
  have hA' : 1000000 < h * (360000000 - 2 * w) := by nlinarith
  have e : Polygon.mk T (astride w h) = [⟨180000000, h⟩, ⟨-180000000 + w, 0⟩, ⟨180000000 - w, 0⟩] := by
    unfold astride at *
    rw [mk_large hT ‹_› (by simp [g1, g2, g3])
      (by rw [hA, abs_neg, abs_of_pos (by omega)]; exact hA'), if_neg (by rw [hA]; omega)]
  rw [e] at hm
  have land : ∀ p : Coord, p.Geo → (p.lat < 0 ∨ |p.lon| ≤ 90000000) → onLand L S p = true := by
    intro p hp lp
    refine C81_clockwise L hL inside hi _ _ _ g3 g2 g1 (astride_det hw hw' hh hh') ps hm S hS p hp ?_
    rcases lp with lp | lp
    · exact not_inTriangle_south hL g3 g2 g1 hp (by dsimp only; omega) (le_refl _) (le_refl _) lp
    · refine not_inTriangle_side hL g3 g2 g1 hp ?_ ?_ ?_ lp <;> dsimp only <;> rw [lt_abs] <;> omega
  exact refused A L S E hs hd (hl.imp (land s hs) (land d hd)) r

/-! ### The claim is false -/

/-- The rules are consistent. -/
theorem exists_inside (L : Libm) : ∃ inside, LoopRules L inside := by
  classical
  refine ⟨fun vs p => match vs with
    | [v] => v.2.2 < 0
    | [a, b, c] => if det a b c < 0 then ¬ InTriangle a b c p
        else if 0 < det a b c then InTriangle a b c p else False
    | _ => False, ⟨fun v p _ _ => Iff.rfl, ?_, ?_⟩⟩
  · intro a b c p _ _ _ _ h h'
    simp only [if_pos h]
    exact h'
  · intro a b c p _ _ _ _ h h'
    simp only [if_neg h.le.not_gt, if_pos h] at h'
    exact h'

/-- An index that follows the loops exists. -/
theorem exists_queries (L : Libm) (inside : List Point → Point → Prop) (ps : List (List Coord)) :
    ∃ S : Queries, S.ByLoops L ps inside := by
  classical
  exact ⟨⟨fun p => decide (∃ vs ∈ ps, inside (loop L vs) p), fun _ => none, fun _ _ => [],
    fun _ _ p => p⟩, fun p _ => by simp⟩

/-- **C81** Islands of the northern hemisphere with an area and no corner listed twice may make land
in the south: the interior chosen by S2 need not be the island. -/
theorem C81_land_false (L : Libm) (hL : L.Ok) (inside : List Point → Point → Prop)
    (hi : LoopRules L inside) (T : ℕ → Polygon.SumTree) (hT : Polygon.PlanOk T)
    (hd : (T 3).depth ≤ 1000) :
    ¬ ∀ vs : List Coord, (∀ v ∈ vs, v.Geo ∧ 0 ≤ v.lat) → NoRepeat vs → 1000000 < |twiceArea vs| →
      ∀ S : Queries, S.ByLoops L [Polygon.mk T vs] inside →
      ∀ p : Coord, p.Geo → p.lat < 0 → onLand L S p = false := by
  intro h
  obtain ⟨S, hS⟩ := exists_queries L inside [Polygon.mk T exFlat]
  have h1 := h exFlat (by decide) (by decide) (by decide +kernel) S hS ⟨0, -1⟩ (by decide) (by decide)
  have e : Polygon.mk T exFlat = exFlat := by
    unfold exFlat
    rw [mk_large hT hd (by decide) (by decide +kernel), if_pos (by decide +kernel)]
  rw [e] at hS
  have h2 := C81_clockwise L hL inside hi _ _ _ (by decide) (by decide) (by decide) exFlat_det
    [exFlat] (List.mem_singleton.2 rfl) S hS ⟨0, -1⟩ (by decide)
    (not_inTriangle_south hL (by decide) (by decide) (by decide) (by decide) (by decide) (by decide)
      (by decide) (by decide))
  rw [h1] at h2
  cases h2

/-- Non-vacuity of C81: the narrow triangle of the file, the flat one and one of two degrees across the
meridian, each alone in an index that follows the rules. -/
example : ∃ (L : Libm) (inside : List Point → Point → Prop) (S1 S2 S3 : Queries), L.Ok ∧
    LoopRules L inside ∧ S1.ByLoops L [[⟨11000000, -20500000⟩]] inside ∧
    S2.ByLoops L [Polygon.mk Polygon.SumTree.sequential exFlat] inside ∧
    S3.ByLoops L [Polygon.mk Polygon.SumTree.sequential (astride 1000000 1000000)] inside ∧
    (Polygon.SumTree.sequential 3).depth ≤ 1000 ∧
    Polygon.mk Polygon.SumTree.sequential (astride 1000000 1000000) =
      (astride 1000000 1000000).reverse ∧
    onLand L S1 ⟨0, 50000000⟩ = true ∧ onLand L S3 ⟨0, 50000000⟩ = true := by
  obtain ⟨L, hL⟩ := exists_libm
  obtain ⟨inside, hi⟩ := exists_inside L
  obtain ⟨S1, h1⟩ := exists_queries L inside [[⟨11000000, -20500000⟩]]
  obtain ⟨S2, h2⟩ := exists_queries L inside [Polygon.mk Polygon.SumTree.sequential exFlat]
  obtain ⟨S3, h3⟩ :=
    exists_queries L inside [Polygon.mk Polygon.SumTree.sequential (astride 1000000 1000000)]
  have e : Polygon.mk Polygon.SumTree.sequential (astride 1000000 1000000) =
      (astride 1000000 1000000).reverse := by decide +kernel
  refine ⟨L, inside, S1, S2, S3, hL, hi, h1, h2, h3, by decide, e, ?_, ?_⟩
  · exact (h1 _ (by decide)).2 ⟨_, List.mem_singleton.2 rfl,
      (hi.one _ _ (by decide) (by decide)).2 ((lat_z hL (by decide)).2.2 (by decide))⟩
  · rw [e] at h3
    exact C81_clockwise L hL inside hi ⟨180000000, 1000000⟩ ⟨-180000000 + 1000000, 0⟩
      ⟨180000000 - 1000000, 0⟩ (by decide) (by decide) (by decide)
      (astride_det (by decide) (by decide) (by decide) (by decide)) _ (List.mem_singleton.2 rfl) S3 h3
      _ (by decide) (not_inTriangle_side hL (by decide) (by decide) (by decide) (by decide)
        (by decide) (by decide) (by decide) (by decide))

end Capi
