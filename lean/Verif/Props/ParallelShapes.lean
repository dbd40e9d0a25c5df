import Verif.Props.Frontend
import Verif.Props.Parallel

/-!
# C94 — from the degrees in a shapefile to the end of the generation

Degrees are cut off to millionths after one rounding, so the longitudes that generation stands go a
little beyond 180 degrees; the bound is exact.
-/

namespace Capi

open Frontend Visgraph

theorem ulp_lt_pow {y : ℚ} {e : ℤ} (h0 : y ≠ 0) (h : |y| < 2 ^ e) : ulp y ≤ 2 ^ (e - 53) := by
  unfold ulp
  have h1 : (2 : ℚ) ^ Int.log 2 |y| < 2 ^ e :=
    lt_of_le_of_lt (by exact_mod_cast Int.zpow_log_le_self (b := 2) (by norm_num) (abs_pos.2 h0)) h
  have h2 : Int.log 2 |y| < e := (zpow_lt_zpow_iff_right₀ (by norm_num)).1 h1
  exact zpow_le_zpow_right₀ (by norm_num) (by omega)

/-- Degrees are within `B` millionths exactly if they are below the midpoint before the next. -/
theorem micro_exact {x : ℚ} {B : ℤ} {e : ℤ} (hB : 0 ≤ B) (hB2 : B ≤ 2147483646)
    (he : ((B : ℚ) + 1) < 2 ^ e) (hmid : fl ((B : ℚ) + 1 - 2 ^ (e - 54)) = B + 1) :
    (∃ k, Coord.microOfDegC x = .ok k ∧ -B ≤ k ∧ k ≤ B) ↔
      |1000000 * x| < (B : ℚ) + 1 - 2 ^ (e - 54) := by
  have key : |fl (1000000 * x)| < (B : ℚ) + 1 ↔ |1000000 * x| < (B : ℚ) + 1 - 2 ^ (e - 54) := by
    constructor
    · intro h
      by_contra hc
      push Not at hc
      rcases le_abs.1 hc with hc | hc
      · have := fl_mono hc
        rw [hmid] at this
        exact absurd (lt_of_le_of_lt (le_abs_self _) h) (not_lt.2 this)
      · have := fl_mono hc
        rw [hmid, fl_neg] at this
        exact absurd (lt_of_le_of_lt (neg_le_abs _) h) (not_lt.2 this)
    · intro h
      by_cases h0 : 1000000 * x = 0
      · rw [h0, fl_zero]
        have : (0 : ℚ) ≤ B := by exact_mod_cast hB
        simp only [abs_zero]
        linarith
      · have hp : (0 : ℚ) < 2 ^ (e - 54) := by positivity
        have h1 := ulp_lt_pow (e := e) h0 (by linarith)
        have h2 := fl_err_ulp (1000000 * x)
        have h3 : (2 : ℚ) ^ (e - 53) = 2 * 2 ^ (e - 54) := by
          rw [show e - 53 = 1 + (e - 54) by ring, zpow_add₀ (by norm_num)]
          norm_num
        have h4 : |fl (1000000 * x)| ≤ |fl (1000000 * x) - 1000000 * x| + |1000000 * x| := by
          have := abs_add_le (fl (1000000 * x) - 1000000 * x) (1000000 * x)
          rwa [sub_add_cancel] at this
        linarith
  have tr : (-B ≤ truncZ (fl (1000000 * x)) ∧ truncZ (fl (1000000 * x)) ≤ B) ↔
      |fl (1000000 * x)| < (B : ℚ) + 1 := by
    generalize fl (1000000 * x) = y
    unfold truncZ
    split_ifs with h0
    · rw [abs_of_nonneg h0]
      have hf : 0 ≤ ⌊y⌋ := Int.floor_nonneg.2 h0
      rw [← Int.lt_add_one_iff (a := ⌊y⌋), Int.floor_lt]
      push_cast
      constructor
      · exact fun h => h.2
      · exact fun h => ⟨by omega, h⟩
    · rw [abs_of_neg (not_le.1 h0)]
      have hf : ⌈y⌉ ≤ 0 := Int.ceil_le.2 (by push_cast; exact (not_le.1 h0).le)
      have h1 : -B ≤ ⌈y⌉ ↔ -y < (B : ℚ) + 1 := by
        rw [show (-B ≤ ⌈y⌉ ↔ -B - 1 < ⌈y⌉) by omega, Int.lt_ceil]
        push_cast
        constructor <;> intro h <;> linarith
      rw [h1]
      exact ⟨fun h => h.1, fun h => ⟨h, by omega⟩⟩
  rw [← key, ← tr]
  unfold Coord.microOfDegC
  constructor
  · rintro ⟨k, h, h1⟩
    unfold chk32 at h
    split_ifs at h
    cases Except.ok.inj h
    exact h1
  · intro h
    exact ⟨_, chk32_ok (by unfold FitsI32; omega), h⟩

theorem fl_mid_180 : fl (((180000000 : ℤ) : ℚ) + 1 - 2 ^ ((28 : ℤ) - 54)) = ((180000000 : ℤ) : ℚ) + 1 := by
  have := fl_eval (x := ((180000000 : ℤ) : ℚ) + 1 - 2 ^ ((28 : ℤ) - 54)) 27 (180000001 * 2 ^ 25) (by
    rw [abs_of_pos (by norm_num)]; norm_num) (by rw [abs_of_pos (by norm_num)]; norm_num) (by
    norm_num [rne, Int.floor_eq_iff])
  rw [this]
  norm_num

theorem fl_mid_90 : fl (((90000000 : ℤ) : ℚ) + 1 - 2 ^ ((27 : ℤ) - 54)) = ((90000000 : ℤ) : ℚ) + 1 := by
  have := fl_eval (x := ((90000000 : ℤ) : ℚ) + 1 - 2 ^ ((27 : ℤ) - 54)) 26 (90000001 * 2 ^ 26) (by
    rw [abs_of_pos (by norm_num)]; norm_num) (by rw [abs_of_pos (by norm_num)]; norm_num) (by
    norm_num [rne, Int.floor_eq_iff])
  rw [this]
  norm_num

/-- **C94** A pair of degrees becomes a geographic coordinate exactly if, in millionths of a degree,
the longitude is less than 180000001 - 2⁻²⁶ and the latitude less than 90000001 - 2⁻²⁷ away from
zero. -/
theorem C94_degrees (lon lat : ℚ) :
    (∃ c, Coord.ofDegreesC lon lat = .ok c ∧ c.Geo) ↔
      |1000000 * lon| < 180000001 - 1 / 2 ^ 26 ∧ |1000000 * lat| < 90000001 - 1 / 2 ^ 27 := by
  have h1 := micro_exact (x := lon) (B := 180000000) (e := 28) (by omega) (by omega) (by norm_num)
    fl_mid_180
  have h2 := micro_exact (x := lat) (B := 90000000) (e := 27) (by omega) (by omega) (by norm_num)
    fl_mid_90
  norm_num at h1 h2
  norm_num
  rw [← h1, ← h2]
  unfold Coord.ofDegreesC
  constructor
  · rintro ⟨c, h, g⟩
    obtain ⟨x, hx, h⟩ := bind_split h
    obtain ⟨y, hy, h⟩ := bind_split h
    cases Except.ok.inj h
    unfold Coord.Geo at g
    dsimp only at g
    exact ⟨⟨x, hx, by omega, by omega⟩, ⟨y, hy, by omega, by omega⟩⟩
  · rintro ⟨⟨x, hx, _⟩, ⟨y, hy, _⟩⟩
    refine ⟨⟨x, y⟩, by rw [hx, Res.bind_ok, hy]; rfl, ?_⟩
    unfold Coord.Geo
    dsimp only
    omega

/-- Non-vacuity of `C94_degrees`, both ways. -/
example : (∃ c, Coord.ofDegreesC (1800000009 / 10000000) 45 = .ok c ∧ c.Geo) ∧
    ¬ ∃ c, Coord.ofDegreesC (180000001 / 1000000) 45 = .ok c ∧ c.Geo := by
  rw [C94_degrees, C94_degrees]
  constructor
  · constructor <;> rw [abs_of_nonneg (by norm_num)] <;> norm_num
  · rintro ⟨h, _⟩
    rw [abs_of_nonneg (by norm_num)] at h
    norm_num at h

/-- **C94** If all longitudes in a shapefile are below 180.000001 degrees, by the last bit, and the
latitudes below 90.000001, reading the file and generating the graph returns: no exception, no
undefined behaviour and no end of the process, whatever the containers and threads do. -/
theorem C94_shapefile (T : ℕ → Polygon.SumTree) (shapes : List Shape)
    (h : ∀ s ∈ shapes, ∀ p ∈ s.points,
      |1000000 * p.1| < 180000001 - 1 / 2 ^ 26 ∧ |1000000 * p.2| < 90000001 - 1 / 2 ^ 27) :
    ∃ ps, (readShapes shapes >>= toPolygons T) = .ok ps ∧
      ∀ scanner, IsScanner T ps scanner → ∀ order : List Coord → List Coord,
        (∀ l, (order l).Perm l) → ∃ g, generateP ps scanner order = .done g := by
  have main : ∃ ps, (readShapes shapes >>= toPolygons T) = .ok ps ∧ ∀ v ∈ ps.flatten, v.Geo := by
    rw [C54_read, Res.bind_ok]
    unfold toPolygons
    obtain ⟨ps, h1, h2⟩ := mapM_ok (P := fun p : List Coord => ∀ v ∈ p, v.Geo)
      (f := fun q : List (ℚ × ℚ) => (do
        let cs ← q.mapM fun p => Coord.ofDegreesC p.1 p.2
        return Polygon.mk T cs : Res (List Coord)))
      ((shapes.filter fun s => s.isPolygon && decide (4 ≤ (firstRing s).length)).map fun s =>
        (firstRing s).dropLast) (by
      intro q hq
      obtain ⟨s, hs, rfl⟩ := List.mem_map.1 hq
      have hs := (List.mem_filter.1 hs).1
      obtain ⟨cs, g1, g2⟩ := mapM_ok (f := fun p : ℚ × ℚ => Coord.ofDegreesC p.1 p.2)
        (P := Coord.Geo) (firstRing s).dropLast (by
          intro p hp
          have hp : p ∈ s.points := by
            have := List.dropLast_subset _ hp
            unfold firstRing at this
            split at this
            · exact List.mem_of_mem_take this
            · exact this
          exact (C94_degrees p.1 p.2).2 (h s hs p hp))
      refine ⟨Polygon.mk T cs, ?_, fun v hv => g2 v ?_⟩
      · rw [g1]; rfl
      · apply (removeCollinear_sublist cs).subset
        rcases C12_same_vertices T cs with e | e
        · rwa [e] at hv
        · rw [e] at hv; exact List.mem_reverse.1 hv)
    refine ⟨ps, h1, fun v hv => ?_⟩
    obtain ⟨p, hp, hv⟩ := List.mem_flatten.1 hv
    exact h2 p hp v hv
  obtain ⟨ps, h1, h2⟩ := main
  refine ⟨ps, h1, fun scanner hs order ho => ?_⟩
  obtain ⟨g, h3, _⟩ := (C94_geographic T ps h2 scanner hs order id ho (fun l => List.Perm.refl l)
    0 0).1
  exact ⟨g, h3⟩

/-- An island whose eastern side is one millionth of a degree beyond the meridian. -/
def exEdge : Shape :=
  ⟨true, [(175, 0), (180000001 / 1000000, 0), (180000001 / 1000000, 10), (175, 10), (175, 0)], [0]⟩

/-- Non-vacuity of `C94_shapefile`: the same island half a millionth further west. -/
example : ∃ ps, (readShapes [⟨true, [(175, 0), (1800000005 / 10000000, 0),
      (1800000005 / 10000000, 10), (175, 10), (175, 0)], [0]⟩] >>=
      toPolygons Polygon.SumTree.sequential) = .ok ps ∧
    ∃ g, generateP ps (exScanner Polygon.SumTree.sequential ps) id = .done g := by
  obtain ⟨ps, h1, h2⟩ := C94_shapefile Polygon.SumTree.sequential [⟨true, [(175, 0),
      (1800000005 / 10000000, 0), (1800000005 / 10000000, 10), (175, 10), (175, 0)], [0]⟩] (by
    intro s hs p hp
    rw [List.mem_singleton.1 hs] at hp
    simp only [List.mem_cons, List.not_mem_nil, or_false] at hp
    rcases hp with rfl | rfl | rfl | rfl | rfl <;>
      constructor <;> rw [abs_of_nonneg (by norm_num)] <;> norm_num)
  exact ⟨ps, h1, h2 _ (exScanner_ok _ _) id fun l => List.Perm.refl l⟩

/-- The polygon read from `exEdge`. -/
def exEdgePolygon : List Coord :=
  [⟨175000000, 0⟩, ⟨180000001, 0⟩, ⟨180000001, 10000000⟩, ⟨175000000, 10000000⟩]

/-- **C94** (the bound on longitudes cannot be dropped) An island reaching 180.000001 degrees is read
without complaint and ends the process. -/
theorem C94_shapefile_false :
    (readShapes [exEdge] >>= toPolygons Polygon.SumTree.sequential) = .ok [exEdgePolygon] ∧
    (∀ order : List Coord → List Coord, (∀ l, (order l).Perm l) →
      generateP [exEdgePolygon] (exScanner Polygon.SumTree.sequential [exEdgePolygon]) order
        = .aborted) := by
  refine ⟨by decide +kernel, fun order ho => ?_⟩
  have hub : ∀ a ∈ [exEdgePolygon].flatten,
      exScanner Polygon.SumTree.sequential [exEdgePolygon] a ≠ .error .ub := by decide +kernel
  have hout : (match exScanner Polygon.SumTree.sequential [exEdgePolygon] ⟨175000000, 0⟩ with
      | .ok vis => vis.all fun r => decide (r.1 ∈ [exEdgePolygon].flatten)
      | .error _ => true) = false := by decide +kernel
  rcases C94_generate [exEdgePolygon] (exScanner Polygon.SumTree.sequential [exEdgePolygon]) order ho
    (by decide) hub with ⟨h, _⟩ | ⟨_, h⟩
  · exfalso
    obtain ⟨vis, h1, h2⟩ := h ⟨175000000, 0⟩ (by decide)
    rw [h1] at hout
    have : (vis.all fun r => decide (r.1 ∈ [exEdgePolygon].flatten)) = true :=
      List.all_eq_true.2 fun r hr => decide_eq_true (h2 r hr)
    dsimp only at hout
    rw [this] at hout
    simp at hout
  · exact h

end Capi
