import Verif.Spec.Strait
import Verif.Lemmas.Islet

/-!
# Lemmas about arcs with a point in common
-/

namespace Capi

namespace Sphere

/-- Arcs with ends on one side of the other are apart. -/
theorem not_touch_side {a b c d : Point} (h : (0 < det a b c ∧ 0 < det a b d) ∨
    (det a b c < 0 ∧ det a b d < 0)) : ¬ Touch a b c d := by
  rintro ⟨p, hp, ⟨s, t, -, -, e1⟩, u, v, hu, hv, e2⟩
  have h0 : det a b p = 0 := by
    rw [e1]
    simp only [det, Prod.fst_add, Prod.snd_add, Prod.smul_fst, Prod.smul_snd, smul_eq_mul]
    ring
  have h1 : det a b p = u * det a b c + v * det a b d := by
    rw [e2]
    simp only [det, Prod.fst_add, Prod.snd_add, Prod.smul_fst, Prod.smul_snd, smul_eq_mul]
    ring
  rw [h0] at h1
  have key : u = 0 ∧ v = 0 := by
    rcases h with ⟨x, y⟩ | ⟨x, y⟩
    · have k1 := mul_nonneg hu x.le
      have k2 := mul_nonneg hv y.le
      exact ⟨(mul_eq_zero.1 (by linarith : u * det a b c = 0)).resolve_right x.ne',
        (mul_eq_zero.1 (by linarith : v * det a b d = 0)).resolve_right y.ne'⟩
    · have k1 := mul_nonpos_of_nonneg_of_nonpos hu x.le
      have k2 := mul_nonpos_of_nonneg_of_nonpos hv y.le
      exact ⟨(mul_eq_zero.1 (by linarith : u * det a b c = 0)).resolve_right x.ne,
        (mul_eq_zero.1 (by linarith : v * det a b d = 0)).resolve_right y.ne⟩
  apply hp
  rw [e2, key.1, key.2, zero_smul, zero_smul, add_zero]

theorem touch_comm {a b c d : Point} (h : Touch a b c d) : Touch c d a b := by
  obtain ⟨p, hp, h1, h2⟩ := h
  exact ⟨p, hp, h2, h1⟩

theorem dot_comb (s t u v : ℚ) (a b c d : Point) : dot (s • a + t • b) (u • c + v • d) =
    s * u * dot a c + s * v * dot a d + t * u * dot b c + t * v * dot b d := by
  simp only [dot, Prod.fst_add, Prod.snd_add, Prod.smul_fst, Prod.smul_snd, smul_eq_mul]
  ring

/-- Two short arcs with a common point have close ends. -/
theorem touch_close {L : Libm} (hL : L.Ok) {a b c d : Coord} (ha : a.Geo) (hb : b.Geo) (hc : c.Geo)
    (hd : d.Geo) {w : ℝ} (hw : w ^ 2 ≤ 1 / 2) (h1 : 1 - w ^ 2 ≤ sphereDot a b)
    (h2 : 1 - w ^ 2 ≤ sphereDot c d)
    (h : Touch (toPoint L a) (toPoint L b) (toPoint L c) (toPoint L d)) :
    ∃ x ∈ [a, b], ∃ y ∈ [c, d], 1 - w ^ 2 - 1 / 2 ^ 39 ≤ sphereDot x y := by
  by_contra hcon
  push Not at hcon
  obtain ⟨p, hp, ⟨s, t, hs, ht, e1⟩, u, v, hu, hv, e2⟩ := h
  set M : ℝ := 1 - w ^ 2 - 1 / 2 ^ 40 with hM
  have lt : ∀ x ∈ [a, b], ∀ y ∈ [c, d], (dot (toPoint L x) (toPoint L y) : ℝ) ≤ M := by
    intro x hx y hy
    have hgx : x.Geo := by
      rcases List.mem_cons.1 hx with rfl | hx
      · exact ha
      · rw [List.mem_singleton.1 hx]; exact hb
    have hgy : y.Geo := by
      rcases List.mem_cons.1 hy with rfl | hy
      · exact hc
      · rw [List.mem_singleton.1 hy]; exact hd
    have k1 := hcon x hx y hy
    have k2 := (abs_le.1 (dot_close hL hgx hgy)).2
    have k3 : (1 : ℝ) / 2 ^ 42 + 1 / 2 ^ 40 ≤ 1 / 2 ^ 39 := by norm_num
    rw [hM]
    linarith
  set m : ℝ := 1 - w ^ 2 - 1 / 2 ^ 42 with hm
  have hmM : M < m := by
    have : (1 : ℝ) / 2 ^ 42 < 1 / 2 ^ 40 := by norm_num
    rw [hM, hm]; linarith
  have hm0 : 0 < m := by
    have : (1 : ℝ) / 2 ^ 42 ≤ 1 / 4 := by norm_num
    rw [hm]; linarith
  have self : ∀ {x : Coord}, x.Geo → m ≤ (dot (toPoint L x) (toPoint L x) : ℝ) := by
    intro x hx
    have k := (abs_le.1 (dot_close hL hx hx)).1
    rw [sphereDot_self] at k
    have := sq_nonneg w
    rw [hm]; linarith
  have pair : ∀ {x y : Coord}, x.Geo → y.Geo → 1 - w ^ 2 ≤ sphereDot x y →
      m ≤ (dot (toPoint L x) (toPoint L y) : ℝ) := by
    intro x y hx hy hxy
    have k := (abs_le.1 (dot_close hL hx hy)).1
    rw [hm]; linarith
  have swap : ∀ x y : Point, dot x y = dot y x := fun x y => by simp only [dot]; ring
  have hs' : (0 : ℝ) ≤ s := by exact_mod_cast hs
  have ht' : (0 : ℝ) ≤ t := by exact_mod_cast ht
  have hu' : (0 : ℝ) ≤ u := by exact_mod_cast hu
  have hv' : (0 : ℝ) ≤ v := by exact_mod_cast hv
  have nz : ∀ {x y : ℚ} {q r : Point}, 0 ≤ x → 0 ≤ y → p = x • q + y • r → (0 : ℝ) < x + y := by
    intro x y q r hx hy e
    have : 0 < x + y := by
      rcases (add_nonneg hx hy).lt_or_eq with k | k
      · exact k
      · exfalso
        have x0 : x = 0 := by linarith
        have y0 : y = 0 := by linarith
        exact hp (by rw [e, x0, y0, zero_smul, zero_smul, add_zero])
    exact_mod_cast this
  have hX := nz hs ht e1
  have hY := nz hu hv e2
  have lower : ∀ {x y : ℚ} {q r : Coord}, q.Geo → r.Geo → 1 - w ^ 2 ≤ sphereDot q r →
      (0 : ℝ) ≤ x → (0 : ℝ) ≤ y → p = x • toPoint L q + y • toPoint L r →
      ((x : ℝ) + y) ^ 2 * m ≤ (dot p p : ℝ) := by
    intro x y q r hq hr hqr hx hy e
    have k : dot p p = x * x * dot (toPoint L q) (toPoint L q) +
        x * y * dot (toPoint L q) (toPoint L r) + y * x * dot (toPoint L r) (toPoint L q) +
        y * y * dot (toPoint L r) (toPoint L r) := by
      rw [← dot_comb, ← e]
    rw [k, swap (toPoint L r) (toPoint L q)]
    push_cast
    have g1 := mul_le_mul_of_nonneg_left (self hq) (mul_nonneg hx hx)
    have g2 := mul_le_mul_of_nonneg_left (pair hq hr hqr) (mul_nonneg hx hy)
    have g3 := mul_le_mul_of_nonneg_left (self hr) (mul_nonneg hy hy)
    linarith
  have l1 := lower ha hb h1 hs' ht' e1
  have l2 := lower hc hd h2 hu' hv' e2
  have up : (dot p p : ℝ) ≤ ((s : ℝ) + t) * (u + v) * M := by
    have k : dot p p = s * u * dot (toPoint L a) (toPoint L c) +
        s * v * dot (toPoint L a) (toPoint L d) + t * u * dot (toPoint L b) (toPoint L c) +
        t * v * dot (toPoint L b) (toPoint L d) := by
      rw [← dot_comb, ← e1, ← e2]
    rw [k]
    push_cast
    have g1 := mul_le_mul_of_nonneg_left (lt a (by simp) c (by simp)) (mul_nonneg hs' hu')
    have g2 := mul_le_mul_of_nonneg_left (lt a (by simp) d (by simp)) (mul_nonneg hs' hv')
    have g3 := mul_le_mul_of_nonneg_left (lt b (by simp) c (by simp)) (mul_nonneg ht' hu')
    have g4 := mul_le_mul_of_nonneg_left (lt b (by simp) d (by simp)) (mul_nonneg ht' hv')
    linarith
  set X : ℝ := (s : ℝ) + t
  set Y : ℝ := (u : ℝ) + v
  have hXY : 0 < X * Y := mul_pos hX hY
  have hup : (dot p p : ℝ) < X * Y * m := lt_of_le_of_lt up (mul_lt_mul_of_pos_left hmM hXY)
  have q1 : X ^ 2 < X * Y := lt_of_mul_lt_mul_right (lt_of_le_of_lt l1 hup) hm0.le
  have q2 : Y ^ 2 < X * Y := lt_of_mul_lt_mul_right (lt_of_le_of_lt l2 hup) hm0.le
  nlinarith [sq_nonneg (X - Y)]

/-- Arcs that turn alike have a point in common. -/
theorem touch_of_sameTurn {a b c d : Point} (h : SameTurn a b c d) : Touch a b c d := by
  have e : (-det c d b) • a + det c d a • b = det a b d • c + (-det a b c) • d := by
    obtain ⟨a1, a2, a3⟩ := a
    obtain ⟨b1, b2, b3⟩ := b
    obtain ⟨c1, c2, c3⟩ := c
    obtain ⟨d1, d2, d3⟩ := d
    simp only [det, Prod.smul_mk, Prod.mk_add_mk, smul_eq_mul, Prod.mk.injEq]
    refine ⟨?_, ?_, ?_⟩ <;> ring
  have r1 : det a c b = -det a b c := by simp only [det]; ring
  have r2 : det c b d = -det c d b := by simp only [det]; ring
  have r3 : det b d a = det a b d := by simp only [det]; ring
  have r4 : det d a c = det c d a := by simp only [det]; ring
  unfold SameTurn at h
  rw [r1, r2, r3, r4] at h
  have nz : ∀ x y : ℚ, x * det c d a ≠ 0 → x • c + y • d ≠ 0 := by
    intro x y hx h0
    have k : det d a (x • c + y • d) = x * det c d a := by
      simp only [det, Prod.fst_add, Prod.snd_add, Prod.smul_fst, Prod.smul_snd, smul_eq_mul]
      ring
    rw [h0] at k
    apply hx
    rw [← k]
    simp [det]
  rcases h with ⟨h1, h2, h3, h4⟩ | ⟨h1, h2, h3, h4⟩
  · exact ⟨_, nz _ (-det a b c) (mul_ne_zero h3.ne' h4.ne'), ⟨_, _, h2.le, h4.le, e.symm⟩,
      ⟨_, _, h3.le, h1.le, rfl⟩⟩
  · have e' : det c d b • a + (-det c d a) • b = (-det a b d) • c + det a b c • d := by
      have := congrArg (fun q => -q) e
      simpa only [neg_add, ← neg_smul, neg_neg] using this
    exact ⟨_, nz (-det a b d) (det a b c) (mul_ne_zero (neg_ne_zero.2 h3.ne) h4.ne),
      ⟨_, _, by linarith, by linarith, e'.symm⟩, ⟨_, _, by linarith, by linarith, rfl⟩⟩

end Sphere

end Capi
