import Verif.Lemmas.Vector

/-!
# C85: arithmetic with coordinates
-/

namespace Capi

/-- **C85** Multiplying by a number is defined when the exact result is in range, then at most half a
microdegree off in either direction up to `2^-21`; it is undefined where the exact result rounds to
something out of range. -/
theorem C85_scale (a : Coord) (s : ℚ) :
    (WithinI32 (a.lon * s) → WithinI32 (a.lat * s) → ∃ r, a.scale64 (.fin s) = .ok r) ∧
    (∀ r, a.scale64 (.fin s) = .ok r →
      |(r.lon : ℚ) - a.lon * s| ≤ 1 / 2 + 1 / 2 ^ 21 ∧
      |(r.lat : ℚ) - a.lat * s| ≤ 1 / 2 + 1 / 2 ^ 21) ∧
    ((∃ x ∈ [(a.lon : ℚ) * s, a.lat * s], 2147483647 + 1 / 2 ≤ x ∨ x ≤ -(2147483648 + 1 / 2)) →
      a.scale64 (.fin s) = .error .ub) := by
  rw [(C68_scale a (.fin s)).1 s rfl]
  refine ⟨fun h1 h2 => ⟨_, scaleC_ok h1 h2⟩, fun r hr => ?_, ?_⟩
  · obtain ⟨rfl, h1, h2⟩ := scaleC_eq hr
    exact ⟨scaled_component h1, scaled_component h2⟩
  · rintro ⟨x, hx, h⟩
    have hx' : x = a.lon * s ∨ x = a.lat * s := by simpa using hx
    unfold Coord.scaleC chk32
    rcases hx' with rfl | rfl
    · rw [if_neg (overflow_round h)]; rfl
    · rw [if_neg (overflow_round h)]
      split_ifs <;> rfl

example : Coord.scale64 ⟨3, -5⟩ (.fin (1 / 2)) = .ok ⟨2, -3⟩ ∧
    Coord.scale64 ⟨180000000, 1⟩ (.fin 12) = .error .ub := by decide +kernel

/-- **C85** Multiplying by a whole number is exact. -/
theorem C85_whole (a : Coord) (n : ℤ) (h1 : FitsI32 (a.lon * n)) (h2 : FitsI32 (a.lat * n)) :
    a.scale64 (.fin n) = .ok ⟨a.lon * n, a.lat * n⟩ := by
  have key : ∀ k : ℤ, FitsI32 (k * n) → roundHalfAway (fl ((k : ℚ) * n)) = k * n := by
    intro k hk
    have := fl_int (k * n) (by unfold FitsI32 at hk; rw [abs_le]; constructor <;> omega)
    push_cast at this
    rw [this]
    have := roundHalfAway_int (k * n)
    push_cast at this
    exact this
  rw [(C68_scale a (.fin n)).1 n rfl]
  unfold Coord.scaleC chk32
  rw [key _ h1, key _ h2, if_pos h1, if_pos h2]
  rfl

example : Coord.scale64 ⟨20000000, -7⟩ (.fin (-9)) = .ok ⟨-180000000, 63⟩ := by decide +kernel

/-- **C85** Dividing by the same number undoes a multiplication by a number beyond one. -/
theorem C85_undo (a r : Coord) (s : ℚ) (ha : a.I32) (hs : 1 + 1 / 100000 ≤ |s|) (hs' : |s| ≤ 2 ^ 200)
    (h : a.scale64 (.fin s) = .ok r) : r.div64 (.fin s) = .ok a := by
  have hsne : s ≠ 0 := abs_pos.1 (by linarith)
  rw [(C68_scale a (.fin s)).1 s rfl] at h
  obtain ⟨rfl, h1, h2⟩ := scaleC_eq h
  have hn : Normal (1 / s) := by
    apply normal_of
    · rw [abs_div, abs_one]
      exact one_div_le_one_div_of_le (by linarith) hs'
    · rw [abs_div, abs_one, div_le_iff₀ (by linarith)]
      have : (1 : ℚ) ≤ 2 ^ 200 := by norm_num
      nlinarith
  rw [(C68_divide _).2 s hsne hn]
  unfold Coord.divC Coord.scaleC Coord.scale chk32
  simp only
  rw [undo_component hs h1, undo_component hs h2, if_pos ha.1, if_pos ha.2]
  rfl

example : Coord.scale64 ⟨-7, 11⟩ (.fin (3 / 2)) = .ok ⟨-11, 17⟩ ∧
    Coord.div64 ⟨-11, 17⟩ (.fin (3 / 2)) = .ok ⟨-7, 11⟩ := by decide +kernel

/-- **C85** is false: dividing undoes a multiplication.  With one half it does not. -/
theorem C85_undo_false : ¬ ∀ (a r : Coord) (s : ℚ), a.Geo → s ≠ 0 → a.scale64 (.fin s) = .ok r →
    r.div64 (.fin s) = .ok a := by
  intro h
  have := h ⟨1, 0⟩ ⟨1, 0⟩ (1 / 2) (by decide) (by norm_num) (by decide +kernel)
  revert this
  decide +kernel

/-- **C85** Multiplication distributes over sums up to one microdegree in either direction. -/
theorem C85_spread (a b x y z : Coord) (s : ℚ) (hx : a.scale64 (.fin s) = .ok x)
    (hy : b.scale64 (.fin s) = .ok y) (hz : (a.add b).scale64 (.fin s) = .ok z) :
    |z.lon - (x.lon + y.lon)| ≤ 1 ∧ |z.lat - (x.lat + y.lat)| ≤ 1 := by
  obtain ⟨x1, x2⟩ := (C85_scale a s).2.1 x hx
  obtain ⟨y1, y2⟩ := (C85_scale b s).2.1 y hy
  obtain ⟨z1, z2⟩ := (C85_scale _ s).2.1 z hz
  have key : ∀ {p q : ℚ} {i j k : ℤ}, |(i : ℚ) - p| ≤ 1 / 2 + 1 / 2 ^ 21 →
      |(j : ℚ) - q| ≤ 1 / 2 + 1 / 2 ^ 21 → |(k : ℚ) - (p + q)| ≤ 1 / 2 + 1 / 2 ^ 21 →
      |k - (i + j)| ≤ 1 := by
    intro p q i j k hi hj hk
    have : |((k - (i + j) : ℤ) : ℚ)| < ((2 : ℤ) : ℚ) := by
      push_cast
      rw [abs_le] at hi hj hk
      rw [abs_lt]
      constructor <;> linarith [hi.1, hi.2, hj.1, hj.2, hk.1, hk.2]
    have : |k - (i + j)| < 2 := by exact_mod_cast this
    omega
  constructor
  · refine key x1 y1 ?_
    have : ((a.add b).lon : ℚ) * s = a.lon * s + b.lon * s := by
      unfold Coord.add; push_cast; ring
    rwa [← this]
  · refine key x2 y2 ?_
    have : ((a.add b).lat : ℚ) * s = a.lat * s + b.lat * s := by
      unfold Coord.add; push_cast; ring
    rwa [← this]

/-- It does not distribute exactly. -/
example : Coord.scale64 ⟨1, 0⟩ (.fin (1 / 2)) = .ok ⟨1, 0⟩ ∧
    Coord.scale64 (Coord.add ⟨1, 0⟩ ⟨1, 0⟩) (.fin (1 / 2)) = .ok ⟨1, 0⟩ := by decide +kernel

/-- **C85** The products on doubles are right up to a relative error of about `2^-49` of their
summands. -/
theorem C85_products (a b : Coord) (ha : a.I32) (hb : b.I32) :
    (∃ q, a.dot64 b = .fin q ∧ |q - (a.lon * b.lon + a.lat * b.lat : ℤ) / 1000000000000| ≤
      8 * (|(a.lon * b.lon : ℤ)| + |(a.lat * b.lat : ℤ)| : ℤ) / 1000000000000 / 2 ^ 53) ∧
    (∃ q, a.cross64 b = .fin q ∧ |q - (a.lon * b.lat - b.lon * a.lat : ℤ) / 1000000000000| ≤
      8 * (|(a.lon * b.lat : ℤ)| + |(b.lon * a.lat : ℤ)| : ℤ) / 1000000000000 / 2 ^ 53) := by
  have key : ∀ {x y p q : ℚ}, |x - p / 1000000000000| ≤ 6 * |p| / 1000000000000 / 2 ^ 53 →
      |y - q / 1000000000000| ≤ 6 * |q| / 1000000000000 / 2 ^ 53 →
      |fl (x + y) - (p + q) / 1000000000000| ≤ 8 * (|p| + |q|) / 1000000000000 / 2 ^ 53 := by
    intro x y p q hx hy
    set S := (|p| + |q|) / 1000000000000 with hS
    have hS0 : 0 ≤ S := by positivity
    have h1 : |x + y - (p + q) / 1000000000000| ≤ 6 * S / 2 ^ 53 := by
      rw [abs_le] at *
      have i1 : 6 * S / 2 ^ 53 =
        6 * |p| / 1000000000000 / 2 ^ 53 + 6 * |q| / 1000000000000 / 2 ^ 53 := by rw [hS]; ring
      constructor <;> linarith [hx.1, hx.2, hy.1, hy.2]
    have h2 : |x + y| ≤ 2 * S := by
      have : |(p + q) / 1000000000000| ≤ S := by
        rw [abs_div, abs_of_pos (by norm_num : (0 : ℚ) < 1000000000000), hS]
        gcongr
        exact abs_add_le p q
      have := abs_sub_abs_le_abs_sub (x + y) ((p + q) / 1000000000000)
      have : 6 * S / 2 ^ 53 ≤ S := by
        rw [div_le_iff₀ (by positivity)]; nlinarith
      linarith
    have h3 : |fl (x + y) - (x + y)| ≤ 2 * S / 2 ^ 53 := (fl_err _).trans (by gcongr)
    rw [show fl (x + y) - (p + q) / 1000000000000 =
      (fl (x + y) - (x + y)) + (x + y - (p + q) / 1000000000000) by ring]
    refine (abs_add_le _ _).trans ((add_le_add h3 h1).trans (le_of_eq ?_))
    rw [hS]; ring
  constructor
  · obtain ⟨x1, x2⟩ := prod_fits ha.1 hb.1
    obtain ⟨y1, y2⟩ := prod_fits ha.2 hb.2
    have e : a.dot64 b = .fin (fl (fl (Coord.degOfMicro a.lon * Coord.degOfMicro b.lon) +
        fl (Coord.degOfMicro a.lat * Coord.degOfMicro b.lat))) := by
      unfold Coord.dot64 Coord.lon64 Coord.lat64
      rw [x1, y1]
      exact (add_fits x2 y2 (by norm_num) (by norm_num) fl_twice).1
    refine ⟨_, e, ?_⟩
    · have := key (prod_deg_err a.lon b.lon) (prod_deg_err a.lat b.lat)
      push_cast
      exact this
  · obtain ⟨x1, x2⟩ := prod_fits ha.1 hb.2
    obtain ⟨y1, y2⟩ := prod_fits hb.1 ha.2
    have e : a.cross64 b = .fin (fl (fl (Coord.degOfMicro a.lon * Coord.degOfMicro b.lat) -
        fl (Coord.degOfMicro b.lon * Coord.degOfMicro a.lat))) := by
      unfold Coord.cross64 Coord.lon64 Coord.lat64
      rw [x1, y1]
      exact (sub_fits x2 y2 (by norm_num) (by norm_num) fl_twice).1
    refine ⟨_, e, ?_⟩
    · have h1 := prod_deg_err a.lon b.lat
      have h2 := prod_deg_err b.lon a.lat
      have h2' : |-fl (Coord.degOfMicro b.lon * Coord.degOfMicro a.lat) -
          (-(b.lon * a.lat : ℚ)) / 1000000000000| ≤
          6 * |(-(b.lon * a.lat) : ℚ)| / 1000000000000 / 2 ^ 53 := by
        rw [abs_neg, ← abs_neg]
        refine le_of_eq_of_le ?_ h2
        congr 1
        ring
      have := key h1 h2'
      rw [abs_neg, ← sub_eq_add_neg, ← sub_eq_add_neg] at this
      push_cast
      exact this

/-- Thirty degrees east, squared: exactly 900. -/
example : (∃ q, Coord.dot64 ⟨30000000, 0⟩ ⟨30000000, 0⟩ = .fin q ∧
    |q - 900| ≤ 8 * 900 / 2 ^ 53) := by
  obtain ⟨q, h1, h2⟩ := (C85_products ⟨30000000, 0⟩ ⟨30000000, 0⟩ (by decide) (by decide)).1
  refine ⟨q, h1, ?_⟩
  norm_num at h2 ⊢
  exact h2

/-- **C85** is false: the sign of the product on doubles tells the direction of a turn.  For two
geographic vectors it says right where the second is to the left. -/
theorem C85_turn_false : ¬ ∀ (a b : Coord) (q : ℚ), a.Geo → b.Geo → a.cross64 b = .fin q → q < 0 →
    a.orient b ≠ .counterClockwise := by
  intro h
  obtain ⟨q, hq⟩ := (C68_cross ⟨168957265, 56147529⟩ ⟨143922486, 47828023⟩ (by decide) (by decide)).2.2
  refine h ⟨168957265, 56147529⟩ ⟨143922486, 47828023⟩ q (by decide) (by decide) hq ?_ (by decide)
  have : (Coord.cross64 ⟨168957265, 56147529⟩ ⟨143922486, 47828023⟩).lt (.fin 0) = true := by
    decide +kernel
  rw [hq] at this
  simpa [F64.lt] using this

/-- **C85** is false: a difference that fits the representation can be computed.  Subtracting the
most negative longitude is undefined, also from a negative one. -/
theorem C85_minus_false : ¬ ∀ a b : Coord, a.I32 → b.I32 → (a.sub b).I32 → a.subC b = .ok (a.sub b) := by
  intro h
  have := h ⟨-1, 0⟩ ⟨-2147483648, 0⟩ (by decide) (by decide) (by decide)
  revert this
  decide

/-- **C85** Otherwise sums and differences are exact where they fit and undefined elsewhere. -/
theorem C85_sum (a b : Coord) :
    ((a.add b).I32 → a.addC b = .ok (a.add b)) ∧ (¬ (a.add b).I32 → a.addC b = .error .ub) ∧
    (b.neg.I32 → (a.sub b).I32 → a.subC b = .ok (a.sub b)) ∧
    (¬ (b.neg.I32 ∧ (a.sub b).I32) → a.subC b = .error .ub) := by
  have hadd : ∀ c : Coord, ((a.add c).I32 → a.addC c = .ok (a.add c)) ∧
      (¬ (a.add c).I32 → a.addC c = .error .ub) := by
    intro c
    unfold Coord.addC Coord.I32 Coord.add chk32
    constructor
    · rintro ⟨h1, h2⟩
      rw [if_pos h1, if_pos h2]; rfl
    · intro h
      split_ifs with h1 h2
      · exact absurd ⟨h1, h2⟩ h
      · rfl
      · rfl
      · rfl
  have hneg : (b.neg.I32 → b.negC = .ok b.neg) ∧ (¬ b.neg.I32 → b.negC = .error .ub) := by
    unfold Coord.negC Coord.I32 Coord.neg chk32
    constructor
    · rintro ⟨h1, h2⟩
      rw [if_pos h1, if_pos h2]; rfl
    · intro h
      split_ifs with h1 h2
      · exact absurd ⟨h1, h2⟩ h
      · rfl
      · rfl
      · rfl
  refine ⟨(hadd b).1, (hadd b).2, fun h1 h2 => ?_, fun h => ?_⟩
  · unfold Coord.subC
    rw [hneg.1 h1, Res.bind_ok]
    exact (hadd _).1 h2
  · unfold Coord.subC
    by_cases h1 : b.neg.I32
    · rw [hneg.1 h1, Res.bind_ok]
      exact (hadd _).2 fun h2 => h ⟨h1, h2⟩
    · rw [hneg.2 h1]; rfl

example : Coord.subC ⟨1, 2⟩ ⟨3, 5⟩ = .ok ⟨-2, -3⟩ ∧
    Coord.addC ⟨2147483647, 0⟩ ⟨1, 0⟩ = .error .ub := by decide

/-- **C85** The unit vector of a vector other than zero has its direction up to half a microdegree
in either component and is a degree long up to a microdegree. -/
theorem C85_unit (sq : ℚ → ℚ) (hsq : SqrtOk sq) (a : Coord) (ha : a.I32) (h0 : a ≠ ⟨0, 0⟩) :
    ∃ u, a.unit64 sq = .ok u ∧
      |(u.lon : ℝ) - 1000000 * (a.lon / √(a.magSq : ℝ))| ≤ 1 / 2 + 1 / 10000000 ∧
      |(u.lat : ℝ) - 1000000 * (a.lat / √(a.magSq : ℝ))| ≤ 1 / 2 + 1 / 10000000 ∧
      0 ≤ u.lon * a.lon ∧ 0 ≤ u.lat * a.lat ∧ |√(u.magSq : ℝ) - 1000000| ≤ 1 := by
  obtain ⟨hne, hn⟩ := length_normal hsq ha h0
  have hm : a.magSq ≠ 0 := fun h => h0 (Coord.ext' (magSq_eq_zero h).1 (magSq_eq_zero h).2)
  obtain ⟨hp, hc⟩ := (lenOk_sqrt hsq).close a hm
  have hpos : (0 : ℤ) < a.magSq := by
    have : 0 ≤ a.magSq := add_nonneg (mul_self_nonneg _) (mul_self_nonneg _)
    omega
  set r := √(a.magSq : ℝ) with hr
  have hr0 : 0 < r := Real.sqrt_pos.2 (by exact_mod_cast hpos)
  have hrr : r * r = a.lon * a.lon + a.lat * a.lat := by
    rw [hr, Real.mul_self_sqrt (by exact_mod_cast hpos.le)]
    unfold Coord.magSq; push_cast; rfl
  have k1 : |(a.lon : ℝ)| ≤ r := abs_le_of_sq_le_sq (by nlinarith [mul_self_nonneg (a.lat : ℝ)]) hr0.le
  have k2 : |(a.lat : ℝ)| ≤ r := abs_le_of_sq_le_sq (by nlinarith [mul_self_nonneg (a.lon : ℝ)]) hr0.le
  obtain ⟨u1, s1⟩ := unit_component hr0 hp hc k1
  obtain ⟨u2, s2⟩ := unit_component hr0 hp hc k2
  have fits : ∀ {k j : ℤ}, |(k : ℝ)| ≤ r →
      |(j : ℝ) - 1000000 * (k / r)| ≤ 1 / 2 + 1 / 10000000 → FitsI32 j := by
    intro k j hk hj
    have : |(k : ℝ) / r| ≤ 1 := by
      rw [abs_div, abs_of_pos hr0, div_le_one hr0]; exact hk
    rw [abs_le] at this hj
    have h1 : ((-2147483648 : ℤ) : ℝ) ≤ j := by push_cast; linarith [this.1, hj.1]
    have h2 : (j : ℝ) ≤ ((2147483647 : ℤ) : ℝ) := by push_cast; linarith [this.2, hj.2]
    exact ⟨by exact_mod_cast h1, by exact_mod_cast h2⟩
  refine ⟨⟨roundHalfAway (fl (a.lon * fl (1 / sq a.magSqDeg))),
    roundHalfAway (fl (a.lat * fl (1 / sq a.magSqDeg)))⟩, ?_, u1, u2, s1, s2, ?_⟩
  · unfold Coord.unit64
    rw [C68_magnitude a ha]
    simp only
    rw [(C68_divide _).2 _ hne hn]
    unfold Coord.divC Coord.scaleC chk32
    rw [if_pos (fits k1 u1), if_pos (fits k2 u2)]
    rfl
  · refine unit_length (e := a.lon / r) (f := a.lat / r) ?_ u1 u2
    field_simp
    linarith

example (sq : ℚ → ℚ) (hsq : SqrtOk sq) :
    Coord.unit64 sq ⟨3000000, -4000000⟩ = .ok ⟨600000, -800000⟩ := by
  obtain ⟨u, h, h1, h2, -⟩ := C85_unit sq hsq ⟨3000000, -4000000⟩ (by decide) (by decide)
  have hm : √((Coord.mk 3000000 (-4000000)).magSq : ℝ) = 5000000 := by
    rw [show (Coord.mk 3000000 (-4000000)).magSq = 25000000000000 by decide,
      Real.sqrt_eq_iff_mul_self_eq_of_pos (by norm_num)]
    norm_num
  have key : ∀ {i j : ℤ}, |(i : ℝ) - j| ≤ 1 / 2 + 1 / 10000000 → i = j := by
    intro i j hij
    have : |((i - j : ℤ) : ℝ)| < ((1 : ℤ) : ℝ) := by push_cast; linarith
    have : |i - j| < 1 := by exact_mod_cast this
    rw [Int.abs_lt_one_iff] at this
    omega
  rw [hm] at h1 h2
  have e1 : u.lon = 600000 := key (by push_cast; norm_num at h1 ⊢; exact h1)
  have e2 : u.lat = -800000 := key (by push_cast; norm_num at h2 ⊢; exact h2)
  rw [h, ← e1, ← e2]

/-- **C85** is false: every vector has a unit vector.  For the zero vector it is undefined. -/
theorem C85_zero_false (sq : ℚ → ℚ) (hsq : SqrtOk sq) : Coord.unit64 sq ⟨0, 0⟩ = .error .ub := by
  unfold Coord.unit64
  rw [C68_magnitude _ (by decide)]
  simp only
  rw [magSqDeg_zero (by decide), hsq.zero]
  exact (C68_divide _).1

end Capi
