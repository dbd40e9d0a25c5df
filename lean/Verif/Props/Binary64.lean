import Verif.Lemmas.Binary64
import Verif.Lemmas.Merge

/-!
# C68: the code on full binary64 values

The expressions of the code on doubles with overflow, subnormals, infinities and NaN have the values
that the rest of the model computes with `fl`; what happens outside.
-/

namespace Capi

/-! ### Auxiliary facts -/

theorem fl_nat_eq {n : ℕ} (h : n ≤ 2 ^ 53) : fl (n : ℚ) = n := by
  have := fl_int (n : ℤ) (by rw [abs_of_nonneg (by positivity)]; exact_mod_cast h)
  simpa using this

theorem micro_fits : Fits 72 (1 / 2 ^ 19) (fl (1 / 1000000)) := by
  have h : fl (1 / 1000000) = ((4722366482869645 : ℤ) : ℚ) / 2 ^ 72 := by decide +kernel
  refine ⟨⟨_, h⟩, ?_⟩
  rw [h]
  norm_num

theorem big_le {b : ℚ} (h : b ≤ 2 ^ 200) : b ≤ 2 ^ (1023 : ℤ) := by
  refine h.trans ?_
  rw [← zpow_natCast]
  exact zpow_le_zpow_right₀ (by norm_num) (by norm_num)

theorem normal_of {q : ℚ} (h1 : 1 / 2 ^ 200 ≤ |q|) (h2 : |q| ≤ 2 ^ 200) : Normal q := by
  refine Or.inr ⟨le_trans ?_ h1, big_le h2⟩
  rw [one_div, ← zpow_natCast, ← zpow_neg]
  exact zpow_le_zpow_right₀ (by norm_num) (by norm_num)

theorem micro64_eq : Coord.micro64 = .fin (fl (1 / 1000000)) :=
  fl64_normal (normal_of (by norm_num) (by norm_num))

theorem int_fits {k : ℤ} (h : FitsI32 k) : Fits 0 (2 ^ 31) (k : ℚ) := by
  refine ⟨OnGrid.int k, ?_⟩
  have : |k| ≤ 2 ^ 31 := by rw [abs_le]; exact ⟨by have := h.1; omega, by have := h.2; omega⟩
  exact_mod_cast this

theorem deg_arg_fits {k : ℤ} (h : FitsI32 k) : Fits 72 4096 (fl (1 / 1000000) * k) := by
  have := micro_fits.mul (int_fits h)
  norm_num at this
  exact this

theorem deg_fits {k : ℤ} (h : FitsI32 k) : Fits 72 4096 (Coord.degOfMicro k) :=
  (deg_arg_fits h).fl (by exact_mod_cast fl_nat_eq (n := 4096) (by norm_num))

instance (c : Coord) : Decidable c.I32 := by unfold Coord.I32; infer_instance

theorem add_fits {k : ℕ} {b c q r : ℚ} (h : Fits k b q) (h' : Fits k c r) (hk : k ≤ 1022)
    (hb : b + c ≤ 2 ^ 200) (hf : fl (b + c) = b + c) :
    F64.add (.fin q) (.fin r) = .fin (fl (q + r)) ∧ Fits k (b + c) (fl (q + r)) :=
  ⟨fl64_normal ((h.add h').normal hk (big_le hb)), (h.add h').fl hf⟩

theorem sub_fits {k : ℕ} {b c q r : ℚ} (h : Fits k b q) (h' : Fits k c r) (hk : k ≤ 1022)
    (hb : b + c ≤ 2 ^ 200) (hf : fl (b + c) = b + c) :
    F64.sub (.fin q) (.fin r) = .fin (fl (q - r)) ∧ Fits k (b + c) (fl (q - r)) := by
  rw [sub_eq_add_neg]
  exact add_fits h h'.neg hk hb hf

theorem mul_fits {k l : ℕ} {b c q r : ℚ} (h : Fits k b q) (h' : Fits l c r) (hk : k + l ≤ 1022)
    (hb : b * c ≤ 2 ^ 200) (hf : fl (b * c) = b * c) :
    F64.mul (.fin q) (.fin r) = .fin (fl (q * r)) ∧ Fits (k + l) (b * c) (fl (q * r)) :=
  ⟨fl64_normal ((h.mul h').normal hk (big_le hb)), (h.mul h').fl hf⟩

/-! ### Reading coordinates -/

/-- **C68** Degrees of any `int32_t` are finite and as in the model. -/
theorem C68_degrees (k : ℤ) (h : FitsI32 k) : Coord.deg64 k = .fin (Coord.degOfMicro k) := by
  unfold Coord.deg64 Coord.degOfMicro
  rw [micro64_eq]
  exact fl64_normal ((deg_arg_fits h).normal (by norm_num) (big_le (by norm_num)))

example : Coord.deg64 (-2147483648) = .fin (Coord.degOfMicro (-2147483648)) :=
  C68_degrees _ (by decide)

theorem prod_fits {j k : ℤ} (hj : FitsI32 j) (hk : FitsI32 k) :
    F64.mul (Coord.deg64 j) (Coord.deg64 k) =
      .fin (fl (Coord.degOfMicro j * Coord.degOfMicro k)) ∧
    Fits 144 (2 ^ 24) (fl (Coord.degOfMicro j * Coord.degOfMicro k)) := by
  rw [C68_degrees j hj, C68_degrees k hk]
  have := mul_fits (deg_fits hj) (deg_fits hk) (by norm_num) (by norm_num)
    (by
      have := fl_nat_eq (n := 16777216) (by norm_num)
      norm_num at this ⊢
      exact this)
  norm_num at this ⊢
  exact this

theorem fl_twice : fl ((2 : ℚ) ^ 24 + 2 ^ 24) = 2 ^ 24 + 2 ^ 24 := by
  have := fl_nat_eq (n := 33554432) (by norm_num)
  norm_num at this ⊢
  exact this

/-- **C68** The squared length of any coordinate is finite and as in the model. -/
theorem C68_magnitude (a : Coord) (ha : a.I32) : a.magSq64 = .fin a.magSqDeg := by
  obtain ⟨x1, x2⟩ := prod_fits ha.1 ha.1
  obtain ⟨y1, y2⟩ := prod_fits ha.2 ha.2
  unfold Coord.magSq64 Coord.lon64 Coord.lat64
  rw [x1, y1]
  exact (add_fits x2 y2 (by norm_num) (by norm_num) fl_twice).1

example : Coord.magSq64 ⟨-180000000, 90000000⟩ = .fin (Coord.magSqDeg ⟨-180000000, 90000000⟩) :=
  C68_magnitude _ (by decide)

/-- **C68** The dot product does not depend on the order and is the squared length for equal
vectors. -/
theorem C68_dot (a b : Coord) (ha : a.I32) (hb : b.I32) :
    a.dot64 b = b.dot64 a ∧ a.dot64 a = a.magSq64 ∧ ∃ q, a.dot64 b = .fin q := by
  obtain ⟨x1, x2⟩ := prod_fits ha.1 hb.1
  obtain ⟨y1, y2⟩ := prod_fits ha.2 hb.2
  obtain ⟨x3, -⟩ := prod_fits hb.1 ha.1
  obtain ⟨y3, -⟩ := prod_fits hb.2 ha.2
  refine ⟨?_, rfl, ?_⟩
  · unfold Coord.dot64 Coord.lon64 Coord.lat64
    rw [x1, y1, x3, y3, mul_comm (Coord.degOfMicro a.lon), mul_comm (Coord.degOfMicro a.lat)]
  · unfold Coord.dot64 Coord.lon64 Coord.lat64
    rw [x1, y1]
    exact ⟨_, (add_fits x2 y2 (by norm_num) (by norm_num) fl_twice).1⟩

example : Coord.dot64 ⟨180000000, 1⟩ ⟨-2147483648, 7⟩ = Coord.dot64 ⟨-2147483648, 7⟩ ⟨180000000, 1⟩ :=
  (C68_dot _ _ (by decide) (by decide)).1

/-- **C68** The cross product changes sign with the order and vanishes for equal vectors. -/
theorem C68_cross (a b : Coord) (ha : a.I32) (hb : b.I32) :
    b.cross64 a = (a.cross64 b).neg ∧ a.cross64 a = .fin 0 ∧ ∃ q, a.cross64 b = .fin q := by
  have main : ∀ a b : Coord, a.I32 → b.I32 → a.cross64 b =
      .fin (fl (fl (Coord.degOfMicro a.lon * Coord.degOfMicro b.lat) -
        fl (Coord.degOfMicro b.lon * Coord.degOfMicro a.lat))) := by
    intro a b ha hb
    obtain ⟨x1, x2⟩ := prod_fits ha.1 hb.2
    obtain ⟨y1, y2⟩ := prod_fits hb.1 ha.2
    unfold Coord.cross64 Coord.lon64 Coord.lat64
    rw [x1, y1]
    exact (sub_fits x2 y2 (by norm_num) (by norm_num) fl_twice).1
  refine ⟨?_, ?_, _, main a b ha hb⟩
  · rw [main a b ha hb, main b a hb ha]
    simp only [F64.neg]
    rw [← fl_neg, neg_sub]
  · rw [main a a ha ha, sub_self, fl_zero]

example : Coord.cross64 ⟨180000000, 1⟩ ⟨180000000, 1⟩ = .fin 0 :=
  (C68_cross _ ⟨0, 0⟩ (by decide) (by decide)).2.1

/-- **C68** The cross product on doubles does not tell whether vectors are parallel: for
(1, 3) and (3, 9) it is not zero, and for the second pair, not parallel, it is. -/
theorem C68_parallel_false :
    (¬ ∀ a b : Coord, a.I32 → b.I32 → a.parallel b = true → a.cross64 b = .fin 0) ∧
    (¬ ∀ a b : Coord, a.I32 → b.I32 → a.cross64 b = .fin 0 → a.parallel b = true) := by
  constructor
  · intro h
    have := h ⟨1, 3⟩ ⟨3, 9⟩ (by decide) (by decide) (by decide)
    revert this
    decide +kernel
  · intro h
    have := h ⟨89999999, 89999998⟩ ⟨89999998, 89999997⟩ (by decide) (by decide) (by decide +kernel)
    revert this
    decide

/-! ### Making coordinates -/

/-- **C68** The constructor from degrees is as in the model for every finite double. -/
theorem C68_constructor (lon lat : ℚ) :
    Coord.ofDegrees64 (.fin lon) (.fin lat) = Coord.ofDegreesC lon lat := by
  have key : ∀ x : ℚ, Coord.micros64 (.fin x) = Coord.microOfDegC x := fun x => toInt_fl64 _
  unfold Coord.ofDegrees64 Coord.ofDegreesC
  rw [key, key]

/-- **C68** Degrees that are no finite numbers are undefined behaviour, also after wrapping into the
range of longitudes and latitudes in Python. -/
theorem C68_not_finite (x y : F64) (h : (∀ q, x ≠ .fin q) ∨ (∀ q, y ≠ .fin q)) :
    Coord.ofDegrees64 x y = .error .ub ∧
      Coord.ofDegrees64 (Frontend.wrapLatLon64 y x).2 (Frontend.wrapLatLon64 y x).1 = .error .ub := by
  have m1 : ∀ z : F64, (∀ q, z ≠ .fin q) → Coord.micros64 z = .error .ub := by
    intro z hz
    cases z with
    | nan => rfl
    | inf s =>
      unfold Coord.micros64
      simp only [F64.mul, F64.infMul]
      norm_num
      rfl
    | fin q => exact absurd rfl (hz q)
  have m2 : ∀ z w : F64, Coord.micros64 z = .error .ub ∨ Coord.micros64 w = .error .ub →
      Coord.ofDegrees64 z w = .error .ub := by
    intro z w hzw
    have only : ∀ z f, Coord.micros64 z = .error f → f = .ub := by
      intro z f hz
      unfold Coord.micros64 at hz
      cases hm : F64.mul (.fin 1000000) z with
      | nan => rw [hm] at hz; injection hz with hz; exact hz.symm
      | inf s => rw [hm] at hz; injection hz with hz; exact hz.symm
      | fin q =>
        rw [hm] at hz
        simp only [F64.toInt, chk32] at hz
        split_ifs at hz
        injection hz with hz; exact hz.symm
    unfold Coord.ofDegrees64
    cases h1 : Coord.micros64 z with
    | error f => rw [only z f h1]; rfl
    | ok a =>
      rcases hzw with h2 | h2
      · rw [h1] at h2; cases h2
      · simp only [Res.bind_ok, h2, Res.bind_error]
  have m3 : ∀ (z : F64) (a m : ℚ), (∀ q, z ≠ .fin q) →
      ((z.add (.fin a)).pyMod m).sub (.fin a) = .nan := by
    intro z a m hz
    cases z with
    | nan => rfl
    | inf s => rfl
    | fin q => exact absurd rfl (hz q)
  have mn : Coord.micros64 .nan = .error .ub := rfl
  constructor
  · exact m2 x y (h.imp (m1 x) (m1 y))
  · apply m2
    unfold Frontend.wrapLatLon64
    rcases h with h | h
    · left; rw [m3 x _ _ h]; rfl
    · right; rw [m3 y _ _ h]; rfl

example : Coord.ofDegrees64 .nan (.fin 3) = .error .ub ∧
    Coord.ofDegrees64 (.fin 3) (.inf true) = .error .ub :=
  ⟨(C68_not_finite _ _ (Or.inl (by simp))).1, (C68_not_finite _ _ (Or.inr (by simp))).1⟩

/-- **C68** Multiplication by a finite double is as in the model; by infinities or NaN it is
undefined behaviour. -/
theorem C68_scale (a : Coord) (s : F64) :
    (∀ q, s = .fin q → a.scale64 s = a.scaleC q) ∧
      ((∀ q, s ≠ .fin q) → a.scale64 s = .error .ub) := by
  constructor
  · rintro q rfl
    unfold Coord.scale64 Coord.scaleC
    have key : ∀ k : ℤ, (F64.mul (.fin k) (.fin q)).roundInt = chk32 (roundHalfAway (fl (k * q))) :=
      fun k => roundInt_fl64 _
    rw [key, key]
  · intro h
    cases s with
    | nan => rfl
    | inf b =>
      unfold Coord.scale64
      have : (F64.mul (.fin a.lon) (.inf b)).roundInt = .error .ub := by
        simp only [F64.mul, F64.infMul]
        split_ifs <;> rfl
      rw [this]; rfl
    | fin q => exact absurd rfl (h q)

example : Coord.scale64 ⟨3, 4⟩ (.fin 2) = Coord.scaleC ⟨3, 4⟩ 2 ∧
    Coord.scale64 ⟨3, 4⟩ .nan = .error .ub :=
  ⟨(C68_scale _ _).1 2 rfl, (C68_scale _ _).2 (by simp)⟩

/-- **C68** Division by zero is undefined behaviour for every coordinate, the zero vector included;
division by a number with a reciprocal in range is as in the model. -/
theorem C68_divide (a : Coord) :
    a.div64 (.fin 0) = .error .ub ∧
      (∀ s : ℚ, s ≠ 0 → Normal (1 / s) → a.div64 (.fin s) = a.divC s) := by
  constructor
  · refine (C68_scale a _).2 fun q => ?_
    simp [F64.div]
  · intro s hs hn
    unfold Coord.div64 Coord.divC
    refine (C68_scale a _).1 _ ?_
    simp only [F64.div]
    rw [if_neg hs, fl64_normal hn]

example : Coord.div64 ⟨3, 4⟩ (.fin 2) = Coord.divC ⟨3, 4⟩ 2 :=
  (C68_divide _).2 2 (by norm_num) (normal_of (by norm_num) (by norm_num))

/-! ### Geometry -/

theorem quotient_normal {x y : ℚ} (hx : x = 0 ∨ 1 ≤ |x|) (hx' : |x| ≤ 2 ^ 64) (hy : 1 ≤ |y|)
    (hy' : |y| ≤ 2 ^ 64) : Normal (x / y) := by
  rcases hx with rfl | hx
  · left; simp
  · have hy0 : 0 < |y| := by linarith
    apply normal_of
    · rw [abs_div, le_div_iff₀ hy0]
      calc 1 / 2 ^ 200 * |y| ≤ 1 / 2 ^ 200 * 2 ^ 64 := by gcongr
        _ ≤ 1 := by norm_num
        _ ≤ |x| := hx
    · rw [abs_div, div_le_iff₀ hy0]
      calc |x| ≤ 2 ^ 64 := hx'
        _ ≤ 2 ^ 200 * 1 := by norm_num
        _ ≤ 2 ^ 200 * |y| := by gcongr

theorem int_size {k : ℤ} : (k : ℚ) = 0 ∨ 1 ≤ |(k : ℚ)| := by
  rcases eq_or_ne k 0 with rfl | h
  · left; simp
  · right; exact_mod_cast Int.one_le_abs h

/-- **C68** Factors between parallel vectors are as in the model. -/
theorem C68_multiple (a b : Coord) (ha : a.I32) (hb : b.I32) :
    a.multiple64 b = (a.scalarMultiple b).map .fin := by
  have big : ∀ {k : ℤ}, FitsI32 k → |(k : ℚ)| ≤ 2 ^ 64 := fun h =>
    (int_fits h).2.trans (by norm_num)
  have key : ∀ j k : ℤ, FitsI32 j → FitsI32 k → k ≠ 0 →
      F64.div (.fin j) (.fin k) = .fin (fl ((j : ℚ) / k)) := by
    intro j k hj hk h0
    have h0' : (k : ℚ) ≠ 0 := by exact_mod_cast h0
    simp only [F64.div]
    rw [if_neg h0']
    exact fl64_normal (quotient_normal int_size (big hj) (int_size.resolve_left h0') (big hk))
  unfold Coord.multiple64 Coord.scalarMultiple
  split_ifs with h1 h2 h3
  · rfl
  · rfl
  · rw [key _ _ hb.2 ha.2 (fun h => h2 ⟨h3, h⟩)]; rfl
  · rw [key _ _ hb.1 ha.1 h3]; rfl

example : Coord.multiple64 ⟨2, 4⟩ ⟨1, 2⟩ = (Coord.scalarMultiple ⟨2, 4⟩ ⟨1, 2⟩).map .fin :=
  C68_multiple _ _ (by decide) (by decide)

/-- **C68** The parameter of an intersection is as in the model for all determinants in
`int64_t`. -/
theorem C68_param (D X : ℤ) (hD : FitsI64 D) (hX : FitsI64 X) (h0 : D ≠ 0) :
    Seg.param64 D X = .fin (Seg.param D X) := by
  have e64 : fl ((2 : ℚ) ^ 64) = 2 ^ 64 := by exact_mod_cast fl_pow2 64
  have e1 : fl (1 : ℚ) = 1 := by exact_mod_cast fl_nat_eq (n := 1) (by norm_num)
  have big : ∀ {k : ℤ}, FitsI64 k → |(k : ℚ)| ≤ 2 ^ 64 := by
    intro k h
    have : |k| ≤ 2 ^ 64 := by rw [abs_le]; exact ⟨by have := h.1; omega, by have := h.2; omega⟩
    exact_mod_cast this
  have conv : ∀ {k : ℤ}, FitsI64 k → fl64 k = .fin (fl k) := by
    intro k h
    exact fl64_normal (Fits.normal (k := 0) (b := 2 ^ 64) ⟨OnGrid.int k, big h⟩ (by norm_num)
      (big_le (by norm_num)))
  have lower : ∀ {k : ℤ}, fl (k : ℚ) = 0 ∨ 1 ≤ |fl (k : ℚ)| := by
    intro k
    rcases eq_or_ne (fl (k : ℚ)) 0 with h | h
    · exact Or.inl h
    · right
      have := (OnGrid.int k).fl.le_abs h
      simpa using this
  have hD0 : fl (D : ℚ) ≠ 0 := by
    rw [Ne, fl_eq_zero_iff]
    exact_mod_cast h0
  unfold Seg.param64 Seg.param
  rw [conv hD, conv hX]
  simp only [F64.div]
  rw [if_neg hD0]
  exact fl64_normal (quotient_normal lower (fl_abs_le e64 (big hX)) (lower.resolve_left hD0)
    (fl_abs_le e64 (big hD)))

example : Seg.param64 200 100 = .fin (Seg.param 200 100) :=
  C68_param _ _ (by decide) (by decide) (by decide)

/-- **C68** The test for reflex corners is as in the model. -/
theorem C68_reflex (v1 v2 v3 : Coord) (h1 : (v2.sub v1).I32) (h2 : (v3.sub v2).I32) :
    Polyline.isReflex64 v1 v2 v3 = Polyline.isReflex v1 v2 v3 := by
  obtain ⟨x1, x2⟩ := prod_fits h1.1 h2.2
  obtain ⟨y1, y2⟩ := prod_fits h1.2 h2.1
  unfold Polyline.isReflex64 Polyline.isReflex Coord.lon64 Coord.lat64
  rw [x1, y1, (sub_fits x2 y2 (by norm_num) (by norm_num) fl_twice).1]
  rfl

example : Polyline.isReflex64 ⟨0, 0⟩ ⟨10, 0⟩ ⟨10, 10⟩ = Polyline.isReflex ⟨0, 0⟩ ⟨10, 0⟩ ⟨10, 10⟩ :=
  C68_reflex _ _ _ (by decide) (by decide)

/-- **C68** The winding sum of up to `2^53` vertices, added in any order, is finite and as in the
model. -/
theorem C68_winding (T : Polygon.SumTree) (vs : List Coord) (hvs : ∀ v ∈ vs, v.I32)
    (hT : T.leaves.length ≤ 2 ^ 53) :
    Polygon.windingOrient64 T vs = Polygon.windingOrient T vs := by
  have hring : ∀ i, (ringAt vs i).I32 := by
    intro i
    unfold ringAt
    rcases Nat.lt_or_ge (i % vs.length) vs.length with h | h
    · rw [List.getD_eq_getElem?_getD, List.getElem?_eq_getElem h]
      exact hvs _ (List.getElem_mem h)
    · rw [List.getD_eq_getElem?_getD, List.getElem?_eq_none h]
      decide
  have e13 : fl ((4096 : ℚ) + 4096) = 4096 + 4096 := by
    have := fl_nat_eq (n := 8192) (by norm_num)
    norm_num at this ⊢
    exact this
  have e26 : fl (((4096 : ℚ) + 4096) * (4096 + 4096)) = (4096 + 4096) * (4096 + 4096) := by
    have := fl_nat_eq (n := 67108864) (by norm_num)
    norm_num at this ⊢
    exact this
  have term : ∀ i, Polygon.windingTerm64 vs i = .fin (Polygon.windingTerm vs i) ∧
      Fits 144 (2 ^ 26) (Polygon.windingTerm vs i) := by
    intro i
    unfold Polygon.windingTerm64 Polygon.windingTerm Coord.lon64 Coord.lat64 Coord.lonDeg
      Coord.latDeg
    rw [C68_degrees _ (hring (i + 1)).1, C68_degrees _ (hring i).1, C68_degrees _ (hring (i + 1)).2,
      C68_degrees _ (hring i).2]
    obtain ⟨x1, x2⟩ := sub_fits (deg_fits (hring (i + 1)).1) (deg_fits (hring i).1) (by norm_num)
      (by norm_num) e13
    obtain ⟨y1, y2⟩ := add_fits (deg_fits (hring (i + 1)).2) (deg_fits (hring i).2) (by norm_num)
      (by norm_num) e13
    rw [x1, y1]
    have := mul_fits x2 y2 (by norm_num) (by norm_num) e26
    exact ⟨this.1, by have h := this.2; norm_num at h ⊢; exact h⟩
  have sum : ∀ T : Polygon.SumTree, T.leaves.length ≤ 2 ^ 53 →
      T.eval64 (Polygon.windingTerm64 vs) = .fin (T.eval (Polygon.windingTerm vs)) ∧
      Fits 144 (T.leaves.length * 2 ^ 26) (T.eval (Polygon.windingTerm vs)) := by
    intro T
    induction T with
    | zero =>
      intro _
      exact ⟨rfl, ⟨⟨0, by simp [Polygon.SumTree.eval]⟩,
        by simp [Polygon.SumTree.eval, Polygon.SumTree.leaves]⟩⟩
    | leaf i =>
      intro _
      refine ⟨(term i).1, ?_⟩
      simpa [Polygon.SumTree.eval, Polygon.SumTree.leaves] using (term i).2
    | node l r ihl ihr =>
      intro h
      simp only [Polygon.SumTree.leaves, List.length_append] at h ⊢
      obtain ⟨l1, l2⟩ := ihl (by omega)
      obtain ⟨r1, r2⟩ := ihr (by omega)
      simp only [Polygon.SumTree.eval64, Polygon.SumTree.eval]
      rw [l1, r1]
      have hle : ((l.leaves.length + r.leaves.length : ℕ) : ℚ) ≤ 2 ^ 53 := by exact_mod_cast h
      have e : (l.leaves.length : ℚ) * 2 ^ 26 + r.leaves.length * 2 ^ 26 =
          ((l.leaves.length + r.leaves.length : ℕ) : ℚ) * 2 ^ 26 := by push_cast; ring
      have := add_fits l2 r2 (by norm_num)
        (by rw [e]
            calc _ ≤ (2 : ℚ) ^ 53 * 2 ^ 26 := by gcongr
              _ ≤ _ := by norm_num)
        (by rw [e]
            have := fl_exact (l.leaves.length + r.leaves.length : ℕ) 26
              (by rw [abs_of_nonneg (by positivity)]; exact_mod_cast h)
            exact_mod_cast this)
      rw [e] at this
      exact this
  unfold Polygon.windingOrient64 Polygon.windingOrient
  rw [(sum T hT).1]
  simp only [F64.lt, decide_eq_true_eq]

example : Polygon.windingOrient64 (.sequential 3) [⟨0, 0⟩, ⟨10, 0⟩, ⟨10, 10⟩] =
    Polygon.windingOrient (.sequential 3) [⟨0, 0⟩, ⟨10, 0⟩, ⟨10, 10⟩] :=
  C68_winding _ _ (by decide) (by decide)

/-! ### Wrapping in Python -/

theorem grid_of_fl {q : ℚ} {k : ℕ} {e : ℤ} (h : fl q = q) (he : (2 : ℚ) ^ e ≤ |q|)
    (hk : 52 - e ≤ k) : OnGrid k q := by
  rcases eq_or_ne q 0 with rfl | h0
  · exact ⟨0, by simp⟩
  have hlog : e ≤ Int.log 2 |q| :=
    (Int.zpow_le_iff_le_log (by norm_num) (abs_pos.2 h0)).1 (by exact_mod_cast he)
  obtain ⟨d, hd⟩ := Int.eq_ofNat_of_zero_le (show 0 ≤ Int.log 2 |q| - 52 + k by omega)
  refine ⟨rne (q / ulp q) * 2 ^ d, ?_⟩
  have hu : ulp q = 2 ^ d / 2 ^ k := by
    unfold ulp
    rw [show Int.log 2 |q| - 52 = d - (k : ℤ) by omega, zpow_sub₀ (by norm_num), zpow_natCast,
      zpow_natCast]
  conv_lhs => rw [← h, fl_eq]
  rw [hu]
  push_cast
  ring

theorem wrap_one {q a m : ℚ} (h : fl64 q = .fin q) (hq : |q| ≤ 2 ^ (1022 : ℤ))
    (ha : a = 90 ∨ a = 180) (hm : m = 2 * a) :
    ((F64.add (.fin q) (.fin a)).pyMod m).sub (.fin a) =
      .fin (fl (Frontend.pyModFl (fl (q + a)) m - a)) := by
  have hpow : (2 : ℚ) ^ (1022 : ℤ) + 2 ^ (1022 : ℤ) = 2 ^ (1023 : ℤ) := by
    rw [show (1023 : ℤ) = 1022 + 1 by norm_num, zpow_add_one₀ (by norm_num)]; ring
  have h200 : (2 : ℚ) ^ 200 ≤ 2 ^ (1022 : ℤ) := by
    rw [← zpow_natCast]
    exact zpow_le_zpow_right₀ (by norm_num) (by norm_num)
  have ha1 : 90 ≤ a := by rcases ha with rfl | rfl <;> norm_num
  have ha2 : a ≤ 180 := by rcases ha with rfl | rfl <;> norm_num
  have gi : ∀ n : ℤ, OnGrid 48 (n : ℚ) := fun n => (OnGrid.int n).mono (by norm_num)
  have ga : OnGrid 48 a := by
    rcases ha with rfl | rfl
    · exact_mod_cast gi 90
    · exact_mod_cast gi 180
  -- the sum
  have hx : Normal (q + a) ∧ OnGrid 48 (fl (q + a)) := by
    rcases le_or_gt |q| 64 with hs | hs
    · rw [abs_le] at hs
      have l : (16 : ℚ) ≤ q + a := by linarith
      have pos : 0 < q + a := by linarith
      refine ⟨normal_of ?_ ?_, ?_⟩
      · rw [abs_of_pos pos]; refine le_trans ?_ l; norm_num
      · rw [abs_of_pos pos]
        have : q + a ≤ 244 := by linarith
        refine this.trans (by norm_num)
      · refine grid_of_fl (e := 4) (fl_idem _) ?_ (by norm_num)
        have := fl_mono l
        rw [show fl (16 : ℚ) = 16 by exact_mod_cast fl_nat_eq (n := 16) (by norm_num)] at this
        refine le_trans ?_ (le_abs_self _)
        norm_num
        exact this
    · have hn : Normal q := Or.inr ⟨by
        refine le_trans ?_ hs.le
        exact (tiny_lt (e := -1022) (by norm_num)).le.trans (by norm_num), by
        exact hq.trans (zpow_le_zpow_right₀ (by norm_num) (by norm_num))⟩
      have hfl : fl q = q := by
        rw [fl64_normal hn] at h
        injection h
      have g : OnGrid 48 q := (grid_of_fl (k := 46) (e := 6) hfl (by norm_num; exact hs.le)
        (by norm_num)).mono (by norm_num)
      refine ⟨Fits.normal (k := 48) (b := 2 ^ (1023 : ℤ)) ⟨g.add ga, ?_⟩ (by norm_num) le_rfl,
        (g.add ga).fl⟩
      have e := abs_add_le q a
      have e2 : |a| ≤ 2 ^ 200 := by
        rw [abs_of_pos (by linarith)]; refine ha2.trans (by norm_num)
      rw [← hpow]
      exact e.trans (add_le_add hq (e2.trans h200))
  obtain ⟨hx1, hx2⟩ := hx
  have s1 : F64.add (.fin q) (.fin a) = .fin (fl (q + a)) := fl64_normal hx1
  rw [s1]
  set x := fl (q + a)
  have hm0 : 0 < m := by rw [hm]; linarith
  have gm : OnGrid 48 m := by rw [hm, two_mul]; exact ga.add ga
  have gr : Fits 48 360 (x - m * truncZ (x / m)) := by
    constructor
    · rw [sub_eq_add_neg]
      have : OnGrid 48 (m * (truncZ (x / m) : ℚ)) := gm.mul (OnGrid.int _)
      exact hx2.add this.neg
    · have t := trunc_off (x / m)
      have e : x - m * truncZ (x / m) = -(m * (truncZ (x / m) - x / m)) := by field_simp; ring
      rw [e, abs_neg, abs_mul, abs_of_pos hm0]
      calc m * _ ≤ m * 1 := mul_le_mul_of_nonneg_left t hm0.le
        _ ≤ 360 := by rw [hm]; linarith
  have fm : Fits 48 360 m := ⟨gm, by rw [abs_of_pos hm0, hm]; linarith⟩
  have fa : Fits 48 180 a := ⟨ga, by rw [abs_of_pos (by linarith)]; exact ha2⟩
  have e720 : fl ((360 : ℚ) + 360) = 360 + 360 := by
    have := fl_nat_eq (n := 720) (by norm_num)
    norm_num at this ⊢
    exact this
  have e900 : fl (((360 : ℚ) + 360) + 180) = (360 + 360) + 180 := by
    have := fl_nat_eq (n := 900) (by norm_num)
    norm_num at this ⊢
    exact this
  obtain ⟨y1, y2⟩ := add_fits gr fm (by norm_num) (by norm_num) e720
  have hy : (F64.fin x).pyMod m = .fin (Frontend.pyModFl x m) ∧
      Fits 48 (360 + 360) (Frontend.pyModFl x m) := by
    simp only [F64.pyMod, Frontend.pyModFl]
    split_ifs with h0
    · exact ⟨y1, y2⟩
    · exact ⟨rfl, gr.mono (by norm_num)⟩
  rw [hy.1]
  exact (sub_fits hy.2 fa (by norm_num) (by norm_num) e900).1

/-- **C68** Wrapping into the range of latitudes and longitudes is as in the model for all finite
doubles up to `2^1022`. -/
theorem C68_wrap (lat lon : ℚ) (h1 : fl64 lat = .fin lat) (h2 : fl64 lon = .fin lon)
    (h3 : |lat| ≤ 2 ^ (1022 : ℤ)) (h4 : |lon| ≤ 2 ^ (1022 : ℤ)) :
    Frontend.wrapLatLon64 (.fin lat) (.fin lon) =
      (.fin (Frontend.wrapLatLonFl lat lon).1, .fin (Frontend.wrapLatLonFl lat lon).2) := by
  unfold Frontend.wrapLatLon64 Frontend.wrapLatLonFl
  rw [wrap_one h1 h3 (Or.inl rfl) (by norm_num), wrap_one h2 h4 (Or.inr rfl) (by norm_num)]

/-! ### Cases -/

/-- The hypotheses of C68 hold for the corners of the map and for the ends of `int32_t`. -/
example : Coord.I32 ⟨-180000000, 90000000⟩ ∧ Coord.I32 ⟨-2147483648, 2147483647⟩ ∧
    ¬ Coord.I32 ⟨2147483648, 0⟩ := by decide

/-- The constructor on a tenth of a degree, on a subnormal and on a number near the upper end. -/
example : Coord.ofDegrees64 (fl64 (1 / 10)) (.fin (1 / 2 ^ 1074)) = .ok ⟨100000, 0⟩ ∧
    Coord.ofDegrees64 (.fin (2 ^ 1023)) (.fin 0) = .error .ub := by
  constructor
  · rw [fl64_normal (normal_of (by norm_num) (by norm_num)), C68_constructor]
    decide +kernel
  · rw [C68_constructor]
    decide +kernel

/-- Rounding overflows and loses precision where the model of the other files does not. -/
example : fl64 (2 ^ 1024) = .inf false ∧ fl64 (1 / 2 ^ 1075) = .fin 0 ∧
    fl64 (3 / 2 ^ 1075) = .fin (1 / 2 ^ 1073) := by decide +kernel

/-- Degrees near the upper end are wrapped without overflow. -/
example : fl64 (2 ^ 1000) = .fin (2 ^ 1000) ∧ |(2 : ℚ) ^ 1000| ≤ 2 ^ (1022 : ℤ) := by
  constructor
  · decide +kernel
  · rw [abs_of_pos (by positivity), ← zpow_natCast]
    exact zpow_le_zpow_right₀ (by norm_num) (by norm_num)

end Capi
