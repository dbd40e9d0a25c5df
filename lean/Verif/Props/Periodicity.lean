import Verif.Lemmas.Periodicity

/-!
# C01, C02, C56: longitude normalisation and periodic copies
-/

namespace Capi

/-- The two coordinates denote the same point of the periodic plane: same latitude,
longitudes a whole number of periods (360000001 µ°) apart. -/
def SamePeriodicPoint (c d : Coord) : Prop :=
  c.lat = d.lat ∧ ∃ k : ℤ, c.lon = d.lon + k * 360000001

/-- **C01** For every `int32_t` coordinate, normalisation finishes without overflow in a
coordinate of longitude within ±180°, same latitude, the same periodic point. -/
theorem C01_normalize_total (c : Coord) (h : c.Wf) :
    ∃ r, normalizeC c = .ok r ∧ -180000000 ≤ r.lon ∧ r.lon ≤ 180000000 ∧
      SamePeriodicPoint r c := by
  refine ⟨normalize c, normalizeC_eq c h.1, ?_, ?_, ?_⟩
  · exact (normalize_range c).1
  · exact (normalize_range c).2
  · refine ⟨rfl, -((c.lon - minLon) / period), ?_⟩
    simp only [normalize, minLon, period]; omega

example : (⟨2147483647, 0⟩ : Coord).Wf := by decide
example : normalizeC ⟨-2147483648, 7⟩ = .ok ⟨12516358, 7⟩ := by
  rw [normalizeC_eq _ (by decide)]; rfl

/-- **C01** In-range coordinates are left alone. -/
theorem C01_normalize_id (c : Coord) (h1 : -180000000 ≤ c.lon) (h2 : c.lon ≤ 180000000) :
    normalizeC c = .ok c := by
  rw [normalizeC_eq c ⟨by omega, by omega⟩,
    normalize_of_range (c := c) h1 h2]

example : normalizeC ⟨180000000, 5⟩ = .ok ⟨180000000, 5⟩ :=
  C01_normalize_id _ (by decide) (by decide)

/-- **C01** Two coordinates normalise to the same result exactly when they are the same
periodic point. -/
theorem C01_normalize_canonical (c d : Coord) (hc : c.Wf) (hd : d.Wf) :
    normalizeC c = normalizeC d ↔ SamePeriodicPoint c d := by
  rw [normalizeC_eq c hc.1, normalizeC_eq d hd.1]
  simp only [Except.ok.injEq]
  exact normalize_eq_iff c d

example : SamePeriodicPoint ⟨190000000, 3⟩ ⟨-170000001, 3⟩ := ⟨rfl, 1, by decide⟩
example : ¬ SamePeriodicPoint ⟨190000000, 3⟩ ⟨-170000000, 3⟩ := by
  rintro ⟨_, k, hk⟩; simp only at hk; omega

/-- **C02** The copies of an in-range coordinate: computed without overflow, three of them,
pairwise different, the coordinate itself first, all the same periodic point, all normalising
back to it, and exactly those different from it are over the meridian. -/
theorem C02_copies (c : Coord) (h1 : -180000000 ≤ c.lon) (h2 : c.lon ≤ 180000000) :
    ∃ l, periodicCopiesC c = .ok l ∧ l.length = 3 ∧ l.head? = some c ∧ l.Nodup ∧
      ∀ d ∈ l, SamePeriodicPoint d c ∧ normalizeC d = .ok c ∧
        (overMeridian d = true ↔ d ≠ c) := by
  have e1 : periodicCopiesC c = .ok (periodicCopies c) := by
    unfold periodicCopiesC
    rw [chk32_ok (by simp only [FitsI32, period]; omega),
      chk32_ok (by simp only [FitsI32, period]; omega)]
    rfl
  refine ⟨periodicCopies c, e1, rfl, rfl, ?_, ?_⟩
  · cases c
    simp only [periodicCopies, period, List.nodup_cons, List.mem_cons, Coord.mk.injEq,
      List.not_mem_nil, not_false_eq_true, List.nodup_nil, and_true, or_false]
    omega
  · intro d hd
    have hk : ∃ k : ℤ, (k = 0 ∨ k = 1 ∨ k = -1) ∧ d = ⟨c.lon + k * 360000001, c.lat⟩ := by
      simp only [periodicCopies, period, List.mem_cons, List.not_mem_nil, or_false] at hd
      rcases hd with rfl | rfl | rfl
      · exact ⟨0, by simp⟩
      · exact ⟨1, by simp⟩
      · exact ⟨-1, by simp; ring⟩
    obtain ⟨k, hk, rfl⟩ := hk
    have hs : SamePeriodicPoint ⟨c.lon + k * 360000001, c.lat⟩ c := ⟨rfl, k, rfl⟩
    refine ⟨hs, ?_, ?_⟩
    · rw [normalizeC_eq _ (by simp only [FitsI32]; omega)]
      rw [(normalize_eq_iff _ _).2 hs, normalize_of_range (c := c) h1 h2]
    · rw [overMeridian, Bool.or_eq_true, decide_eq_true_eq, decide_eq_true_eq]
      cases c
      simp only [minLon, maxLon, ne_eq, Coord.mk.injEq, and_true] at *
      omega

example : periodicCopiesC ⟨5, 6⟩ = .ok [⟨5, 6⟩, ⟨360000006, 6⟩, ⟨-359999996, 6⟩] := by decide

/-- **C02** Lists: the periodic list consists of exactly the periodic points of the given
coordinates with longitude within ±540.000001°, and has three times the length. -/
theorem C02_lists (cs : List Coord)
    (h : ∀ c ∈ cs, -180000000 ≤ c.lon ∧ c.lon ≤ 180000000) :
    (coordsPeriodic cs).length = 3 * cs.length ∧
    ∀ d, d ∈ coordsPeriodic cs ↔
      (-540000001 ≤ d.lon ∧ d.lon ≤ 540000001 ∧ ∃ c ∈ cs, SamePeriodicPoint d c) := by
  constructor
  · induction cs with
    | nil => rfl
    | cons c cs ih =>
      have := ih (fun c hc => h c (List.mem_cons_of_mem _ hc))
      simp only [coordsPeriodic, List.flatMap_cons, List.length_append, periodicCopies,
        List.length_cons, List.length_nil] at *
      omega
  · intro d
    simp only [coordsPeriodic, List.mem_flatMap]
    constructor
    · rintro ⟨c, hc, hd⟩
      have hr := h c hc
      simp only [periodicCopies, period, List.mem_cons, List.not_mem_nil, or_false] at hd
      rcases hd with rfl | rfl | rfl
      · exact ⟨by omega, by omega, d, hc, rfl, 0, by simp⟩
      · exact ⟨by simp only; omega, by simp only; omega, c, hc, rfl, 1, by simp⟩
      · exact ⟨by simp only; omega, by simp only; omega, c, hc, rfl, -1, by simp; ring⟩
    · rintro ⟨h1, h2, c, hc, hlat, k, hk⟩
      have hr := h c hc
      refine ⟨c, hc, ?_⟩
      cases d; cases c
      simp only [periodicCopies, period, List.mem_cons, List.not_mem_nil, or_false,
        Coord.mk.injEq] at *
      omega

example : (coordsPeriodic [⟨0, 0⟩, ⟨1, 1⟩]).length = 6 := by decide

/-- **C02** Segments: every segment is copied three times, both endpoints shifted by the same
number of periods. -/
theorem C02_segments (ss : List Seg) :
    ∀ t, t ∈ segsPeriodic ss ↔ ∃ s ∈ ss, ∃ k : ℤ, (k = 0 ∨ k = 1 ∨ k = -1) ∧
      t = ⟨⟨s.p.lon + k * 360000001, s.p.lat⟩, ⟨s.q.lon + k * 360000001, s.q.lat⟩⟩ := by
  intro t
  simp only [segsPeriodic, List.mem_flatMap, periodicCopies, List.zipWith_cons_cons,
    List.zipWith_nil_right, List.mem_cons, List.not_mem_nil, or_false, period]
  constructor
  · rintro ⟨s, hs, rfl | rfl | rfl⟩
    · exact ⟨s, hs, 0, by simp⟩
    · exact ⟨s, hs, 1, by simp⟩
    · exact ⟨s, hs, -1, by simp; constructor <;> ring⟩
  · rintro ⟨s, hs, k, rfl | rfl | rfl, rfl⟩
    · exact ⟨s, hs, by simp⟩
    · exact ⟨s, hs, by simp⟩
    · exact ⟨s, hs, by right; right; simp; constructor <;> ring⟩

/-- **C56** (false of the code) Longitudes one full turn (360°) apart are the same place but
do not normalise to the same coordinate: 190° goes to −170.000001°, not −170°. -/
theorem C56_turn_not_period_false :
    ¬ ∀ c d : Coord, c.Wf → d.Wf → c.lat = d.lat → c.lon = d.lon + 360000000 →
      normalizeC c = normalizeC d := by
  intro h
  have := h ⟨190000000, 0⟩ ⟨-170000000, 0⟩ (by decide) (by decide) rfl (by decide)
  rw [normalizeC_eq _ (by decide), normalizeC_eq _ (by decide)] at this
  exact absurd this (by decide)

/-- **C56** What does hold: normalisation moves a coordinate on the globe (where 360° is one
turn) by at most 6 microdegrees, one for each period added or removed.
Missing for the full statement: a shift of exactly zero. -/
theorem C56_turn_drift_partial (c : Coord) (h : c.Wf) :
    ∃ r, normalizeC c = .ok r ∧ r.lat = c.lat ∧
      ∃ k : ℤ, |(c.lon - r.lon) - k * 360000000| ≤ 6 ∧ |k| ≤ 6 := by
  obtain ⟨r, hr, h1, h2, hlat, k, hk⟩ := C01_normalize_total c h
  have hb := h.1
  simp only [FitsI32] at hb
  refine ⟨r, hr, hlat, -k, ?_, ?_⟩
  · rw [abs_le]; omega
  · rw [abs_le]; omega

example : (⟨2147483647, 0⟩ : Coord).Wf := by decide

end Capi
