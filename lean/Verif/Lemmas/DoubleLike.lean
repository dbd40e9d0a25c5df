import Verif.Lemmas.AStarRounded
import Verif.Props.ShortestPath
import Verif.Props.Project

/-!
# The search with rounded distances
-/

namespace Capi

open ShortestPath

/-- The relative error of a length. -/
noncomputable def lengthError : ℝ := 1 / 2 ^ 48

/-- The number a double stands for. -/
noncomputable def dval (x : Dbl) : ℝ := ((x.1 : ℚ) : ℝ)

theorem dval_mono : Monotone dval := by
  intro x y h
  have h' : x.1 ≤ y.1 := h
  exact Rat.cast_le.2 h'

theorem round_near (q : ℚ) (h : 0 ≤ q) :
    (1 - lengthError) * (q : ℝ) ≤ dval (Dbl.round q) ∧
      dval (Dbl.round q) ≤ (1 + lengthError) * (q : ℝ) := by
  have h1 := abs_le.1 (fl_err q)
  rw [abs_of_nonneg h] at h1
  have a : q - q / 2 ^ 53 ≤ fl q := by linarith [h1.1]
  have b : fl q ≤ q + q / 2 ^ 53 := by linarith [h1.2]
  have a' : (q : ℝ) - q / 2 ^ 53 ≤ ((fl q : ℚ) : ℝ) := by exact_mod_cast a
  have b' : ((fl q : ℚ) : ℝ) ≤ (q : ℝ) + q / 2 ^ 53 := by exact_mod_cast b
  have hq : (0 : ℝ) ≤ q := by exact_mod_cast h
  have hq2 : (q : ℝ) / 2 ^ 53 ≤ q / 2 ^ 48 := by
    apply div_le_div_of_nonneg_left hq (by positivity)
    norm_num
  unfold dval Dbl.round lengthError
  constructor
  · change _ ≤ ((fl q : ℚ) : ℝ)
    linarith
  · change ((fl q : ℚ) : ℝ) ≤ _
    linarith

/-- The root of a rounded square of a length. -/
theorem mag_near {sq : ℚ → Dbl} (hsq : SqrtOk fun q => (sq q).1) {f : Coord → ℚ}
    (h0 : ∀ v : Coord, v.magSq = 0 → f v = 0)
    (hf : ∀ v : Coord, |f v - (v.lon * v.lon + v.lat * v.lat : ℤ) / 1000000000000| ≤
      8 * ((v.lon * v.lon + v.lat * v.lat : ℤ) : ℚ) / 1000000000000 / 2 ^ 53) (v : Coord) :
    (1 - lengthError) * ((exactArith 0 none).mag v) ≤ dval (sq (f v)) ∧
      dval (sq (f v)) ≤ (1 + lengthError) * ((exactArith 0 none).mag v) := by
  change (1 - lengthError) * (√(v.magSq : ℝ) / 1000000) ≤ (((sq (f v)).1 : ℚ) : ℝ) ∧
    (((sq (f v)).1 : ℚ) : ℝ) ≤ (1 + lengthError) * (√(v.magSq : ℝ) / 1000000)
  by_cases hv : v.magSq = 0
  · have h3 : ((sq 0).1 : ℚ) = 0 := hsq.zero
    rw [h0 v hv, h3, hv]
    simp
  · obtain ⟨-, h⟩ := length_close_of hsq hv (hf v)
    have := abs_le.1 h
    unfold lengthError
    constructor
    · linarith [this.1]
    · linarith [this.2]

/-- The weighting with one rounding. -/
theorem weigh_fused_near {w d h : Dbl} (hw : 0 ≤ w.1) (hd : 0 ≤ d.1) (hh : 0 ≤ h.1) :
    (1 - lengthError) ^ 2 * (dval d + dval h * dval w) ≤ dval (Dbl.round (d.1 + h.1 * w.1)) ∧
      dval (Dbl.round (d.1 + h.1 * w.1)) ≤ (1 + lengthError) ^ 2 * (dval d + dval h * dval w) := by
  have e0 : 0 ≤ 1 - lengthError := by unfold lengthError; norm_num
  have e2 : 0 ≤ lengthError := by unfold lengthError; norm_num
  have hq : 0 ≤ d.1 + h.1 * w.1 := add_nonneg hd (mul_nonneg hh hw)
  obtain ⟨h1, h2⟩ := round_near _ hq
  have hc : ((d.1 + h.1 * w.1 : ℚ) : ℝ) = dval d + dval h * dval w := by
    unfold dval; push_cast; rfl
  have hr : (0 : ℝ) ≤ dval d + dval h * dval w := by rw [← hc]; exact_mod_cast hq
  rw [hc] at h1 h2
  refine ⟨le_trans ?_ h1, le_trans h2 ?_⟩
  · apply mul_le_mul_of_nonneg_right _ hr
    nlinarith
  · apply mul_le_mul_of_nonneg_right _ hr
    nlinarith

/-- The weighting with two roundings. -/
theorem weigh_near {w d h : Dbl} (hw : 0 ≤ w.1) (hd : 0 ≤ d.1) (hh : 0 ≤ h.1) :
    (1 - lengthError) ^ 2 * (dval d + dval h * dval w) ≤
        dval (Dbl.round (d.1 + (Dbl.round (h.1 * w.1)).1)) ∧
      dval (Dbl.round (d.1 + (Dbl.round (h.1 * w.1)).1)) ≤
        (1 + lengthError) ^ 2 * (dval d + dval h * dval w) := by
  have e0 : 0 ≤ 1 - lengthError := by unfold lengthError; norm_num
  have e1 : 0 ≤ 1 + lengthError := by unfold lengthError; norm_num
  have e2 : 0 ≤ lengthError := by unfold lengthError; norm_num
  have hq : 0 ≤ h.1 * w.1 := mul_nonneg hh hw
  obtain ⟨h3, h4⟩ := round_near _ hq
  have hc : ((h.1 * w.1 : ℚ) : ℝ) = dval h * dval w := by unfold dval; push_cast; rfl
  have hr : (0 : ℝ) ≤ dval h * dval w := by rw [← hc]; exact_mod_cast hq
  have hdr : (0 : ℝ) ≤ dval d := by unfold dval; exact_mod_cast hd
  rw [hc] at h3 h4
  have hp : 0 ≤ dval (Dbl.round (h.1 * w.1)) := le_trans (mul_nonneg e0 hr) h3
  have hp' : 0 ≤ (Dbl.round (h.1 * w.1)).1 := by unfold dval at hp; exact_mod_cast hp
  generalize Dbl.round (h.1 * w.1) = pr at *
  obtain ⟨h5, h6⟩ := round_near (d.1 + pr.1) (add_nonneg hd hp')
  have hc2 : (((d.1 + pr.1 : ℚ)) : ℝ) = dval d + dval pr := by unfold dval; push_cast; rfl
  rw [hc2] at h5 h6
  constructor
  · refine le_trans ?_ h5
    rw [pow_two, mul_assoc]
    apply mul_le_mul_of_nonneg_left _ e0
    nlinarith
  · refine le_trans h6 ?_
    rw [pow_two, mul_assoc]
    apply mul_le_mul_of_nonneg_left _ e1
    nlinarith

/-- Distances computed with doubles, every operation being rounded or fused with the next. -/
structure ShortestPath.Arith.DoubleLike (A : Arith Dbl) (w : Dbl) (limit : Option Dbl) : Prop where
  sound : A.Sound
  mag : ∀ v, (1 - lengthError) * ((exactArith 0 none).mag v) ≤ dval (A.mag v) ∧
    dval (A.mag v) ≤ (1 + lengthError) * ((exactArith 0 none).mag v)
  add : A.add = fun x y => Dbl.round (x.1 + y.1)
  zero : A.zero = Dbl.round 0
  weigh : ∀ d h : Dbl, 0 ≤ d.1 → 0 ≤ h.1 →
    (1 - lengthError) ^ 2 * (dval d + dval h * dval w) ≤ dval (A.weigh d h) ∧
      dval (A.weigh d h) ≤ (1 + lengthError) ^ 2 * (dval d + dval h * dval w)
  over : A.over = exceeds limit

section

variable {A : Arith Dbl} {w : Dbl} {limit : Option Dbl} (hA : A.DoubleLike w limit)
include hA

theorem distance_near (a b : Coord) (span : Bool) :
    (1 - lengthError) * distance (exactArith 0 none) a b span ≤
        dval (distance A a b span) ∧
      dval (distance A a b span) ≤
        (1 + lengthError) * distance (exactArith 0 none) a b span := by
  have e0 : 0 ≤ 1 - lengthError := by unfold lengthError; norm_num
  have e1 : 0 ≤ 1 + lengthError := by unfold lengthError; norm_num
  unfold distance
  cases span with
  | false => exact hA.mag _
  | true =>
    simp only [if_true]
    rw [dval_mono.map_min, mul_min_of_nonneg _ _ e0, mul_min_of_nonneg _ _ e1]
    exact ⟨min_le_min (hA.mag _).1 (hA.mag _).1,
      min_le_min (hA.mag _).2 (hA.mag _).2⟩

theorem heuristic_near (a b : Coord) :
    (1 - lengthError) * wrapDist a b ≤ dval (heuristic A a b) ∧
      dval (heuristic A a b) ≤ (1 + lengthError) * wrapDist a b := by
  have e0 : 0 ≤ 1 - lengthError := by unfold lengthError; norm_num
  have e1 : 0 ≤ 1 + lengthError := by unfold lengthError; norm_num
  rw [← exact_heuristic 0 none]
  unfold heuristic
  rw [dval_mono.map_min, mul_min_of_nonneg _ _ e0, mul_min_of_nonneg _ _ e1]
  exact ⟨min_le_min (distance_near hA _ _ _).1 (distance_near hA _ _ _).1,
    min_le_min (distance_near hA _ _ _).2 (distance_near hA _ _ _).2⟩

end

/-- The search of the code as an A* search with rounded distances. -/
theorem problem_near {A : Arith Dbl} {w : Dbl} {limit : Option Dbl}
    (hA : A.DoubleLike w limit) (hw : 0 ≤ w.1) {E : Env} (hg : UserGraph E.graph) {c : Correction} {N : Net}
    {vs : Finset Coord} (hvs : NetOk E c N vs) :
    AStar.IsNear (problem A E.ord N c.src c.dst) vs dval (legLength E)
      (fun v => wrapDist v c.dst) (dval w) lengthError := by
  have e0 : 0 ≤ 1 - lengthError := by unfold lengthError; norm_num
  have e1 : 0 ≤ 1 + lengthError := by unfold lengthError; norm_num
  have e2 : 0 ≤ lengthError := by unfold lengthError; norm_num
  have hwr : 0 ≤ dval w := by unfold dval; exact_mod_cast hw
  have hleg : ∀ u v, 0 ≤ legLength E u v := fun u v => by
    obtain ⟨k, -, h⟩ := legLength_eq E u v
    rw [h]; exact planeDist_nonneg _ _ _
  have hwrap : ∀ u v, 0 ≤ wrapDist u v := fun u v => by
    obtain ⟨k, -, h⟩ := wrapDist_eq u v
    rw [h]; exact planeDist_nonneg _ _ _
  have hlen : ∀ u ∈ vs, ∀ v ∈ (problem A E.ord N c.src c.dst).nbrs u,
      (1 - lengthError) * legLength E u v ≤
          dval ((problem A E.ord N c.src c.dst).len u v) ∧
        dval ((problem A E.ord N c.src c.dst).len u v) ≤
          (1 + lengthError) * legLength E u v := by
    intro u hu v hv
    have he := (hvs.mem_nbrs _ hu v).1 hv
    rw [← problem_len hg hvs 0 none he]
    exact distance_near hA v u _
  have hprio : ∀ (d : Dbl) (v : Coord), 0 ≤ dval d →
      (1 - lengthError) ^ 3 * (dval d + wrapDist v c.dst * dval w) ≤
          dval ((problem A E.ord N c.src c.dst).prio d v) ∧
        dval ((problem A E.ord N c.src c.dst).prio d v) ≤
          (1 + lengthError) ^ 3 * (dval d + wrapDist v c.dst * dval w) := by
    intro d v hd
    obtain ⟨h1, h2⟩ := heuristic_near hA v c.dst
    change _ ≤ dval (A.weigh d (heuristic A v c.dst)) ∧ dval (A.weigh d (heuristic A v c.dst)) ≤ _
    generalize heuristic A v c.dst = hh at *
    have hh0 : 0 ≤ dval hh := le_trans (mul_nonneg e0 (hwrap _ _)) h1
    have hh0' : 0 ≤ hh.1 := by unfold dval at hh0; exact_mod_cast hh0
    have hd' : 0 ≤ d.1 := by unfold dval at hd; exact_mod_cast hd
    obtain ⟨h3, h4⟩ := hA.weigh d hh hd' hh0'
    have k1 := mul_le_mul_of_nonneg_right h1 hwr
    have k2 := mul_le_mul_of_nonneg_right h2 hwr
    constructor
    · refine le_trans ?_ h3
      rw [pow_succ, mul_assoc]
      apply mul_le_mul_of_nonneg_left _ (pow_nonneg e0 2)
      nlinarith
    · refine le_trans h4 ?_
      rw [pow_succ (1 + lengthError) 2, mul_assoc]
      apply mul_le_mul_of_nonneg_left _ (pow_nonneg e1 2)
      nlinarith
  have hadd : ∀ x y : Dbl, 0 ≤ dval x → 0 ≤ dval y →
      (1 - lengthError) * (dval x + dval y) ≤ dval (Dbl.round (x.1 + y.1)) ∧
        dval (Dbl.round (x.1 + y.1)) ≤ (1 + lengthError) * (dval x + dval y) := by
    intro x y hx hy
    have hx' : 0 ≤ x.1 := by unfold dval at hx; exact_mod_cast hx
    have hy' : 0 ≤ y.1 := by unfold dval at hy; exact_mod_cast hy
    have := round_near (x.1 + y.1) (add_nonneg hx' hy')
    have hc : (((x.1 + y.1 : ℚ)) : ℝ) = dval x + dval y := by unfold dval; push_cast; rfl
    rwa [hc] at this
  exact
    { eps := ⟨e2, by linarith⟩
      mono := fun x y h => dval_mono h
      zero := by
        change dval A.zero = 0
        rw [hA.zero]
        unfold dval Dbl.round
        change ((fl 0 : ℚ) : ℝ) = 0
        rw [fl_zero, Rat.cast_zero]
      nonneg := hleg
      lenLo := fun u hu v hv => (hlen u hu v hv).1
      lenHi := fun u hu v hv => (hlen u hu v hv).2
      addLo := fun x y hx hy => by
        change _ ≤ dval (A.add x y)
        rw [hA.add]; exact (hadd x y hx hy).1
      addHi := fun x y hx hy => by
        change dval (A.add x y) ≤ _
        rw [hA.add]; exact (hadd x y hx hy).2
      prioLo := fun d v hd => (hprio d v hd).1
      prioHi := fun d v hd => (hprio d v hd).2 }

/-- `C64_rounded` for any distances computed with doubles. -/
theorem rounded_of {A : Arith Dbl} {w : Dbl} {limit : Option Dbl} (hA : A.DoubleLike w limit)
    (hw : 0 ≤ w.1) (E : Env) (hg : UserGraph E.graph) (hord : ∀ l, (E.ord l).Perm l)
    (s d : Coord) (allow : Bool) (N : Net) (c : Correction)
    (hp : prepare E s d allow = .ok (.inr (N, c))) (hr : InRange E c) (path : List Coord)
    (h : Query A E s d allow (.ok path)) (route : List Coord)
    (hroute : IsWalk (RouteEdge E c) c.src c.dst route)
    (hfar : ∀ v ∈ route.tail, exceeds limit (heuristic A c.src v) = false) :
    (1 - 1 / 2 ^ 48) ^ (path.length + route.length + 3) * walkLength (legLength E) path ≤
      (1 + 1 / 2 ^ 48) ^ (route.length + 3) *
        (max 1 ((w.1 : ℚ) : ℝ) * walkLength (legLength E) route) := by
  obtain ⟨-, -, -, -, -, -, h5⟩ := prepare_inr hp
  obtain ⟨vs, hvs⟩ := net_ok hg hord h5
  have hW := hvs.within A
  have hM := problem_monotone hA.sound E.ord N c.src c.dst
  have hP := problem_near hA hw hg hvs
  rw [query_inr hp] at h
  obtain ⟨r, rfl, hl, hc⟩ := isWalk_cons.1 hroute
  have key := hP.outcome_length hM (by unfold dval; exact_mod_cast hw) hW
    (fun u hu v hv => by
      have he := (hvs.mem_nbrs _ hu v).1 hv
      exact C52_consistent E u v c.dst (route_near hg hr he) hr.2.2.1)
    (C52_admissible 0 none E hg c hr c.dst [c.dst]
      ⟨rfl, rfl, List.isChain_singleton _⟩).2.1
    h r ((hvs.chain _ r c.src hvs.src).2 hc) hl fun v hv => by
      change A.over _ = false
      rw [hA.over]; exact hfar v hv
  have e1 : path.length + (c.src :: r).length + 3 = path.length + r.length + 4 := by
    rw [List.length_cons]; omega
  have e2 : (c.src :: r).length + 3 = r.length + 4 := by rw [List.length_cons]
  rw [e1, e2]
  exact key

/-- A route can be cut to one that visits no vertex twice and is no longer. -/
theorem simple_route {V : Type} [DecidableEq V] {len : V → V → ℝ} (hn : ∀ u v, 0 ≤ len u v)
    (R : V → V → Prop) (l : List V) (u : V) (h : (u :: l).IsChain R) :
    ∃ l', (u :: l').IsChain R ∧ l'.getLastD u = l.getLastD u ∧ (u :: l').Nodup ∧
      walkLength len (u :: l') ≤ walkLength len (u :: l) ∧ ∀ x ∈ l', x ∈ l := by
  induction l generalizing u with
  | nil => exact ⟨[], h, rfl, List.nodup_singleton u, le_rfl, fun x hx => hx⟩
  | cons v r ih =>
    rw [List.isChain_cons_cons] at h
    obtain ⟨l', h1, h2, h3, h4, h5⟩ := ih v h.2
    have hsub : ∀ x ∈ v :: l', x ∈ v :: r := by
      intro x hx
      rcases List.mem_cons.1 hx with rfl | hx
      · exact List.mem_cons_self
      · exact List.mem_cons_of_mem _ (h5 x hx)
    have e : walkLength len (u :: v :: r) = len u v + walkLength len (v :: r) := by
      simp [walkLength]
    have hlen := hn u v
    by_cases hu : u ∈ v :: l'
    · obtain ⟨a, b, hab⟩ := List.append_of_mem hu
      have hsuf : (u :: b) <:+ (v :: l') := ⟨a, hab.symm⟩
      refine ⟨b, h1.suffix hsuf, ?_, hsuf.sublist.nodup h3, ?_, ?_⟩
      · have q1 : (u :: b).getLast? = (v :: l').getLast? := by
          rw [hab, List.getLast?_append]
          simp [List.getLast?_cons]
        rw [List.getLast?_cons, List.getLast?_cons, ← List.getLastD_eq_getLast?,
          ← List.getLastD_eq_getLast?] at q1
        rw [Option.some.inj q1, h2, List.getLastD_cons]
      · have : walkLength len (u :: b) ≤ walkLength len (v :: l') := by
          rw [hab]
          clear hsuf hab
          induction a with
          | nil => exact le_rfl
          | cons x t ih' =>
            refine le_trans ih' ?_
            cases t with
            | nil => have := hn x u; simp only [List.nil_append, List.cons_append, walkLength]; linarith
            | cons y t' => have := hn x y; simp only [List.cons_append, walkLength]; linarith
        rw [e]
        linarith
      · intro x hx
        exact hsub x (hsuf.subset (List.mem_cons_of_mem _ hx))
    · refine ⟨v :: l', List.isChain_cons_cons.2 ⟨h.1, h1⟩, ?_, List.nodup_cons.2 ⟨hu, h3⟩, ?_, hsub⟩
      · rw [List.getLastD_cons, List.getLastD_cons, h2]
      · have e' : walkLength len (u :: v :: l') = len u v + walkLength len (v :: l') := by
          simp [walkLength]
        rw [e, e']
        linarith

/-- `C64_bounded` for any distances computed with doubles. -/
theorem bounded_of {A : Arith Dbl} {w : Dbl} {limit : Option Dbl} (hA : A.DoubleLike w limit)
    (hw : 0 ≤ w.1) (E : Env) (hg : UserGraph E.graph) (hord : ∀ l, (E.ord l).Perm l)
    (s d : Coord) (allow : Bool) (N : Net) (c : Correction)
    (hp : prepare E s d allow = .ok (.inr (N, c))) (hr : InRange E c) (path : List Coord)
    (h : Query A E s d allow (.ok path))
    (places : Finset Coord) (hsrc : c.src ∈ places)
    (hplaces : ∀ u ∈ places, ∀ v, RouteEdge E c u v → v ∈ places) (hcard : places.card ≤ 500000)
    (route : List Coord) (hroute : IsWalk (RouteEdge E c) c.src c.dst route)
    (hfar : ∀ v ∈ route.tail, exceeds limit (heuristic A c.src v) = false) :
    walkLength (legLength E) path ≤
      (1 + 1 / 10 ^ 8) * (max 1 ((w.1 : ℚ) : ℝ) * walkLength (legLength E) route) := by
  have hleg : ∀ u v, 0 ≤ legLength E u v := fun u v => by
    obtain ⟨k, -, h⟩ := legLength_eq E u v
    rw [h]; exact planeDist_nonneg _ _ _
  have inside : ∀ (l : List Coord) (u : Coord), u ∈ places → (u :: l).IsChain (RouteEdge E c) →
      ∀ x ∈ u :: l, x ∈ places := by
    intro l
    induction l with
    | nil => intro u hu _ x hx; rw [List.mem_singleton.1 hx]; exact hu
    | cons v r ih =>
      intro u hu hc x hx
      rw [List.isChain_cons_cons] at hc
      rcases List.mem_cons.1 hx with rfl | hx
      · exact hu
      · exact ih v (hplaces u hu v hc.1) hc.2 x hx
  have short : ∀ l : List Coord, l.Nodup → (∀ x ∈ l, x ∈ places) → l.length ≤ 500000 := by
    intro l hl hx
    rw [← List.toFinset_card_of_nodup hl]
    exact (Finset.card_le_card fun x h => hx x (List.mem_toFinset.1 h)).trans hcard
  obtain ⟨r, rfl, hl, hc⟩ := isWalk_cons.1 hroute
  obtain ⟨r', g1, g2, g3, g4, g5⟩ := simple_route hleg _ r c.src hc
  have n1 : (c.src :: r').length ≤ 500000 := short _ g3 (inside r' c.src hsrc g1)
  have n2 : path.length ≤ 500000 := by
    have hnd := (C43_outcome _ hA.sound E hg hord s d allow).2 N c path hp h
    obtain ⟨ns, nd, c', h1, h2, h3, h4⟩ := C42_paths _ hA.sound E hg hord s d allow path h
    obtain ⟨ns', nd', q1, q2, q3, q4, -⟩ := prepare_inr hp
    rw [h1] at q1
    rw [h2] at q2
    cases q1
    cases q2
    rw [h3] at q3
    cases q3
    rcases h4 with ⟨h4, -⟩ | ⟨-, h4⟩
    · exact absurd h4 q4
    · obtain ⟨t, rfl, -, ht⟩ := isWalk_cons.1 h4
      exact short _ hnd (inside t c.src hsrc ht)
  have key := rounded_of hA hw E hg hord s d allow N c hp hr path h (c.src :: r')
    (isWalk_cons.2 ⟨r', rfl, g2.trans hl, g1⟩) fun v hv => hfar v (g5 v hv)
  have hB : 0 ≤ max 1 ((w.1 : ℚ) : ℝ) := le_trans zero_le_one (le_max_left _ _)
  have hL : 0 ≤ walkLength (legLength E) path := AStar.walkLength_nonneg hleg _
  have hR : 0 ≤ walkLength (legLength E) (c.src :: r') := AStar.walkLength_nonneg hleg _
  -- the two powers
  have p1 : (1 - 4 / 10 ^ 9 : ℝ) ≤ (1 - 1 / 2 ^ 48) ^ (path.length + (c.src :: r').length + 3) := by
    have hb := one_add_mul_le_pow (a := (-(1 / 2 ^ 48) : ℝ)) (by norm_num)
      (path.length + (c.src :: r').length + 3)
    have hk : ((path.length + (c.src :: r').length + 3 : ℕ) : ℝ) ≤ 1000003 := by
      exact_mod_cast (by omega : path.length + (c.src :: r').length + 3 ≤ 1000003)
    rw [← sub_eq_add_neg] at hb
    refine le_trans ?_ hb
    generalize ((path.length + (c.src :: r').length + 3 : ℕ) : ℝ) = k at *
    norm_num
    linarith
  have p2 : (1 + 1 / 2 ^ 48 : ℝ) ^ ((c.src :: r').length + 3) ≤ 1 + 4 / 10 ^ 9 := by
    have hb := one_add_mul_le_pow (a := (-(1 / 2 ^ 48) : ℝ)) (by norm_num) ((c.src :: r').length + 3)
    have hk : (((c.src :: r').length + 3 : ℕ) : ℝ) ≤ 500003 := by
      exact_mod_cast (by omega : (c.src :: r').length + 3 ≤ 500003)
    have hprod : (1 + 1 / 2 ^ 48 : ℝ) ^ ((c.src :: r').length + 3) *
        (1 - 1 / 2 ^ 48) ^ ((c.src :: r').length + 3) ≤ 1 := by
      rw [← mul_pow]
      apply pow_le_one₀ <;> norm_num
    rw [← sub_eq_add_neg] at hb
    have hlo : (1 - 2 / 10 ^ 9 : ℝ) ≤ (1 - 1 / 2 ^ 48) ^ ((c.src :: r').length + 3) := by
      refine le_trans ?_ hb
      generalize (((c.src :: r').length + 3 : ℕ) : ℝ) = k at *
      norm_num
      linarith
    have hpos : (0 : ℝ) ≤ (1 + 1 / 2 ^ 48 : ℝ) ^ ((c.src :: r').length + 3) := by positivity
    generalize (1 + 1 / 2 ^ 48 : ℝ) ^ ((c.src :: r').length + 3) = x at *
    generalize (1 - 1 / 2 ^ 48 : ℝ) ^ ((c.src :: r').length + 3) = y at *
    nlinarith
  have hBR := mul_nonneg hB hR
  have k1 : (1 - 4 / 10 ^ 9 : ℝ) * walkLength (legLength E) path ≤
      (1 + 4 / 10 ^ 9) * (max 1 ((w.1 : ℚ) : ℝ) * walkLength (legLength E) (c.src :: r')) :=
    (mul_le_mul_of_nonneg_right p1 hL).trans (key.trans (mul_le_mul_of_nonneg_right p2 hBR))
  have k2 := mul_le_mul_of_nonneg_left g4 hB
  nlinarith

/-- `C64_limit` for any distances computed with doubles. -/
theorem limit_of {A : Arith Dbl} {w limit : Dbl} (hA : A.DoubleLike w (some limit))
    (hw : 0 ≤ w.1) (E : Env) (hg : UserGraph E.graph) (hord : ∀ l, (E.ord l).Perm l)
    (s d : Coord) (allow : Bool) (N : Net) (c : Correction)
    (hp : prepare E s d allow = .ok (.inr (N, c))) (hr : InRange E c) (path : List Coord)
    (h : Query A E s d allow (.ok path)) :
    (∀ v ∈ path.tail, (1 - 1 / 2 ^ 48) * wrapDist c.src v ≤ ((limit.1 : ℚ) : ℝ)) ∧
    ∀ places : Finset Coord, c.src ∈ places →
      (∀ u ∈ places, ∀ v, RouteEdge E c u v → v ∈ places) → places.card ≤ 500000 →
      ∀ route, IsWalk (RouteEdge E c) c.src c.dst route →
        (∀ v ∈ route.tail, (1 + 1 / 2 ^ 48) * wrapDist c.src v ≤ ((limit.1 : ℚ) : ℝ)) →
        walkLength (legLength E) path ≤
          (1 + 1 / 10 ^ 8) * (max 1 ((w.1 : ℚ) : ℝ) * walkLength (legLength E) route) := by
  constructor
  · intro v hv
    have := C47_within _ hA.sound E hg hord s d allow N c hp path h v hv
    rw [hA.over] at this
    simp only [exceeds, decide_eq_false_iff_not, not_lt] at this
    exact (heuristic_near hA c.src v).1.trans (dval_mono this)
  · intro places h1 h2 h3 route hroute hfar
    refine bounded_of hA hw E hg hord s d allow N c hp hr path h places h1
      h2 h3 route hroute fun v hv => ?_
    simp only [exceeds, decide_eq_false_iff_not, not_lt]
    have := (heuristic_near hA c.src v).2.trans (hfar v hv)
    have h4 : (heuristic A c.src v).1 ≤ limit.1 := by
      unfold dval at this; exact_mod_cast this
    exact h4

end Capi
