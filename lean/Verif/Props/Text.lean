import Verif.Lemmas.Text
import Verif.Props.Frontend

/-!
# C80 — texts identify what they describe, failed pairs of a batch are named

`fmtD` prints doubles; of it `Graph.FmtOk` is assumed, as for C25.
-/

namespace Capi

open Graph ShortestPath Frontend

/-- **C80** Coordinates that print alike are equal, whatever follows them in a text. -/
theorem C80_coordinate (fmtD : ℚ → List Char) (hf : FmtOk fmtD) (c d : Coord) (hc : c.I32)
    (hd : d.I32) (s t : List Char) (h : c.text fmtD ++ s = d.text fmtD ++ t) : c = d :=
  (text_inj hf hc hd h).1

/-- **C80** Polygons that print alike have the same vertices. -/
theorem C80_polygon (fmtD : ℚ → List Char) (hf : FmtOk fmtD) (p q : List Coord)
    (hp : ∀ c ∈ p, c.I32) (hq : ∀ c ∈ q, c.I32) (lp : p.length < 2 ^ 64) (lq : q.length < 2 ^ 64)
    (h : Polygon.text fmtD p = Polygon.text fmtD q) : p = q := by
  unfold Polygon.text at h
  have h := List.append_cancel_left h
  rw [textLoop_eq fmtD _ lp p 0 (by simp), textLoop_eq fmtD _ lq q 0 (by simp)] at h
  exact (joined_inj hf p q hp hq h).1

variable {D : Type} [LinearOrder D]

/-- **C80** The texts change nothing else: the outcomes of a query with texts are its outcomes
without them. -/
theorem C80_same_outcomes (fmtD : ℚ → List Char) (other : List Char) (A : Arith D) (E : Env)
    (s d : Coord) (allow : Bool) (r : Res (List Coord)) :
    Query A E s d allow r ↔
      ∃ x, QueryT fmtD other A E s d allow x ∧ Res.hush x = r := by
  unfold Query QueryT
  rw [← prepareT_hush fmtD other]
  rcases prepareT fmtD other E s d allow with f | (p | ⟨N, c⟩)
  · exact ⟨fun h => ⟨_, rfl, h.symm⟩, fun ⟨x, h1, h2⟩ => by rw [← h2, h1]; rfl⟩
  · exact ⟨fun h => ⟨_, rfl, h.symm⟩, fun ⟨x, h1, h2⟩ => by rw [← h2, h1]; rfl⟩
  · change AStar.Outcome _ r ↔ _
    unfold AStar.Outcome
    constructor
    · rintro ⟨st, k, r', h1, h2, rfl⟩
      have h3 := followT_forget c.src st.prev k c.dst
      have h2' : AStar.follow c.src st.prev k c.dst = some r' := h2
      rw [h2'] at h3
      cases hx : followT c.src st.prev k c.dst with
      | none => rw [hx] at h3; cases h3
      | some x =>
        rw [hx] at h3
        have h3 : forget x = r' := Option.some.inj h3
        refine ⟨_, ⟨st, k, x, h1, hx, rfl⟩, ?_⟩
        rw [← h3]
        cases x <;> rfl
    · rintro ⟨x, ⟨st, k, y, h1, h2, rfl⟩, rfl⟩
      refine ⟨st, k, forget y, h1, ?_, ?_⟩
      · have h3 := followT_forget c.src st.prev k c.dst
        rw [h2] at h3
        exact h3.symm
      · cases y <;> rfl

/-- The text names the endpoints in this order. -/
def Names (fmtD : ℚ → List Char) (t : List Char) (s d : Coord) : Prop :=
  ∃ u v, t = u ++ ("Source: ".toList ++ s.text fmtD ++ ". Destination: ".toList ++ d.text fmtD ++ v)

/-- Corrections of endpoints on land succeed and stay in range. -/
def LandFound (E : Env) : Prop :=
  ∀ v : Coord, v.Geo → E.onLand v = true →
    ∃ w e, correctOne E v = .ok (w, some e) ∧ w.Geo ∧ e.p.Per ∧ e.q.Per

theorem geo_i32 {c : Coord} (h : c.Geo) : c.I32 := by
  unfold Coord.Geo at h
  unfold Coord.I32 FitsI32
  omega

theorem normalize_geo {c : Coord} (hc : c.Geo) : normalizeC c = .ok c :=
  C01_normalize_id c (by unfold Coord.Geo at hc; omega) (by unfold Coord.Geo at hc; omega)

theorem correctOneT_ok {other : List Char} {E : Env} {v : Coord} {x : Coord × Option Seg}
    (h : correctOne E v = .ok x) : correctOneT other E v = .ok x := by
  have := correctOneT_hush other E v
  rw [h] at this
  cases hc : correctOneT other E v with
  | ok y => rw [hc] at this; cases this; rfl
  | error f => rw [hc] at this; cases this

/-- Everything a query depends on that C80 asks for: a graph with geographic vertices, scans of its
polygons, corrections in range. -/
structure Served (E : Env) (allow : Bool) : Prop where
  user : UserGraph E.graph
  ord : ∀ l, (E.ord l).Perm l
  scans : ∃ ps : List (List Coord), (∀ v ∈ ps.flatten, v.Geo) ∧ E.graph.verts = ps.flatten ∧
    IsReach ps E.reach
  land : allow = true → LandFound E

theorem texts (fmtD : ℚ → List Char) (other : List Char) (A : Arith D) (hA : A.Sound) (E : Env)
    (allow : Bool) (hE : Served E allow) (s d : Coord) (hs : s.Geo) (hd : d.Geo) (f : Failure)
    (h : QueryT fmtD other A E s d allow (.error f)) :
    (allow = false ∧ (E.onLand s = true ∨ E.onLand d = true) ∧
      f = .exn (landText fmtD s d)) ∨
    ∃ N c, prepare E s d allow = .ok (.inr (N, c)) ∧ c.src.Geo ∧ c.dst.Geo ∧
      f = .exn (stuckText fmtD c.dst s d c.src c.dst) := by
  obtain ⟨hg, hord, ⟨ps, hps, hv, hr⟩, hland⟩ := hE
  have one : ∀ v : Coord, v.Geo → (allow = true ∨ E.onLand v = false) →
      ∃ w e, correctOne E v = .ok (w, e) ∧ w.Geo ∧ ∀ x, e = some x → x.p.Per ∧ x.q.Per := by
    intro v hvg ha
    cases hl : E.onLand v with
    | false =>
      refine ⟨v, none, ?_, hvg, fun x hx => by cases hx⟩
      unfold correctOne
      rw [if_neg (by rw [hl]; simp)]
    | true =>
      rcases ha with ha | ha
      · obtain ⟨w, e, h1, h2, h3, h4⟩ := hland ha v hvg hl
        exact ⟨w, some e, h1, h2, fun x hx => by cases hx; exact ⟨h3, h4⟩⟩
      · rw [hl] at ha; cases ha
  have hnorm : ∀ c : Coord, c.Geo → Res.say other (normalizeC c) = .ok c := fun c hc => by
    rw [normalize_geo hc]; rfl
  unfold QueryT at h
  by_cases hc : (!allow && (E.onLand s || E.onLand d)) = true
  · have hp : prepareT fmtD other E s d allow = .error (.exn (landText fmtD s d)) := by
      unfold prepareT
      rw [hnorm s hs, hnorm d hd]
      have : correctT fmtD other E s d allow = .error (.exn (landText fmtD s d)) := if_pos hc
      change correctT fmtD other E s d allow >>= _ = _
      rw [this]
      rfl
    rw [hp] at h
    simp only [Bool.and_eq_true, Bool.not_eq_true', Bool.or_eq_true] at hc
    exact Or.inl ⟨hc.1, hc.2, by injection h⟩
  · have hx : (allow = true ∨ E.onLand s = false) ∧ (allow = true ∨ E.onLand d = false) := by
      cases ha : allow with
      | true => exact ⟨Or.inl rfl, Or.inl rfl⟩
      | false =>
        rw [ha] at hc
        have hc : E.onLand s = false ∧ E.onLand d = false := by simpa using hc
        exact ⟨Or.inr hc.1, Or.inr hc.2⟩
    obtain ⟨w1, e1, h1, g1, p1⟩ := one s hs hx.1
    obtain ⟨w2, e2, h2, g2, p2⟩ := one d hd hx.2
    have hcT : correctT fmtD other E s d allow = .ok ⟨w1, w2, e1, e2⟩ := by
      unfold correctT
      rw [if_neg hc, correctOneT_ok h1, correctOneT_ok h2]
      rfl
    obtain ⟨⟨N, hN⟩, -⟩ := C42_ready E ps hps hv hr ⟨w1, w2, e1, e2⟩ g1 g2 p1 p2
    have hpT : prepareT fmtD other E s d allow = .ok (.inl [w1, w2]) ∨
        prepareT fmtD other E s d allow = .ok (.inr (N, ⟨w1, w2, e1, e2⟩)) := by
      unfold prepareT
      rw [hnorm s hs, hnorm d hd]
      change (correctT fmtD other E s d allow >>= _) = _ ∨ (correctT fmtD other E s d allow >>= _) = _
      rw [hcT]
      change (if (blocking E ⟨w1, w2, e1, e2⟩).length = 0 then _ else _) = _ ∨
        (if (blocking E ⟨w1, w2, e1, e2⟩).length = 0 then _ else _) = _
      by_cases hb : (blocking E ⟨w1, w2, e1, e2⟩).length = 0
      · rw [if_pos hb]; exact Or.inl rfl
      · rw [if_neg hb, hN]; exact Or.inr rfl
    rcases hpT with hp | hp
    · rw [hp] at h; cases h
    · have hp0 : prepare E s d allow = .ok (.inr (N, ⟨w1, w2, e1, e2⟩)) := by
        rw [← prepareT_hush fmtD other, hp]; rfl
      refine Or.inr ⟨N, ⟨w1, w2, e1, e2⟩, hp0, g1, g2, ?_⟩
      rw [hp] at h
      obtain ⟨st, k, r', he, hf, hr'⟩ := h
      obtain ⟨vs, hvs⟩ := net_ok hg hord hN
      have hM := problem_monotone hA E.ord N w1 w2
      have hstuck : ∀ v, r' = .error v → v = w2 := by
        rintro v rfl
        obtain ⟨s0, hH, hpr, -, hq | ⟨e, ht, hed⟩⟩ := AStar.ends_cases hM (hvs.within A) he
        · obtain ⟨q1, q2⟩ := AStar.empty_none hH hq
          have q3 : st.prev w2 = none := by rw [hpr]; exact hH.inv.nopred _ q2
          cases k with
          | zero => cases hf
          | succ k =>
            have q1 : ¬ w2 = w1 := q1
            unfold followT at hf
            rw [if_neg q1, q3] at hf
            cases hf
            rfl
        · obtain ⟨k', l, hl, -⟩ := AStar.found_follow hH ht.1 hed
          have h3 := followT_forget w1 st.prev k w2
          have hf' : followT w1 st.prev k w2 = some (.error v) := hf
          rw [hf', hpr] at h3
          have := AStar.follow_det _ _ h3.symm hl
          cases this
      cases r' with
      | ok p => cases hr'
      | error v =>
        rw [hstuck v rfl] at hr'
        injection hr'

/-- **C80** A query that fails says why and names its endpoints.  There are two texts: an endpoint
is on land and corrections are not asked for, or no path was found; then the place where the search
got stuck is always the destination. -/
theorem C80_named (fmtD : ℚ → List Char) (other : List Char) (A : Arith D) (hA : A.Sound) (E : Env)
    (allow : Bool) (hE : Served E allow) (s d : Coord) (hs : s.Geo) (hd : d.Geo) (f : Failure)
    (h : QueryT fmtD other A E s d allow (.error f)) :
    ∃ t, f = .exn t ∧ Names fmtD t s d ∧
      ((allow = false ∧ (E.onLand s = true ∨ E.onLand d = true) ∧
          "Either the source or the destination are on land.".toList <+: t) ∨
        ∃ N c, prepare E s d allow = .ok (.inr (N, c)) ∧
          ("Could not find a shortest path. Got stuck on ".toList ++ c.dst.text fmtD) <+: t) := by
  rcases texts fmtD other A hA E allow hE s d hs hd f h with ⟨h1, h2, rfl⟩ | ⟨N, c, h1, -, -, rfl⟩
  · refine ⟨_, rfl, ⟨"Either the source or the destination are on land. ".toList, ".".toList, ?_⟩,
      Or.inl ⟨h1, h2, ?_⟩⟩
    · unfold landText
      simp
    · unfold landText
      simp
  · refine ⟨_, rfl, ⟨"Could not find a shortest path. Got stuck on ".toList ++ c.dst.text fmtD ++
      ". ".toList, ". Corrected Source: ".toList ++ (c.src.text fmtD ++
        (". Corrected Destination: ".toList ++ (c.dst.text fmtD ++ ". ".toList))), ?_⟩,
      Or.inr ⟨N, c, h1, ?_⟩⟩
    · unfold stuckText
      simp
    · unfold stuckText
      rw [← List.append_assoc]
      exact List.prefix_append _ _

theorem land_ne_stuck (fmtD : ℚ → List Char) (s d v s' d' cs cd : Coord) :
    landText fmtD s d ≠ stuckText fmtD v s' d' cs cd := by
  have h1 : (landText fmtD s d).head? = some 'E' := by
    unfold landText
    rw [List.head?_append,
      show "Either the source or the destination are on land. Source: ".toList.head? = some 'E' by
        decide]
    rfl
  have h2 : (stuckText fmtD v s' d' cs cd).head? = some 'C' := by
    unfold stuckText
    rw [List.head?_append,
      show "Could not find a shortest path. Got stuck on ".toList.head? = some 'C' by decide]
    rfl
  intro h
  rw [h, h2] at h1
  cases h1

/-- **C80** The text of an error identifies the query: two queries, even on different graphs and
with different options, fail with the same text only if they ask for the same endpoints. -/
theorem C80_identifies (fmtD : ℚ → List Char) (hf : FmtOk fmtD) (other other' : List Char)
    (A A' : Arith D) (hA : A.Sound) (hA' : A'.Sound) (E E' : Env) (allow allow' : Bool)
    (hE : Served E allow) (hE' : Served E' allow') (s d s' d' : Coord) (hs : s.Geo) (hd : d.Geo)
    (hs' : s'.Geo) (hd' : d'.Geo) (f : Failure) (h : QueryT fmtD other A E s d allow (.error f))
    (h' : QueryT fmtD other' A' E' s' d' allow' (.error f)) : s = s' ∧ d = d' := by
  rcases texts fmtD other A hA E allow hE s d hs hd f h with ⟨-, -, rfl⟩ | ⟨N, c, -, -, c2, rfl⟩ <;>
  rcases texts fmtD other' A' hA' E' allow' hE' s' d' hs' hd' _ h' with
    ⟨-, -, e⟩ | ⟨N', c', -, -, c2', e⟩
  · injection e with e
    unfold landText at e
    obtain ⟨e1, e⟩ := text_inj hf (geo_i32 hs) (geo_i32 hs') (List.append_cancel_left e)
    exact ⟨e1, (text_inj hf (geo_i32 hd) (geo_i32 hd') (List.append_cancel_left e)).1⟩
  · injection e with e
    exact absurd e (land_ne_stuck fmtD _ _ _ _ _ _ _)
  · injection e with e
    exact absurd e.symm (land_ne_stuck fmtD _ _ _ _ _ _ _)
  · injection e with e
    unfold stuckText at e
    obtain ⟨-, e⟩ := text_inj hf (geo_i32 c2) (geo_i32 c2') (List.append_cancel_left e)
    obtain ⟨e1, e⟩ := text_inj hf (geo_i32 hs) (geo_i32 hs') (List.append_cancel_left e)
    exact ⟨e1, (text_inj hf (geo_i32 hd) (geo_i32 hd') (List.append_cancel_left e)).1⟩

/-! ### Batches -/

theorem reportResults_fst (bs : List BatchResultT) (w : Warned) :
    (reportResults bs w).map Prod.fst = convertResults (bs.map BatchResultT.hush) := by
  induction bs generalizing w with
  | nil => rfl
  | cons b r ih =>
    rw [List.map_cons]
    unfold reportResults convertResults
    cases he : b.error with
    | some t =>
      have e1 : (BatchResultT.hush b).error.isSome = true := by simp [BatchResultT.hush, he]
      rw [if_pos e1, ← ih (w.warn (warningText t))]
      simp only
      cases reportResults r (w.warn (warningText t)) <;> rfl
    | none =>
      have e1 : ¬ (BatchResultT.hush b).error.isSome = true := by simp [BatchResultT.hush, he]
      have e2 : (BatchResultT.hush b).path = b.path := rfl
      rw [if_neg e1, e2, ← ih w]
      simp only
      cases b.path with
      | none => rfl
      | some p =>
        simp only
        cases reportResults r w <;> rfl

/-- **C80** The warnings change nothing else: the results of a batch with warnings are its results
without them. -/
theorem C80_same_batches (fmtD : ℚ → List Char) (other : List Char) (A : Arith D) (E : Env)
    (qs : List ((ℚ × ℚ) × (ℚ × ℚ))) (allow : Bool) (w : Warned)
    (r : Res (List (Option (List (ℚ × ℚ))))) :
    BatchInterpolate A E qs allow r ↔
      ∃ x, BatchInterpolateT fmtD other A E qs allow w x ∧ x.map Prod.fst = r := by
  unfold BatchInterpolate BatchInterpolateT
  generalize (qs.mapM fun q => (do
    let a ← Coord.ofDegreesC q.1.1 q.1.2
    let b ← Coord.ofDegreesC q.2.1 q.2.2
    return (a, b) : Res (Coord × Coord))) = m
  cases m with
  | error f => exact ⟨fun h => ⟨_, rfl, h.symm⟩, fun ⟨x, h1, h2⟩ => by rw [← h2, h1]; rfl⟩
  | ok cs =>
    have key : ∀ x : Res (List BatchResultT),
        (x >>= fun bs => reportResults bs w).map Prod.fst =
          x.map (fun bs => bs.map BatchResultT.hush) >>= convertResults := by
      intro x
      cases x with
      | error f => rfl
      | ok bs => exact reportResults_fst bs w
    have rep : ∀ n : ℕ, (List.replicate n (⟨none, none⟩ : BatchResultT)).map BatchResultT.hush =
        List.replicate n ⟨none, none⟩ := fun n => List.map_replicate
    constructor
    · rintro ⟨x, ⟨order, outs, h1, h2, rfl⟩, rfl⟩
      have hex : ∀ i, ∃ o, Res.hush o = outs i ∧
          ∀ q, cs[i]? = some q → QueryT fmtD other A E q.1 q.2 allow o := by
        intro i
        cases hi : cs[i]? with
        | none => exact ⟨Res.say [] (outs i), hush_say _ _, fun q hq => by cases hq⟩
        | some q =>
          obtain ⟨o, ho1, ho2⟩ := (C80_same_outcomes fmtD other A E q.1 q.2 allow _).1 (h2 i q hi)
          exact ⟨o, ho2, fun q' hq => by cases hq; exact ho1⟩
      choose o ho1 ho2 using hex
      refine ⟨_, ⟨_, ⟨order, o, h1, fun i q hi => ho2 i q hi, rfl⟩, rfl⟩, ?_⟩
      rw [key, runBatchT_hush, rep, show (fun i => Res.hush (o i)) = outs from funext ho1]
    · rintro ⟨y, ⟨x, ⟨order, outs, h1, h2, rfl⟩, rfl⟩, rfl⟩
      refine ⟨_, ⟨order, fun i => Res.hush (outs i), h1, fun i q hi =>
        (C80_same_outcomes fmtD other A E q.1 q.2 allow _).2 ⟨_, h2 i q hi, rfl⟩, rfl⟩, ?_⟩
      rw [key, runBatchT_hush, rep]

/-- **C80** Every failed pair of a batch is named by a warning, shown now or earlier, and warnings
for pairs with different endpoints differ, so that none hides another.  Warnings are shown for
failed pairs only and never twice. -/
theorem C80_warned (fmtD : ℚ → List Char) (hf : FmtOk fmtD) (other : List Char) (A : Arith D)
    (hA : A.Sound) (E : Env) (allow : Bool) (hE : Served E allow)
    (qs : List ((ℚ × ℚ) × (ℚ × ℚ)))
    (hq : ∀ q ∈ qs, |q.1.1| ≤ 180 ∧ |q.1.2| ≤ 90 ∧ |q.2.1| ≤ 180 ∧ |q.2.2| ≤ 90)
    (w w' : Warned) (rs : List (Option (List (ℚ × ℚ))))
    (h : BatchInterpolateT fmtD other A E qs allow w (.ok (rs, w'))) :
    ∃ (new : List (List Char)) (ends : ℕ → Coord × Coord) (text : ℕ → List Char),
      w'.shown = w.shown ++ new ∧ new.Nodup ∧ (∀ t ∈ new, t ∉ w.registry) ∧
      (∀ i q, qs[i]? = some q → Coord.ofDegreesC q.1.1 q.1.2 = .ok (ends i).1 ∧
        Coord.ofDegreesC q.2.1 q.2.2 = .ok (ends i).2) ∧
      (∀ i : ℕ, rs[i]? = some none → Names fmtD (text i) (ends i).1 (ends i).2 ∧
        (text i ∈ w.registry ∨ text i ∈ new)) ∧
      (∀ i j : ℕ, rs[i]? = some none → rs[j]? = some none → text i = text j → ends i = ends j) ∧
      ∀ t ∈ new, ∃ i : ℕ, rs[i]? = some none ∧ t = text i := by
  unfold BatchInterpolateT at h
  split at h
  · cases h
  · rename_i cs hcs
    obtain ⟨x, ⟨order, outs, h1, h2, hx⟩, h⟩ := h
    obtain ⟨bs, rfl, hbs⟩ := bind_eq_ok h.symm
    obtain ⟨l1, m1⟩ := mapM_index hcs
    have l2 := runBatchT_length hx.symm
    rw [List.length_replicate] at l2
    obtain ⟨c1, new, n1, n2, n3, n4, n5⟩ := reportResults_ok hbs
    obtain ⟨l3, m3⟩ := convertResults_index c1
    rw [List.length_map] at l3
    have geo : ∀ (i : ℕ) (c : Coord × Coord), cs[i]? = some c → c.1.Geo ∧ c.2.Geo := by
      intro i c hc
      have hlt : i < qs.length := by
        have := (List.getElem?_eq_some_iff.1 hc).1
        omega
      obtain ⟨c', hc', hd⟩ := m1 i _ (List.getElem?_eq_getElem hlt)
      rw [hc] at hc'
      cases hc'
      obtain ⟨q1, q2, q3, q4⟩ := hq _ (List.getElem_mem hlt)
      obtain ⟨a, ha, ga⟩ := ofDegrees_geo q1 q2
      obtain ⟨b, hb, gb⟩ := ofDegrees_geo q3 q4
      rw [ha, Res.bind_ok, hb, Res.bind_ok] at hd
      cases hd
      exact ⟨ga, gb⟩
    have slots : ∀ (i : ℕ) (c : Coord × Coord), cs[i]? = some c →
        ∃ b, slotT (outs i) = .ok b ∧ bs[i]? = some b := by
      intro i c hc
      have hlt := (List.getElem?_eq_some_iff.1 hc).1
      exact runBatchT_slot ((h1.nodup_iff).2 List.nodup_range) hx.symm i
        (h1.mem_iff.2 (List.mem_range.2 hlt)) (by rwa [List.length_replicate])
    have fails : ∀ (i : ℕ) (b : BatchResultT) (t : List Char), bs[i]? = some b → b.error = some t →
        ∃ c, cs[i]? = some c ∧ outs i = .error (.exn t) := by
      intro i b t hb ht
      have hlt := (List.getElem?_eq_some_iff.1 hb).1
      have hc := List.getElem?_eq_getElem (l2 ▸ hlt : i < cs.length)
      refine ⟨_, hc, ?_⟩
      obtain ⟨b', hb', hb2⟩ := slots i _ hc
      rw [hb] at hb2
      cases hb2
      revert hb'
      rcases outs i with (_ | u) | p <;> intro hb' <;> cases hb'
      · cases ht; rfl
      · cases ht
    have none_iff : ∀ i : ℕ, rs[i]? = some none ↔
        ∃ b t, bs[i]? = some b ∧ b.error = some t := by
      intro i
      constructor
      · intro hi
        have hlt : i < bs.length := by
          have := (List.getElem?_eq_some_iff.1 hi).1
          omega
        have hb := List.getElem?_eq_getElem hlt
        have hbh : (bs.map BatchResultT.hush)[i]? = some (BatchResultT.hush bs[i]) := by
          rw [List.getElem?_map, hb]; rfl
        obtain ⟨e, he, hconv⟩ := m3 i _ hbh
        rw [hi] at he
        cases he
        rcases hconv with ⟨h6, -⟩ | ⟨-, p, -, h6⟩
        · cases ht : bs[i].error with
          | some t => exact ⟨_, t, hb, ht⟩
          | none => simp [BatchResultT.hush, ht] at h6
        · cases h6
      · rintro ⟨b, t, hb, ht⟩
        have hbh : (bs.map BatchResultT.hush)[i]? = some (BatchResultT.hush b) := by
          rw [List.getElem?_map, hb]; rfl
        obtain ⟨e, he, hconv⟩ := m3 i _ hbh
        rcases hconv with ⟨-, rfl⟩ | ⟨h6, -⟩
        · exact he
        · simp [BatchResultT.hush, ht] at h6
    let ends : ℕ → Coord × Coord := fun i => cs[i]?.getD (⟨0, 0⟩, ⟨0, 0⟩)
    let msg : ℕ → List Char := fun i => ((bs[i]?).bind fun b => b.error).getD []
    have ends_eq : ∀ i c, cs[i]? = some c → ends i = c := fun i c hc => by
      change (cs[i]?).getD _ = c
      rw [hc]; rfl
    have msg_eq : ∀ i b t, bs[i]? = some b → b.error = some t → msg i = t := fun i b t hb ht => by
      change ((bs[i]?).bind _).getD _ = t
      rw [hb, Option.bind_some, ht]; rfl
    have failing : ∀ i : ℕ, rs[i]? = some none → ∃ c, cs[i]? = some c ∧
        outs i = .error (.exn (msg i)) ∧ c.1.Geo ∧ c.2.Geo ∧
        QueryT fmtD other A E c.1 c.2 allow (.error (.exn (msg i))) := by
      intro i hi
      obtain ⟨b, t, hb, ht⟩ := (none_iff i).1 hi
      obtain ⟨c, hc, ho⟩ := fails i b t hb ht
      have hQ := h2 i c hc
      rw [ho] at hQ
      rw [msg_eq i b t hb ht]
      exact ⟨c, hc, ho, (geo i c hc).1, (geo i c hc).2, hQ⟩
    refine ⟨new, ends, fun i => warningText (msg i), n1, n2, n3, ?_, ?_, ?_, ?_⟩
    · intro i q hi
      obtain ⟨c, hc, hd⟩ := m1 i q hi
      rw [ends_eq i c hc]
      obtain ⟨a, ha, hd⟩ := bind_eq_ok hd
      obtain ⟨b, hb, hd⟩ := bind_eq_ok hd
      cases hd
      exact ⟨ha, hb⟩
    · intro i hi
      obtain ⟨c, hc, ho, g1, g2, hQ⟩ := failing i hi
      rw [ends_eq i c hc]
      obtain ⟨t, ht, ⟨u, v, hn⟩, -⟩ := C80_named fmtD other A hA E allow hE c.1 c.2 g1 g2 _ hQ
      cases ht
      refine ⟨⟨"CAPI Batch Interpolate: ".toList ++ u, v, ?_⟩, ?_⟩
      · change "CAPI Batch Interpolate: ".toList ++ msg i = _
        rw [hn, List.append_assoc _ u]
      · rw [← n4, n5]
        obtain ⟨b, t, hb, ht⟩ := (none_iff i).1 hi
        exact Or.inr ⟨b, List.mem_of_getElem? hb, by
          change b.error.map warningText = some (warningText (msg i))
          rw [ht, msg_eq i b t hb ht]; rfl⟩
    · intro i j hi hj hij
      obtain ⟨c, hc, -, g1, g2, hQ⟩ := failing i hi
      obtain ⟨c', hc', -, g1', g2', hQ'⟩ := failing j hj
      have hij : msg i = msg j := List.append_cancel_left hij
      rw [hij] at hQ
      rw [ends_eq i c hc, ends_eq j c' hc']
      obtain ⟨e1, e2⟩ := C80_identifies fmtD hf other other A A hA hA E E allow allow hE hE c.1 c.2
        c'.1 c'.2 g1 g2 g1' g2' _ hQ hQ'
      exact Prod.ext e1 e2
    · intro t ht
      rcases (n5 t).1 ((n4 t).2 (Or.inr ht)) with h3 | ⟨b, hb, hbt⟩
      · exact absurd h3 (n3 t ht)
      · obtain ⟨i, hi, rfl⟩ := List.getElem_of_mem hb
        have hb' := List.getElem?_eq_getElem hi
        cases he : bs[i].error with
        | none => rw [he] at hbt; cases hbt
        | some u =>
          rw [he] at hbt
          cases hbt
          exact ⟨i, (none_iff i).2 ⟨_, u, hb', he⟩,
            (congrArg warningText (msg_eq i _ u hb' he)).symm⟩

/-- **C80** The same batch again is silent: whatever a batch returned and warned about, the same
call can return the same afterwards, `None` entries included, without a warning. -/
theorem C80_again_silent (fmtD : ℚ → List Char) (other : List Char) (A : Arith D) (E : Env)
    (qs : List ((ℚ × ℚ) × (ℚ × ℚ))) (allow : Bool) (w w' : Warned)
    (rs : List (Option (List (ℚ × ℚ))))
    (h : BatchInterpolateT fmtD other A E qs allow w (.ok (rs, w'))) :
    BatchInterpolateT fmtD other A E qs allow w' (.ok (rs, w')) := by
  have quiet : ∀ (bs : List BatchResultT) (v : Warned) (rs : List (Option (List (ℚ × ℚ)))),
      convertResults (bs.map BatchResultT.hush) = .ok rs →
      (∀ b ∈ bs, ∀ t, b.error = some t → warningText t ∈ v.registry) →
      reportResults bs v = .ok (rs, v) := by
    intro bs v
    induction bs with
    | nil => intro rs h _; cases h; rfl
    | cons b r ih =>
      intro rs h hb
      have hr : ∀ rest, convertResults (r.map BatchResultT.hush) = .ok rest →
          reportResults r v = .ok (rest, v) :=
        fun rest h => ih rest h fun x hx => hb x (List.mem_cons_of_mem _ hx)
      rw [List.map_cons] at h
      unfold convertResults at h
      unfold reportResults
      cases he : b.error with
      | some t =>
        have e1 : (BatchResultT.hush b).error.isSome = true := by simp [BatchResultT.hush, he]
        rw [if_pos e1] at h
        obtain ⟨rest, h1, h⟩ := bind_eq_ok h
        cases h
        have : v.warn (warningText t) = v := if_pos (hb b List.mem_cons_self t he)
        simp only
        rw [this, hr rest h1]
        rfl
      | none =>
        have e1 : ¬ (BatchResultT.hush b).error.isSome = true := by simp [BatchResultT.hush, he]
        have e2 : (BatchResultT.hush b).path = b.path := rfl
        rw [if_neg e1, e2] at h
        cases hp : b.path with
        | none => rw [hp] at h; cases h
        | some p =>
          rw [hp] at h
          obtain ⟨rest, h1, h⟩ := bind_eq_ok h
          cases h
          simp only
          rw [hr rest h1]
          rfl
  unfold BatchInterpolateT at h ⊢
  split at h
  · cases h
  · rename_i cs hcs
    obtain ⟨x, hx, h⟩ := h
    obtain ⟨bs, rfl, hbs⟩ := bind_eq_ok h.symm
    refine ⟨_, hx, ?_⟩
    obtain ⟨c1, new, -, -, -, -, n5⟩ := reportResults_ok hbs
    rw [Res.bind_ok]
    refine (quiet bs w' rs c1 fun b hb t ht => ?_).symm
    exact (n5 _).2 (Or.inr ⟨b, hb, by rw [ht]; rfl⟩)

/-- **C80** So a call can return `None` for a pair without any warning. -/
theorem C80_silent_false (fmtD : ℚ → List Char) (other : List Char) :
    ∃ (E : Env) (qs : List ((ℚ × ℚ) × (ℚ × ℚ))) (w : Warned) (rs : List (Option (List (ℚ × ℚ)))),
      BatchInterpolateT fmtD other (exactArith 1 none) E qs false w (.ok (rs, w)) ∧ none ∈ rs := by
  obtain ⟨x, h1, h2⟩ := (C80_same_batches fmtD other _ _ _ _ ⟨[], []⟩ _).1 exRejected_batch
  rcases x with f | ⟨rs, w⟩
  · cases h2
  · cases h2
    exact ⟨_, _, w, _, C80_again_silent fmtD other _ _ _ _ _ w _ h1, List.mem_cons_self⟩

/-! ### Cases -/

/-- The island of C42, with everything at latitude 50 on land. -/
def exMarked : Env := { exIsland with onLand := fun c => c.lat == 50 }

theorem exIsland_user : UserGraph exIsland.graph := by
  refine ⟨[exSquare], [.add ⟨0, 0⟩ ⟨10, 0⟩ false, .add ⟨10, 0⟩ ⟨10, 10⟩ false,
    .add ⟨10, 10⟩ ⟨0, 10⟩ false, .add ⟨0, 10⟩ ⟨0, 0⟩ false], ?_, ?_, rfl⟩
  · intro o ho
    simp only [List.mem_cons, List.not_mem_nil, or_false] at ho
    rcases ho with rfl | rfl | rfl | rfl <;> trivial
  · unfold OpsOn; decide

theorem exMarked_served : Served exMarked false where
  user := exIsland_user
  ord _ := List.Perm.refl _
  scans := ⟨[exSquare], by decide, rfl,
    fun _ => ⟨_, _, _, List.Perm.refl _, List.Perm.refl _, exLook_ok, rfl⟩⟩
  land h := by cases h

/-- A query that fails with the text about land. -/
theorem land_fails (fmtD : ℚ → List Char) (other : List Char) (A : Arith D) (E : Env)
    (s d ns nd : Coord) (hs : normalizeC s = .ok ns) (hd : normalizeC d = .ok nd)
    (h : E.onLand ns = true) :
    QueryT fmtD other A E s d false (.error (.exn (landText fmtD ns nd))) := by
  have hc : correctT fmtD other E ns nd false = .error (.exn (landText fmtD ns nd)) :=
    if_pos (by rw [h]; rfl)
  have hp : prepareT fmtD other E s d false = .error (.exn (landText fmtD ns nd)) := by
    unfold prepareT
    rw [hs, hd]
    change correctT fmtD other E ns nd false >>= _ = _
    rw [hc]
    rfl
  unfold QueryT
  rw [hp]

/-- The hypotheses of C80 are met. -/
example (fmtD : ℚ → List Char) (other : List Char) (A : Arith D) :
    Served exMarked false ∧ (⟨20, 50⟩ : Coord).Geo ∧
    QueryT fmtD other A exMarked ⟨20, 50⟩ ⟨30, 0⟩ false
      (.error (.exn (landText fmtD ⟨20, 50⟩ ⟨30, 0⟩))) :=
  ⟨exMarked_served, by decide, land_fails fmtD other A exMarked _ _ _ _
    (normalize_geo (by decide)) (normalize_geo (by decide)) rfl⟩

/-- **C80** Outside the range of geographic coordinates the text does not identify the endpoints:
the text about land names the normalised ones. -/
theorem C80_outside_false (fmtD : ℚ → List Char) (other : List Char) (A : Arith D) :
    ∃ (t : List Char) (s s' d : Coord), s ≠ s' ∧ s.I32 ∧ s'.I32 ∧
      QueryT fmtD other A exMarked s d false (.error (.exn t)) ∧
      QueryT fmtD other A exMarked s' d false (.error (.exn t)) := by
  refine ⟨landText fmtD ⟨-170000001, 50⟩ ⟨30, 0⟩, ⟨190000000, 50⟩, ⟨-170000001, 50⟩, ⟨30, 0⟩,
    by decide, by unfold Coord.I32; decide, by unfold Coord.I32; decide, ?_, ?_⟩
  · refine land_fails fmtD other A exMarked _ _ _ _ ?_ (normalize_geo (by decide)) rfl
    rw [normalizeC_eq _ (by decide)]
    decide
  · exact land_fails fmtD other A exMarked _ _ _ _ (normalize_geo (by decide))
      (normalize_geo (by decide)) rfl

/-- A triangle as Python shows it, for a `fmtD` that prints any double as `x`. -/
example : String.ofList (Polygon.text (fun _ => ['x']) [⟨0, 0⟩, ⟨1, 0⟩, ⟨0, 1⟩]) =
    "Polygon ((x,x), (x,x), (x,x))" := by decide +kernel

/-- One warning, and none for the same text again. -/
example : ((⟨[], []⟩ : Warned).warn ['a']).shown = [['a']] ∧
    (((⟨[], []⟩ : Warned).warn ['a']).warn ['a']).shown = [['a']] ∧
    (((⟨[], []⟩ : Warned).warn ['a']).warn ['b']).shown = [['a'], ['b']] := by decide

/-- **C80** When no coast is found near an endpoint on land, the query fails with a fixed text that
names nothing. -/
theorem C80_closest (fmtD : ℚ → List Char) (other : List Char) (A : Arith D) (E : Env)
    (s d : Coord) (hs : s.Geo) (hd : d.Geo)
    (h : (E.onLand s = true ∧ E.closest s = .error .exn) ∨
      (E.onLand s = false ∧ E.onLand d = true ∧ E.closest d = .error .exn))
    (r : Except Failure (List Coord)) :
    QueryT fmtD other A E s d true r ↔
      r = .error (.exn "No results found in closest_segment_to_point".toList) := by
  have hp : prepareT fmtD other E s d true = .error (.exn closestText) := by
    unfold prepareT
    rw [normalize_geo hs, normalize_geo hd]
    change correctT fmtD other E s d true >>= _ = _
    have : correctT fmtD other E s d true = .error (.exn closestText) := by
      unfold correctT correctOneT
      rw [if_neg (by simp)]
      rcases h with ⟨h1, h2⟩ | ⟨h1, h2, h3⟩
      · rw [if_pos h1, h2]; rfl
      · rw [if_neg (by rw [h1]; simp), if_pos h2, h3]; rfl
    rw [this]
    rfl
  unfold QueryT
  rw [hp]
  rfl

example (fmtD : ℚ → List Char) (other : List Char) (A : Arith D) :
    QueryT fmtD other A { exMarked with closest := fun _ => .error .exn } ⟨20, 50⟩ ⟨30, 0⟩ true
      (.error (.exn "No results found in closest_segment_to_point".toList)) :=
  (C80_closest fmtD other A _ _ _ (by decide) (by decide) (Or.inl ⟨rfl, rfl⟩) _).2 rfl

end Capi
