import Verif.Model.Text
import Verif.Lemmas.Merge
import Verif.Lemmas.AStar

/-!
# Helper lemmas about texts
-/

namespace Capi

open Graph

theorem text_inj {fmtD : ℚ → List Char} (hf : FmtOk fmtD) {c d : Coord} (hc : c.I32) (hd : d.I32)
    {s t : List Char} (h : c.text fmtD ++ s = d.text fmtD ++ t) : c = d ∧ s = t := by
  unfold Coord.text at h
  simp only [List.cons_append, List.append_assoc, List.cons.injEq, true_and] at h
  obtain ⟨h1, h⟩ := split_at (hf.clean _).1 (hf.clean _).1 h
  obtain ⟨h2, h⟩ := split_at (hf.clean _).2 (hf.clean _).2 h
  simp only [List.nil_append] at h
  refine ⟨?_, h⟩
  have e1 := deg_inj hf hc.1 hd.1 h1
  have e2 := deg_inj hf hc.2 hd.2 h2
  cases c; cases d
  simp_all

/-- The vertices with commas between them. -/
def Polygon.joined (fmtD : ℚ → List Char) : List Coord → List Char
  | [] => []
  | [c] => c.text fmtD
  | c :: d :: r => c.text fmtD ++ ([',', ' '] ++ Polygon.joined fmtD (d :: r))

theorem textLoop_eq (fmtD : ℚ → List Char) (n : ℕ) (hn : n < 2 ^ 64) (l : List Coord) (i : ℕ)
    (h : i + l.length = n) : Polygon.textLoop fmtD n i l = Polygon.joined fmtD l := by
  induction l generalizing i with
  | nil => rfl
  | cons c r ih =>
    have hmod : (n + (2 ^ 64 - 1)) % 2 ^ 64 = n - 1 := by
      simp only [List.length_cons] at h
      omega
    unfold Polygon.textLoop
    rw [hmod, ih (i + 1) (by simp only [List.length_cons] at h; omega)]
    cases r with
    | nil =>
      rw [if_neg (by simp only [List.length_cons, List.length_nil] at h; omega)]
      simp [Polygon.joined]
    | cons d r =>
      rw [if_pos (by simp only [List.length_cons] at h; omega)]
      rfl

theorem joined_inj {fmtD : ℚ → List Char} (hf : FmtOk fmtD) (l m : List Coord)
    (hl : ∀ c ∈ l, c.I32) (hm : ∀ c ∈ m, c.I32) {s t : List Char}
    (h : Polygon.joined fmtD l ++ ')' :: s = Polygon.joined fmtD m ++ ')' :: t) : l = m ∧ s = t := by
  induction l generalizing m with
  | nil =>
    match m with
    | [] => simpa [Polygon.joined] using h
    | [c] => simp [Polygon.joined, Coord.text] at h
    | c :: d :: r => simp [Polygon.joined, Coord.text] at h
  | cons c r ih =>
    cases m with
    | nil => cases r <;> simp [Polygon.joined, Coord.text] at h
    | cons d q =>
      have hc := hl c List.mem_cons_self
      have hd := hm d List.mem_cons_self
      cases r with
      | nil =>
        cases q with
        | nil =>
          obtain ⟨h1, h2⟩ := text_inj hf hc hd h
          exact ⟨by rw [h1], by simpa using h2⟩
        | cons e q =>
          unfold Polygon.joined at h
          rw [List.append_assoc] at h
          have := (text_inj hf hc hd h).2
          simp at this
      | cons e r =>
        cases q with
        | nil =>
          unfold Polygon.joined at h
          rw [List.append_assoc] at h
          have := (text_inj hf hc hd h).2
          simp at this
        | cons f q =>
          unfold Polygon.joined at h
          simp only [List.append_assoc] at h
          obtain ⟨h1, h2⟩ := text_inj hf hc hd h
          obtain ⟨h3, h4⟩ := ih (f :: q) (fun x hx => hl x (List.mem_cons_of_mem _ hx))
            (fun x hx => hm x (List.mem_cons_of_mem _ hx)) (List.append_cancel_left h2)
          exact ⟨by rw [h1, h3], h4⟩

/-! ### Forgetting the texts -/

theorem hush_say {α : Type} (t : List Char) (r : Res α) : Res.hush (Res.say t r) = r := by
  rcases r with (_ | _) | _ <;> rfl

theorem hush_bind {α β : Type} (x : Except Failure α) (f : α → Except Failure β) :
    Res.hush (x >>= f) = Res.hush x >>= fun a => Res.hush (f a) := by
  cases x <;> rfl

namespace ShortestPath

theorem correctOneT_hush (other : List Char) (E : Env) (v : Coord) :
    Res.hush (correctOneT other E v) = correctOne E v := by
  unfold correctOneT correctOne
  by_cases h : E.onLand v = true
  · rw [if_pos h, if_pos h, hush_bind, hush_say]
    congr 1
    funext s
    rw [hush_bind, hush_say]
    rfl
  · rw [if_neg h, if_neg h]
    rfl

theorem correctT_hush (fmtD : ℚ → List Char) (other : List Char) (E : Env) (s d : Coord)
    (allow : Bool) : Res.hush (correctT fmtD other E s d allow) = correct E s d allow := by
  unfold correctT correct
  by_cases h : (!allow && (E.onLand s || E.onLand d)) = true
  · rw [if_pos h, if_pos h]
    rfl
  · rw [if_neg h, if_neg h, hush_bind, correctOneT_hush]
    congr 1
    funext a
    rw [hush_bind, correctOneT_hush]
    rfl

theorem prepareT_hush (fmtD : ℚ → List Char) (other : List Char) (E : Env) (s d : Coord)
    (allow : Bool) : Res.hush (prepareT fmtD other E s d allow) = prepare E s d allow := by
  unfold prepareT prepare
  rw [hush_bind, hush_say]
  congr 1
  funext ns
  rw [hush_bind, hush_say]
  congr 1
  funext nd
  rw [hush_bind, correctT_hush]
  congr 1
  funext c
  by_cases h : (blocking E c).length = 0
  · rw [if_pos h, if_pos h]
    rfl
  · rw [if_neg h, if_neg h, hush_bind, hush_say]
    rfl

/-- Forget the node. -/
def forget {V : Type} : Except V (List V) → Res (List V)
  | .ok p => .ok p
  | .error _ => .error .exn

theorem followT_forget {V : Type} [DecidableEq V] (src : V) (prev : V → Option V) (k : ℕ) (c : V) :
    (followT src prev k c).map forget = AStar.follow src prev k c := by
  induction k generalizing c with
  | zero => rfl
  | succ k ih =>
    unfold followT AStar.follow
    by_cases hc : c = src
    · rw [if_pos hc, if_pos hc]; rfl
    · rw [if_neg hc, if_neg hc]
      cases prev c with
      | none => rfl
      | some d =>
        simp only
        rw [← ih d]
        rcases followT src prev k d with _ | (_ | _) <;> rfl

/-- Forget the text of a result. -/
def BatchResultT.hush (b : BatchResultT) : BatchResult := ⟨b.path, b.error.map fun _ => ()⟩

theorem slotT_hush (o : Except Failure (List Coord)) :
    (slotT o).map BatchResultT.hush = slot (Res.hush o) := by
  rcases o with (_ | _) | _ <;> rfl

theorem runBatchT_hush (outs : ℕ → Except Failure (List Coord)) (order : List ℕ)
    (acc : List BatchResultT) :
    (runBatchT outs order acc).map (fun bs => bs.map BatchResultT.hush) =
      runBatch (fun i => Res.hush (outs i)) order (acc.map BatchResultT.hush) := by
  induction order generalizing acc with
  | nil => rfl
  | cons i r ih =>
    unfold runBatchT runBatch
    rw [← slotT_hush]
    cases h : slotT (outs i) with
    | error f => rfl
    | ok b =>
      rw [Res.bind_ok, ih]
      change _ = runBatch _ r _
      congr 1
      exact List.map_set

theorem runBatchT_length {outs : ℕ → Except Failure (List Coord)} {order : List ℕ}
    {acc rs : List BatchResultT} (h : runBatchT outs order acc = .ok rs) :
    rs.length = acc.length := by
  induction order generalizing acc with
  | nil => cases h; rfl
  | cons i r ih =>
    unfold runBatchT at h
    cases hb : slotT (outs i) with
    | error f => rw [hb] at h; cases h
    | ok b =>
      rw [hb, Res.bind_ok] at h
      rw [ih h, List.length_set]

theorem runBatchT_other {outs : ℕ → Except Failure (List Coord)} {order : List ℕ}
    {acc rs : List BatchResultT} (h : runBatchT outs order acc = .ok rs) (j : ℕ) (hj : j ∉ order) :
    rs[j]? = acc[j]? := by
  induction order generalizing acc with
  | nil => cases h; rfl
  | cons i r ih =>
    unfold runBatchT at h
    cases hb : slotT (outs i) with
    | error f => rw [hb] at h; cases h
    | ok b =>
      rw [hb, Res.bind_ok] at h
      rw [List.mem_cons, not_or] at hj
      rw [ih h hj.2, List.getElem?_set_ne (fun e => hj.1 e.symm)]

theorem runBatchT_slot {outs : ℕ → Except Failure (List Coord)} {order : List ℕ}
    {acc rs : List BatchResultT} (hn : order.Nodup) (h : runBatchT outs order acc = .ok rs) (j : ℕ)
    (hj : j ∈ order) (hl : j < acc.length) :
    ∃ b, slotT (outs j) = .ok b ∧ rs[j]? = some b := by
  induction order generalizing acc with
  | nil => cases hj
  | cons i r ih =>
    unfold runBatchT at h
    cases hb : slotT (outs i) with
    | error f => rw [hb] at h; cases h
    | ok b =>
      rw [hb, Res.bind_ok] at h
      rw [List.nodup_cons] at hn
      rcases List.mem_cons.1 hj with rfl | hj
      · exact ⟨b, hb, by rw [runBatchT_other h j hn.1, List.getElem?_set_self hl]⟩
      · exact ih hn.2 h hj (by rwa [List.length_set])

end ShortestPath

namespace Frontend

open ShortestPath

theorem warn_cases (w : Warned) (t : List Char) :
    (t ∈ w.registry ∧ w.warn t = w) ∨
      (t ∉ w.registry ∧ w.warn t = ⟨t :: w.registry, w.shown ++ [t]⟩) := by
  unfold Warned.warn
  by_cases h : t ∈ w.registry
  · exact Or.inl ⟨h, if_pos h⟩
  · exact Or.inr ⟨h, if_neg h⟩

/-- What the loop does to the warnings. -/
theorem reportResults_ok {bs : List BatchResultT} {w w' : Warned}
    {rs : List (Option (List (ℚ × ℚ)))} (h : reportResults bs w = .ok (rs, w')) :
    convertResults (bs.map BatchResultT.hush) = .ok rs ∧
    (∃ new, w'.shown = w.shown ++ new ∧ new.Nodup ∧ (∀ t ∈ new, t ∉ w.registry) ∧
      (∀ t, t ∈ w'.registry ↔ t ∈ w.registry ∨ t ∈ new) ∧
      (∀ t, t ∈ w'.registry ↔ t ∈ w.registry ∨ ∃ b ∈ bs, b.error.map warningText = some t)) := by
  induction bs generalizing w rs with
  | nil =>
    cases h
    exact ⟨rfl, [], by simp, List.nodup_nil, by simp, by simp, by simp⟩
  | cons b r ih =>
    unfold reportResults at h
    cases he : b.error with
    | some t =>
      rw [he] at h
      simp only at h
      cases hr : reportResults r (w.warn (warningText t)) with
      | error f => rw [hr] at h; cases h
      | ok x =>
        obtain ⟨rest, w1⟩ := x
        rw [hr] at h
        cases h
        obtain ⟨h1, new, h2, h3, h4, h5, h6⟩ := ih hr
        refine ⟨?_, ?_⟩
        · rw [List.map_cons]
          unfold convertResults
          have : (BatchResultT.hush b).error.isSome = true := by
            simp [BatchResultT.hush, he]
          rw [if_pos this, h1]
          rfl
        · rcases warn_cases w (warningText t) with ⟨g1, g2⟩ | ⟨g1, g2⟩
          · rw [g2] at h2 h4 h5 h6
            refine ⟨new, h2, h3, h4, h5, fun u => ?_⟩
            rw [h6 u]
            constructor
            · rintro (h | ⟨x, hx, hu⟩)
              · exact Or.inl h
              · exact Or.inr ⟨x, List.mem_cons_of_mem _ hx, hu⟩
            · rintro (h | ⟨x, hx, hu⟩)
              · exact Or.inl h
              · rcases List.mem_cons.1 hx with rfl | hx
                · rw [he] at hu
                  cases hu
                  exact Or.inl g1
                · exact Or.inr ⟨x, hx, hu⟩
          · rw [g2] at h2 h4 h5 h6
            simp only [List.mem_cons] at h4 h5 h6
            refine ⟨warningText t :: new, h2.trans (by simp), ?_, ?_, ?_, fun u => ?_⟩
            · exact List.nodup_cons.2 ⟨fun h => h4 _ h (Or.inl rfl), h3⟩
            · intro u hu
              rcases List.mem_cons.1 hu with rfl | hu
              · exact g1
              · exact fun h => h4 _ hu (Or.inr h)
            · intro u
              rw [h5 u, List.mem_cons]
              tauto
            · rw [h6 u]
              constructor
              · rintro ((rfl | h) | ⟨x, hx, hu⟩)
                · exact Or.inr ⟨b, List.mem_cons_self, by rw [he]; rfl⟩
                · exact Or.inl h
                · exact Or.inr ⟨x, List.mem_cons_of_mem _ hx, hu⟩
              · rintro (h | ⟨x, hx, hu⟩)
                · exact Or.inl (Or.inr h)
                · rcases List.mem_cons.1 hx with rfl | hx
                  · rw [he] at hu
                    cases hu
                    exact Or.inl (Or.inl rfl)
                  · exact Or.inr ⟨x, hx, hu⟩
    | none =>
      rw [he] at h
      simp only at h
      cases hp : b.path with
      | none => rw [hp] at h; cases h
      | some p =>
        rw [hp] at h
        simp only at h
        cases hr : reportResults r w with
        | error f => rw [hr] at h; cases h
        | ok x =>
          obtain ⟨rest, w1⟩ := x
          rw [hr] at h
          cases h
          obtain ⟨h1, new, h2, h3, h4, h5, h6⟩ := ih hr
          refine ⟨?_, new, h2, h3, h4, h5, fun u => ?_⟩
          · rw [List.map_cons]
            unfold convertResults
            have e1 : ¬ (BatchResultT.hush b).error.isSome = true := by
              simp [BatchResultT.hush, he]
            have e2 : (BatchResultT.hush b).path = some p := hp
            rw [if_neg e1, e2, h1]
            rfl
          · rw [h6 u]
            constructor
            · rintro (h | ⟨x, hx, hu⟩)
              · exact Or.inl h
              · exact Or.inr ⟨x, List.mem_cons_of_mem _ hx, hu⟩
            · rintro (h | ⟨x, hx, hu⟩)
              · exact Or.inl h
              · rcases List.mem_cons.1 hx with rfl | hx
                · rw [he] at hu; cases hu
                · exact Or.inr ⟨x, hx, hu⟩

end Frontend

end Capi
