import Verif.Lemmas.Concurrency

/-!
# C22–C23 — concurrent use of one graph

Any number of threads, any programs of calls, any schedule, and any mutex that turns readers
away only while a writer waits.
-/

namespace Capi

open Conc

/-- C22: in every reachable state somebody can make a step, unless everybody is finished. -/
theorem C22_no_deadlock (n N : ℕ) (mem : ℕ → BitVec 8) (prog : Fin N → List Call)
    (hv : ∀ t, ∀ c ∈ prog t, c.Valid n) (refuse : State N → Fin N → Prop) (hp : Policy refuse)
    (ts : List (Fin N)) (σ : State N) (h : Exec n refuse (start mem prog) ts σ)
    (hn : ¬ σ.finished) : ∃ t σ', Step n refuse σ t σ' :=
  progress hp (Inv.exec hv h) hn

/-- C22: no execution is longer than the sum of a fixed cost per call (two steps, two per lock
and one per cell read), so every execution can be continued until everybody is finished and no
execution goes on forever. -/
theorem C22_terminates (n N : ℕ) (mem : ℕ → BitVec 8) (prog : Fin N → List Call)
    (hv : ∀ t, ∀ c ∈ prog t, c.Valid n) (refuse : State N → Fin N → Prop)
    (ts : List (Fin N)) (σ : State N) (h : Exec n refuse (start mem prog) ts σ) :
    ts.length ≤ ∑ t, ((prog t).map fun c => 2 + 2 * c.locks.length + (c.cells n).length).sum := by
  have key : ts.length + σ.cost n ≤ (start mem prog).cost n := by
    induction h with
    | nil => simp
    | snoc he hs ih =>
      have := step_cost (Inv.exec hv he) hs
      rw [List.length_append, List.length_singleton]
      omega
  calc ts.length ≤ (start mem prog).cost n := by omega
    _ = _ := by
      unfold State.cost start Th.cost Call.cost
      simp

/-- Refusing readers whenever a writer waits is an admissible policy. -/
example : Policy (N := 3) fun σ t => ∃ l s, s ≠ t ∧ (σ.th t).phase.wants = some (l, false) ∧
    (σ.th s).phase.wants = some (l, true) := fun _ _ h => h

/-- So is never refusing. -/
example : Policy (N := 3) fun _ _ => False := fun _ _ h => h.elim

/-- C23: no cell is accessed by two threads at once if one of them writes: when one thread is
about to store into a cell, no other thread is about to read or to store there. -/
theorem C23_race_free (n N : ℕ) (mem : ℕ → BitVec 8) (prog : Fin N → List Call)
    (hv : ∀ t, ∀ c ∈ prog t, c.Valid n) (refuse : State N → Fin N → Prop)
    (ts : List (Fin N)) (σ : State N) (h : Exec n refuse (start mem prog) ts σ)
    (s t : Fin N) (hst : s ≠ t) (c d : Call) (acc acc' : List (BitVec 8)) (x : ℕ) (v : BitVec 8)
    (hs : (σ.th s).phase = .reading c acc) (ht : (σ.th t).phase = .reading d acc')
    (hw : c.store n acc = some (x, v)) :
    (d.cells n)[acc'.length]? ≠ some x ∧ ∀ w, d.store n acc' ≠ some (x, w) := by
  have hi := Inv.exec hv h
  have hcv := (hi.ok s).phase
  have hdv := (hi.ok t).phase
  rw [hs] at hcv
  rw [ht] at hdv
  have key : ¬ (x ∈ d.cells n ∨ ∃ acc' w, d.store n acc' = some (x, w)) := by
    intro hx
    obtain ⟨he, l, h1, h2⟩ := Call.guard hcv.1 hdv.1 hw hx
    have := hi.excl s t hst l true d.exclusive
      (by rw [hs]; exact List.mem_map.2 ⟨l, h1, by rw [he]⟩)
      (by rw [ht]; exact List.mem_map.2 ⟨l, h2, rfl⟩)
    simp at this
  exact ⟨fun e => key (Or.inl (List.mem_of_getElem? e)), fun w e => key (Or.inr ⟨_, w, e⟩)⟩

/-- C23: every execution is equivalent to a sequential one.  Performing the calls of the log one
after the other, every call reads the values it read in the execution and the cells end up the
same; and the log contains, for every thread, the calls it has completed, in its order.  When
everybody is finished these are all calls. -/
theorem C23_linearizable (n N : ℕ) (mem : ℕ → BitVec 8) (prog : Fin N → List Call)
    (hv : ∀ t, ∀ c ∈ prog t, c.Valid n) (refuse : State N → Fin N → Prop)
    (ts : List (Fin N)) (σ : State N) (h : Exec n refuse (start mem prog) ts σ) :
    Replays n mem σ.log ∧ σ.mem = runAll n mem (σ.log.map fun e => e.2.1) ∧
    (∀ t, callsOf σ.log t <+: prog t) ∧ (σ.finished → ∀ t, callsOf σ.log t = prog t) := by
  have hi := Inv.exec hv h
  refine ⟨hi.replay, hi.mem, fun t => ?_, fun hf t => ?_⟩
  · rw [← hi.prog t, List.append_assoc]; exact List.prefix_append _ _
  · rw [← hi.prog t, hf t]; simp [Phase.current]

/-- C23: the graph reached by threads adding edges concurrently is the one reached by performing
all additions one after the other, in any order whatsoever. -/
theorem C23_schedule_independent (N : ℕ) (g : Graph) (hs : g.Shape)
    (prog : Fin N → List Graph.Op) (hadd : ∀ t, ∀ o ∈ prog t, o.isAdd)
    (hon : ∀ t, OpsOn g.verts (prog t)) (refuse : State N → Fin N → Prop)
    (ts : List (Fin N)) (σ : State N)
    (h : Exec g.num refuse (start (memOf g) fun t => opsCalls g (prog t)) ts σ)
    (hf : σ.finished) (ops : List Graph.Op) (hops : ops.Perm (List.ofFn prog).flatten) :
    g.run ops = .ok (withMem g σ.mem) := by
  have hmem : ∀ o ∈ ops, ∃ t, o ∈ prog t := by
    intro o ho
    obtain ⟨l, hl, hol⟩ := List.mem_flatten.1 (hops.mem_iff.1 ho)
    obtain ⟨t, rfl⟩ := (List.mem_ofFn' _ _).1 hl
    exact ⟨t, hol⟩
  rw [run_mem hs ops fun o ho => (hmem o ho).elim fun t ht => hon t o ht]
  obtain ⟨_, h2, _, h4⟩ := C23_linearizable g.num N (memOf g) _
    (fun t => opsCalls_valid hs (prog t)) refuse ts σ h
  rw [h2]
  congr 2
  refine runAll_perm ?_ ?_ _
  · refine List.Perm.trans ?_ (log_perm (h4 hf)).symm
    refine (hops.flatMap_right _).trans (List.Perm.of_eq ?_)
    rw [List.flatMap_def, List.map_flatten, List.flatten_flatten, List.map_ofFn, List.map_ofFn]
    rfl
  · intro c hc
    obtain ⟨o, ho, hco⟩ := List.mem_flatMap.1 hc
    obtain ⟨t, ht⟩ := hmem o ho
    have := hadd t o ht
    cases o with
    | add a b m =>
      rcases List.mem_append.1 hco with h1 | h1 <;> exact directed_add h1
    | addDir a b m => exact directed_add hco
    | remove a b => exact this.elim
    | removeDir a b => exact this.elim

/-- Non-vacuity of C23: two threads add the same edge, one of them as crossing the meridian; an
interleaved execution in which the second thread has to wait for the first. -/
example :
    let g := Graph.ofPolygons [[⟨0, 0⟩, ⟨1, 0⟩, ⟨0, 1⟩]]
    let prog : Fin 2 → List Graph.Op :=
      ![[.add ⟨0, 0⟩ ⟨1, 0⟩ true], [.add ⟨1, 0⟩ ⟨0, 0⟩ false, .addDir ⟨0, 0⟩ ⟨0, 1⟩ false]]
    let σ0 := start (memOf g) fun t => opsCalls g (prog t)
    let ts : List (Fin 2) := [0, 1, 0, 0, 0, 0, 0, 0, 1, 1, 1, 0, 1, 1, 1] ++ List.replicate 6 0 ++
      List.replicate 14 1
    (σ0.runSchedule g.num ts).map (fun σ => (σ.th 0, σ.th 1)) = some (⟨[], .idle⟩, ⟨[], .idle⟩) ∧
    (σ0.runSchedule g.num [0, 1, 0, 1]).isNone := by
  decide +kernel

/-- C23: what the calls answer from the values they read (`C23_linearizable` says which values
these are) is what the sequential operations answer. -/
theorem C23_answers (g : Graph) (hs : g.Shape) (a b : Coord) (hab : a ≠ b) (i j : ℕ)
    (hi : g.idx a = some i) (hj : g.idx b = some j) :
    g.hasEdge a b = .ok ((alone g.num (memOf g) (.query i j)).headD 0 != 0) ∧
    g.isCrossing a b = .ok ((alone g.num (memOf g) (.query i j)).headD 0 == 2) ∧
    g.neighbors b = .ok (((alone g.num (memOf g) (.row j)).zip g.verts).filterMap fun p =>
      if p.1 != 0 then some p.2 else none) := by
  have ha : a ∈ g.verts := (hs.dom a).1 (by simp [hi])
  have hb : b ∈ g.verts := (hs.dom b).1 (by simp [hj])
  have hq : (alone g.num (memOf g) (.query i j)).headD 0 = g.bits a b := by
    simp [alone, Call.cells, Graph.bits, hi, hj, memOf]
  refine ⟨?_, ?_, ?_⟩
  · rw [hq, Graph.hasEdge_ok hs ha hb, bne_iff_ne.2 hab, Bool.true_and]
  · rw [hq, Graph.isCrossing_ok hs ha hb, bne_iff_ne.2 hab, Bool.true_and]
  · obtain ⟨j', ns, hj', _, hn, hns⟩ := Graph.neighbors_ok hs hb
    rw [hj] at hj'
    obtain rfl := Option.some.inj hj'
    rw [hn, hns]
    congr 1
    have hz : (alone g.num (memOf g) (.row j)).zip g.verts =
        (List.range g.num).map fun o => (g.cells.getD (o + g.num * j) 0, g.verts.getD o ⟨0, 0⟩) := by
      apply List.ext_getElem
      · simp [alone, Call.cells, hs.verts]
      · intro k h1 h2
        have hk : k < g.verts.length := by
          rw [List.length_map, List.length_range] at h2; rw [hs.verts]; exact h2
        simp [alone, Call.cells, memOf, List.getD_eq_getElem?_getD, List.getElem?_eq_getElem hk,
          Nat.mul_comm]
    rw [hz, List.filterMap_map]
    apply List.filterMap_congr
    intro o ho
    have hk : o < g.verts.length := by rw [hs.verts]; exact List.mem_range.1 ho
    simp only [Function.comp, bne_iff_ne, ne_eq, List.getElem?_eq_getElem hk,
      List.getD_eq_getElem?_getD, Option.getD_some]

/-- C23: adding an edge is not atomic as far as the two directions are concerned: another thread
can see `a → b` present and afterwards `b → a` absent. -/
theorem C23_undirected_atomic_false :
    ∃ (ts : List (Fin 2)) (σ : State 2),
      Exec 2 (fun _ _ => False) (start (fun _ => 0)
        ![[.add 0 1 false, .add 1 0 false], [.query 0 1, .query 1 0]]) ts σ ∧ σ.finished ∧
      σ.log.map (fun e => (e.1, e.2.2)) = [(0, [0]), (1, [1]), (1, [0]), (0, [0])] := by
  let ts : List (Fin 2) := List.replicate 7 0 ++ List.replicate 14 1 ++ List.replicate 7 0
  let σ0 : State 2 := start (fun _ => 0)
    ![[.add 0 1 false, .add 1 0 false], [.query 0 1, .query 1 0]]
  have hsome : (σ0.runSchedule 2 ts).isSome := by decide +kernel
  obtain ⟨σ, hσ⟩ := Option.isSome_iff_exists.1 hsome
  refine ⟨ts, σ, runSchedule_exec hσ, ?_, ?_⟩
  · have h1 : (σ0.runSchedule 2 ts).map (fun σ => (σ.th 0, σ.th 1)) =
        some (⟨[], .idle⟩, ⟨[], .idle⟩) := by decide +kernel
    rw [hσ] at h1
    have h2 := Prod.mk.injEq _ _ _ _ ▸ Option.some.inj h1
    exact Fin.forall_fin_two.2 h2
  · have h1 : (σ0.runSchedule 2 ts).map (fun σ => σ.log.map (fun e => (e.1, e.2.2))) =
        some [(0, [0]), (1, [1]), (1, [0]), (0, [0])] := by decide +kernel
    rw [hσ] at h1
    exact Option.some.inj h1

end Capi
