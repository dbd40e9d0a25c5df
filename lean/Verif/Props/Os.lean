import Verif.Lemmas.Os
import Verif.Props.Merge
import Verif.Props.Serializer

/-!
# C78: failing system calls
-/

namespace Capi

open Serial Polygon

/-- **C78** A save that returns has written the whole file and has given back its descriptors. -/
theorem C78_done (g : Graph) (hg : UserGraph g) (limit : ℕ) (s : Os.Sys) (p : Os.Proc)
    (h : (Os.save limit s g p).1 = .ok ()) :
    ∃ b, Serial.save g (p.file.getD []) = .ok b ∧ (Os.save limit s g p).2 = ⟨some b, p.fds⟩ := by
  rcases Os.save_cases hg limit s p with ⟨-, e⟩ | ⟨-, -, e⟩ | ⟨-, -, e⟩ | ⟨-, -, e⟩ |
    ⟨-, -, -, -, -, -, -, b, hb, e⟩ <;> rw [e] at h ⊢
  · cases h
  · cases h
  · cases h
  · cases h
  · by_cases hl : (storeAt 0 (encode g)).length ≤ s.room
    · exact ⟨b, by rw [← Os.crashed_full hg _ _ hl, hb], rfl⟩
    · simp [hl] at h

/-- **C78** A save during which nothing fails returns. -/
theorem C78_works (g : Graph) (hg : UserGraph g) (limit : ℕ) (p : Os.Proc) (hp : p.fds < limit)
    (room : ℕ) (k : ℕ) (hk : countCrossing g = .ok k) (hr : fileSize g k ≤ room) :
    (Os.save limit ⟨true, true, true, true, true, true, room, true⟩ g p).1 = .ok () := by
  have hb := hg.regular.built
  rw [countCrossing_ok hb.shape] at hk
  obtain rfl := Except.ok.inj hk
  have := encode_le hb
  rcases Os.save_cases hg limit ⟨true, true, true, true, true, true, room, true⟩ p with
    ⟨h, -⟩ | ⟨-, h, -⟩ | ⟨-, h, -⟩ | ⟨-, h, -⟩ | ⟨-, -, -, -, -, -, -, b, hb, e⟩
  · simp at h; omega
  · cases h
  · simp at h
  · simp at h
  · rw [e]
    simp only
    rw [if_pos (by rw [storeAt_length]; omega)]
    rfl

/-- **C78** A save that does not return leaves one of these behind: everything as it was; an empty file
in place of none; a file of the right size with the old contents and zeros; the whole graph, although
an exception says otherwise; or, after a full disk killed the process, a file as after a crash. -/
theorem C78_raised (g : Graph) (hg : UserGraph g) (limit : ℕ) (s : Os.Sys) (p q : Os.Proc)
    (e : Os.Stop) (h : Os.save limit s g p = (.error e, q)) :
    (e = .fault .exn ∧
      ((s.openNew = false ∨ limit ≤ p.fds) ∧ q = p ∨
       s.truncate = false ∧ q = ⟨some (p.file.getD []), p.fds + 1⟩ ∨
       (∃ b, crashedSave g (p.file.getD []) 0 = .ok b ∧ q.file = some b ∧
          ((s.close = false ∨ s.openMap = false) ∧ q.fds = p.fds ∨
           (s.stat = false ∨ s.mmap = false) ∧ q.fds = p.fds + 1)) ∨
       s.sync = false ∧ ∃ b, Serial.save g (p.file.getD []) = .ok b ∧ q = ⟨some b, p.fds⟩)) ∨
    (e = .killed ∧ ∃ b, crashedSave g (p.file.getD []) s.room = .ok b ∧ q = ⟨some b, p.fds⟩ ∧
      ∃ k, countCrossing g = .ok k ∧ s.room < fileSize g k) := by
  have hb := hg.regular.built
  have h0 : crashedSave g (p.file.getD []) 0 =
      .ok (allocate (p.file.getD []) (fileSize g (crossCount g))) := by
    rw [crashedSave_ok hb]; rfl
  have hle := encode_le hb
  rcases Os.save_cases hg limit s p with ⟨c, i⟩ | ⟨-, c, i⟩ | ⟨-, c, i⟩ | ⟨-, c, i⟩ |
    ⟨-, -, -, -, -, -, -, b, hb1, i⟩ <;> rw [h, Prod.mk.injEq] at i <;> obtain ⟨i1, rfl⟩ := i
  · cases i1; exact Or.inl ⟨rfl, Or.inl ⟨c, rfl⟩⟩
  · cases i1; exact Or.inl ⟨rfl, Or.inr (Or.inl ⟨c, rfl⟩)⟩
  · cases i1; exact Or.inl ⟨rfl, Or.inr (Or.inr (Or.inl ⟨_, h0, rfl, Or.inl ⟨c, rfl⟩⟩))⟩
  · cases i1; exact Or.inl ⟨rfl, Or.inr (Or.inr (Or.inl ⟨_, h0, rfl, Or.inr ⟨c, rfl⟩⟩))⟩
  · by_cases hl : (storeAt 0 (encode g)).length ≤ s.room
    · rw [if_pos hl] at i1
      cases hs : s.sync with
      | true => rw [hs] at i1; cases i1
      | false =>
        rw [hs] at i1
        cases i1
        rw [Os.crashed_full hg _ _ hl] at hb1
        exact Or.inl ⟨rfl, Or.inr (Or.inr (Or.inr ⟨rfl, b, hb1, rfl⟩))⟩
    · rw [if_neg hl] at i1
      cases i1
      refine Or.inr ⟨rfl, b, hb1, rfl, _, countCrossing_ok hb.shape, ?_⟩
      rw [storeAt_length] at hl
      omega

/-- **C78** (false) One would expect that after an exception there is no graph to be loaded.  But if
the mapping fails, the new file loads as a graph without polygons, whatever graph was to be saved. -/
theorem C78_left_false (T : ℕ → SumTree) (g : Graph) (hg : UserGraph g) (limit fds : ℕ)
    (hf : fds + 1 < limit) :
    ∃ s : Os.Sys, ∃ q, Os.save limit s g ⟨none, fds⟩ = (.error (.fault .exn), q) ∧
      ∀ s' : Os.Sys, s'.openMap = true → s'.stat = true → s'.mmap = true →
        ∃ g', (Os.load limit s' T q).1 = .ok g' ∧ g'.polygons = [] := by
  have hb := hg.regular.built
  obtain ⟨b, g', h1, h2, h3, -⟩ := C31_after_allocation_false T g hg
  rw [crashedSave_ok hb] at h1
  simp only [List.take_zero, List.nil_append, List.length_nil, List.drop_zero] at h1
  obtain rfl := Except.ok.inj h1
  refine ⟨⟨true, true, true, true, true, false, 0, true⟩,
    ⟨some (allocate [] (fileSize g (crossCount g))), fds + 1⟩, ?_, fun s' e1 e2 e3 => ⟨g', ?_, h3⟩⟩
  · rw [Os.save_eq hg]
    have : fds < limit := by omega
    simp [Os.allocateFile, Os.mapFile, this]
  · unfold Os.load Os.mapFile
    simp only
    rw [if_pos ⟨e1, hf⟩, if_pos ⟨e2, e3, Os.allocate_ne g []⟩]
    simp only [h2]

/-- **C78** (false) A full disk is not reported: the process is killed, and the new file it leaves
loads as a graph without polygons. -/
theorem C78_full_disk_false (T : ℕ → SumTree) (g : Graph) (hg : UserGraph g) (limit fds : ℕ)
    (hf : fds < limit) :
    ∃ s : Os.Sys, s.openNew = true ∧ s.truncate = true ∧ s.close = true ∧ s.openMap = true ∧
      s.stat = true ∧ s.mmap = true ∧ ∃ b, (Os.save limit s g ⟨none, fds⟩).1 = .error .killed ∧
        (Os.save limit s g ⟨none, fds⟩).2.file = some b ∧
        ∃ g', Serial.load T b = .ok g' ∧ g'.polygons = [] := by
  have hb := hg.regular.built
  obtain ⟨b, g', h1, h2, h3, -⟩ := C31_after_allocation_false T g hg
  refine ⟨⟨true, true, true, true, true, true, 0, true⟩, rfl, rfl, rfl, rfl, rfl, rfl, ?_⟩
  have hpos : ¬ (storeAt 0 (encode g)).length ≤ 0 := by
    rw [storeAt_length]
    have := encode_length g
    omega
  rcases Os.save_cases hg limit ⟨true, true, true, true, true, true, 0, true⟩ ⟨none, fds⟩ with
    ⟨h, -⟩ | ⟨-, h, -⟩ | ⟨-, h, -⟩ | ⟨-, h, -⟩ | ⟨-, -, -, -, -, -, -, b', hb', e⟩
  · simp at h; omega
  · cases h
  · simp at h
  · simp at h
  · have : b' = b := by
      have := hb'.symm.trans h1
      exact Except.ok.inj this
    subst this
    rw [e]
    exact ⟨b', by simp only; rw [if_neg hpos], rfl, g', h2, h3⟩

/-- **C78** A load gives back its descriptor unless the mapping fails, and never changes the file. -/
theorem C78_load (T : ℕ → SumTree) (limit : ℕ) (s : Os.Sys) (p : Os.Proc) :
    (Os.load limit s T p).2.file = p.file ∧
    ((Os.load limit s T p).2.fds = p.fds ∨
      (Os.load limit s T p).1 = .error (.fault .exn) ∧ (Os.load limit s T p).2.fds = p.fds + 1 ∧
        p.fds < limit ∧ (s.stat = false ∨ s.mmap = false ∨ p.file = some [])) := by
  obtain ⟨f, n⟩ := p
  unfold Os.load Os.mapFile
  cases f with
  | none => simp
  | some b =>
    simp only
    by_cases h1 : s.openMap = true ∧ n < limit
    · rw [if_pos h1]
      by_cases h2 : s.stat = true ∧ s.mmap = true ∧ b ≠ []
      · rw [if_pos h2]
        simp
      · rw [if_neg h2]
        refine ⟨rfl, Or.inr ⟨rfl, rfl, h1.2, ?_⟩⟩
        by_contra hc
        push Not at hc
        exact h2 ⟨by simpa using hc.1, by simpa using hc.2.1, fun h => hc.2.2 (by rw [h])⟩
    · rw [if_neg h1]
      simp

/-- **C78** A load during which nothing fails gives what is in the file (`Serial.load`), and an
exception for a missing or an empty file. -/
theorem C78_load_result (T : ℕ → SumTree) (limit : ℕ) (s : Os.Sys) (p : Os.Proc)
    (h1 : s.openMap = true) (h2 : s.stat = true) (h3 : s.mmap = true) (h4 : p.fds < limit) :
    (∀ b g, p.file = some b → (Serial.load T b = .ok g ↔ (Os.load limit s T p).1 = .ok g)) ∧
    (p.file = none ∨ p.file = some [] → (Os.load limit s T p).1 = .error (.fault .exn)) := by
  obtain ⟨f, n⟩ := p
  constructor
  · rintro b g rfl
    unfold Os.load Os.mapFile
    simp only at h4 ⊢
    rw [if_pos ⟨h1, h4⟩]
    by_cases hb : b = []
    · subst hb
      rw [if_neg fun h => h.2.2 rfl]
      simp [Serial.load]
    · rw [if_pos ⟨h2, h3, hb⟩]
      simp only
      cases Serial.load T b <;> simp
  · rintro (rfl | rfl)
    · rfl
    · unfold Os.load Os.mapFile
      simp only at h4 ⊢
      rw [if_pos ⟨h1, h4⟩, if_neg fun h => h.2.2 rfl]

example : (Os.load 10 ⟨true, true, true, true, true, true, 0, true⟩ SumTree.sequential
    ⟨some [], 3⟩).1 = .error (.fault .exn) :=
  (C78_load_result _ _ _ _ rfl rfl rfl (by decide)).2 (Or.inr rfl)

/-- **C78** (false) One would expect that failing to load a file does no harm.  But after enough
attempts to load an empty file the process can neither load nor save any graph. -/
theorem C78_leak_false (T : ℕ → SumTree) (limit fds : ℕ) (hf : fds ≤ limit) (s : Os.Sys)
    (hs : s.openMap = true) :
    (Os.loads limit s T ⟨some [], fds⟩ (limit - fds)).fds = limit ∧
      ∀ (s' : Os.Sys) (file : Option Buf),
        (Os.load limit s' T ⟨file, limit⟩).1 = .error (.fault .exn) ∧
        ∀ g, UserGraph g → (Os.save limit s' g ⟨file, limit⟩).1 = .error (.fault .exn) := by
  constructor
  · obtain ⟨d, rfl⟩ := Nat.exists_eq_add_of_le hf
    rw [Nat.add_sub_cancel_left]
    induction d generalizing fds with
    | zero => rfl
    | succ d ih =>
      have e : Os.load (fds + (d + 1)) s T ⟨some [], fds⟩ = (.error (.fault .exn), ⟨some [], fds + 1⟩) := by
        unfold Os.load Os.mapFile
        simp [hs]
      unfold Os.loads
      rw [e]
      have := ih (fds + 1) (by omega)
      rw [show fds + 1 + d = fds + (d + 1) by omega] at this
      exact this
  · intro s' file
    constructor
    · unfold Os.load Os.mapFile
      cases file with
      | none => rfl
      | some b => simp
    · intro g hg
      rcases Os.save_cases hg limit s' ⟨file, limit⟩ with ⟨-, e⟩ | ⟨h, -⟩ | ⟨h, -⟩ | ⟨h, -⟩ | ⟨h, -⟩
      · rw [e]
      all_goals simp at h

/-- **C78** (false) One would expect that a part of a graph that could not be saved is missed when the
parts are merged.  But merging succeeds, with the answers of the other parts. -/
theorem C78_merge_false (T : ℕ → SumTree) (g : Graph) (hg : UserGraph g) :
    ∃ b g0, crashedSave g [] 0 = .ok b ∧ Serial.load T b = .ok g0 ∧
      ∀ (gs : List Graph) (ps : List (List Coord)) (sch : List Graph.Op → List Graph.Op),
        (∀ h ∈ gs, h.Built) → Graph.MergeOrder gs ps → (∀ l, (sch l).Perm l) →
        Graph.MergeOrder (g0 :: gs) ps ∧
        ∃ G G', Graph.merge ps sch gs = .ok G ∧ Graph.merge ps sch (g0 :: gs) = .ok G' ∧
          SameAnswers G G' := by
  have hu : UserGraph (Graph.ofPolygons []) := ⟨_, [], by simp, by unfold OpsOn; simp, rfl⟩
  have h0 : ∀ a b, (Graph.ofPolygons []).hasEdge a b ≠ .ok true := fun a b h =>
    absurd (Graph.hasEdge_true_mem hu.regular.built.shape h).1 List.not_mem_nil
  refine ⟨_, Graph.ofPolygons [], crashedSave_ok hg.regular.built [] 0, load_allocated T g,
    fun gs ps sch hb hp hs => ?_⟩
  have hb' : ∀ h ∈ Graph.ofPolygons [] :: gs, h.Built := by
    intro h hh
    rcases List.mem_cons.1 hh with rfl | hh
    · exact hu.regular.built
    · exact hb h hh
  have hp' : Graph.MergeOrder (Graph.ofPolygons [] :: gs) ps := by
    refine ⟨hp.1, fun p => (hp.2 p).trans ?_⟩
    rw [List.exists_mem_cons_iff]
    exact ⟨Or.inr, fun h => h.resolve_left List.not_mem_nil⟩
  obtain ⟨G, a1, _, a2, a3⟩ := C24_union gs ps sch hb hp hs
  obtain ⟨G', b1, _, b2, b3⟩ := C24_union _ ps sch hb' hp' hs
  obtain ⟨_, K, _, k1, _, _, k2, _⟩ := Graph.merge_ok hb hp hs
  obtain ⟨_, K', _, k1', _, _, k2', _⟩ := Graph.merge_ok hb' hp' hs
  rw [a1] at k1; obtain rfl := Except.ok.inj k1
  rw [b1] at k1'; obtain rfl := Except.ok.inj k1'
  refine ⟨hp', G, G', a1, b1, same_of_true k2.shape k2'.shape ?_ ?_⟩
  · intro c
    rw [a2, b2, List.exists_mem_cons_iff]
    exact ⟨Or.inr, fun h => h.resolve_left List.not_mem_nil⟩
  · intro a b
    rw [(a3 a b).1, (b3 a b).1, (a3 a b).2, (b3 a b).2, List.exists_mem_cons_iff,
      List.forall_mem_cons]
    have e1 : ¬ ((Graph.ofPolygons []).hasEdge a b = .ok true ∨
        (Graph.ofPolygons []).hasEdge b a = .ok true) := by
      rintro (h | h)
      · exact h0 _ _ h
      · exact h0 _ _ h
    have e2 : ((Graph.ofPolygons []).hasEdge a b = .ok true →
          (Graph.ofPolygons []).isCrossing a b = .ok true) ∧
        ((Graph.ofPolygons []).hasEdge b a = .ok true →
          (Graph.ofPolygons []).isCrossing b a = .ok true) :=
      ⟨fun h => absurd h (h0 _ _), fun h => absurd h (h0 _ _)⟩
    rw [or_iff_right e1]
    exact ⟨Iff.rfl, and_congr Iff.rfl ⟨fun h => ⟨e2, h⟩, fun h => h.2⟩⟩

/-- A graph that is saved by a process with three descriptors open, killed after 40 bytes on a full
disk, stopped by a mapping that fails, and reported as failed although the file is complete. -/
example : ∃ g, UserGraph g ∧
    (Os.save 1024 ⟨true, true, true, true, true, true, 1000, true⟩ g ⟨none, 3⟩).1 = .ok () ∧
    (Os.save 1024 ⟨true, true, true, true, true, true, 40, true⟩ g ⟨none, 3⟩).1 = .error .killed ∧
    (Os.save 1024 ⟨true, true, true, true, true, false, 1000, true⟩ g ⟨none, 3⟩).1 =
      .error (.fault .exn) ∧
    (Os.save 1024 ⟨true, true, true, true, true, false, 1000, true⟩ g ⟨none, 3⟩).2 =
      ⟨some (List.replicate 51 0), 4⟩ ∧
    (Os.save 1024 ⟨true, true, true, true, true, true, 1000, false⟩ g ⟨none, 3⟩).1 =
      .error (.fault .exn) :=
  ⟨Graph.ofPolygons [[⟨0, 0⟩, ⟨10, 0⟩, ⟨0, 10⟩]], ⟨_, [], by simp, by unfold OpsOn; simp, rfl⟩,
    by decide +kernel, by decide +kernel, by decide +kernel, by decide +kernel, by decide +kernel⟩

/-- A process with room for four descriptors, two of them in use. -/
example : (Os.loads 4 ⟨true, true, true, true, true, true, 0, true⟩ SumTree.sequential
    ⟨some [], 2⟩ 2).fds = 4 :=
  (C78_leak_false SumTree.sequential 4 2 (by decide) _ rfl).1

end Capi
