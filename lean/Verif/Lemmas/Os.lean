import Verif.Lemmas.Serializer
import Verif.Lemmas.SerializerLoad
import Verif.Model.Os

/-!
# Lemmas about failing system calls
-/

namespace Capi

open Serial Polygon

theorem Os.save_eq {g : Graph} (hg : UserGraph g) (limit : ℕ) (s : Os.Sys) (p : Os.Proc) :
    Os.save limit s g p =
      match Os.allocateFile limit s (fileSize g (crossCount g)) p with
      | (.error e, p1) => (.error e, p1)
      | (.ok _, p1) =>
        match Os.mapFile limit s p1 with
        | (.error e, p2) => (.error e, p2)
        | (.ok b, p2) =>
          match Os.storeAll s (storeAt 0 (encode g)) b with
          | (.error e, b1) => (.error e, ⟨some b1, p2.fds - 1⟩)
          | (.ok _, b1) =>
            (if s.sync then .ok () else .error (.fault .exn), ⟨some b1, p2.fds - 1⟩) := by
  have hb := hg.regular.built
  unfold Os.save
  rw [countCrossing_ok hb.shape]
  simp only
  rw [stores_ok hb.shape]
  rfl

theorem Os.allocate_ne (g : Graph) (old : Buf) : allocate old (fileSize g (crossCount g)) ≠ [] := by
  intro h
  have := congrArg List.length h
  rw [allocate_length, List.length_nil] at this
  unfold fileSize at this
  omega

theorem Os.storeAll_eq {g : Graph} (hg : UserGraph g) (s : Os.Sys) (old : Buf) :
    ∃ b1, crashedSave g old s.room = .ok b1 ∧
      Os.storeAll s (storeAt 0 (encode g)) (allocate old (fileSize g (crossCount g))) =
        (if (storeAt 0 (encode g)).length ≤ s.room then .ok () else .error .killed, b1) := by
  have hb := hg.regular.built
  have h := crashedSave_ok hb old s.room
  refine ⟨_, h, ?_⟩
  unfold crashedSave at h
  rw [countCrossing_ok hb.shape, Res.bind_ok, stores_ok hb.shape, Res.bind_ok] at h
  unfold Os.storeAll
  rw [h]

/-- All that can happen. -/
theorem Os.save_cases {g : Graph} (hg : UserGraph g) (limit : ℕ) (s : Os.Sys) (p : Os.Proc) :
    ((s.openNew = false ∨ limit ≤ p.fds) ∧ Os.save limit s g p = (.error (.fault .exn), p)) ∨
    (p.fds < limit ∧ s.truncate = false ∧
      Os.save limit s g p = (.error (.fault .exn), ⟨some (p.file.getD []), p.fds + 1⟩)) ∨
    (p.fds < limit ∧ (s.close = false ∨ s.openMap = false) ∧ Os.save limit s g p =
      (.error (.fault .exn), ⟨some (allocate (p.file.getD []) (fileSize g (crossCount g))), p.fds⟩)) ∨
    (p.fds < limit ∧ (s.stat = false ∨ s.mmap = false) ∧ Os.save limit s g p =
      (.error (.fault .exn), ⟨some (allocate (p.file.getD []) (fileSize g (crossCount g))), p.fds + 1⟩)) ∨
    (p.fds < limit ∧ s.openNew = true ∧ s.truncate = true ∧ s.close = true ∧ s.openMap = true ∧
      s.stat = true ∧ s.mmap = true ∧ ∃ b1, crashedSave g (p.file.getD []) s.room = .ok b1 ∧
        Os.save limit s g p =
          (if (storeAt 0 (encode g)).length ≤ s.room then
            (if s.sync then .ok () else .error (.fault .exn)) else .error .killed, ⟨some b1, p.fds⟩)) := by
  rw [Os.save_eq hg]
  unfold Os.allocateFile
  by_cases h1 : s.openNew = true ∧ p.fds < limit
  · rw [if_pos h1]
    right
    by_cases h2 : s.truncate = true
    · rw [if_pos h2]
      right
      by_cases h3 : s.close = true
      · rw [if_pos h3]
        simp only
        unfold Os.mapFile
        simp only
        by_cases h4 : s.openMap = true
        · rw [if_pos ⟨h4, h1.2⟩]
          right
          by_cases h5 : s.stat = true ∧ s.mmap = true
          · rw [if_pos ⟨h5.1, h5.2, Os.allocate_ne g _⟩]
            right
            obtain ⟨b1, hb1, hb2⟩ := Os.storeAll_eq hg s (p.file.getD [])
            refine ⟨h1.2, h1.1, h2, h3, h4, h5.1, h5.2, b1, hb1, ?_⟩
            simp only
            rw [hb2]
            split_ifs <;> simp
          · left
            rw [if_neg fun h => h5 ⟨h.1, h.2.1⟩]
            refine ⟨h1.2, ?_, rfl⟩
            cases ha : s.stat <;> cases hb : s.mmap <;> simp_all
        · left
          rw [if_neg fun h => h4 h.1]
          exact ⟨h1.2, Or.inr (by simpa using h4), rfl⟩
      · left
        rw [if_neg h3]
        exact ⟨h1.2, Or.inl (by simpa using h3), rfl⟩
    · left
      rw [if_neg h2]
      exact ⟨h1.2, by simpa using h2, rfl⟩
  · left
    rw [if_neg h1]
    refine ⟨?_, rfl⟩
    by_contra hc
    push Not at hc
    exact h1 ⟨by simpa using hc.1, hc.2⟩

theorem Os.crashed_full {g : Graph} (hg : UserGraph g) (old : Buf) (n : ℕ)
    (h : (storeAt 0 (encode g)).length ≤ n) : crashedSave g old n = Serial.save g old := by
  have hb := hg.regular.built
  rw [storeAt_length] at h
  rw [crashedSave_ok hb, save_ok hb, List.take_of_length_le h]

end Capi
