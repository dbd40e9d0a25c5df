import Verif.Lemmas.SerializerLoad

/-!
# Loading files that were cut short
-/

namespace Capi

namespace Serial

/-- The result of running on a shorter file: the same, or an access outside the file. -/
def Trunc {α : Type} (r' r : Res α) : Prop := r' = r ∨ r' = .error .ub

theorem Trunc.rfl {α : Type} {r : Res α} : Trunc r r := Or.inl (Eq.refl r)

theorem Trunc.bind {α β : Type} {r' r : Res α} {f' f : α → Res β} (h : Trunc r' r)
    (hf : ∀ x, Trunc (f' x) (f x)) : Trunc (r' >>= f') (r >>= f) := by
  rcases h with rfl | rfl
  · cases r' with
    | error e => exact Or.inl (Eq.refl _)
    | ok x => exact hf x
  · exact Or.inr (Eq.refl _)

theorem Trunc.ok {α : Type} {r' r : Res α} (h : Trunc r' r) {x : α} (hx : r' = .ok x) : r = .ok x := by
  rcases h with h | h
  · rw [← h, hx]
  · rw [h] at hx; cases hx

theorem getByte_trunc (b : Buf) (n off : ℕ) : Trunc (getByte (b.take n) off) (getByte b off) := by
  unfold getByte
  rw [List.getElem?_take]
  by_cases h : off < n
  · rw [if_pos h]; exact Trunc.rfl
  · rw [if_neg h]; exact Or.inr (Eq.refl _)

theorem get64_trunc (b : Buf) (n off : ℕ) : Trunc (get64 (b.take n) off) (get64 b off) := by
  unfold get64
  generalize (0 : BitVec 64) = acc
  generalize List.range 8 = ks
  induction ks generalizing acc with
  | nil => exact Trunc.rfl
  | cons k r ih => exact (getByte_trunc b n _).bind fun x => ih _

theorem getI32_trunc (b : Buf) (n off : ℕ) : Trunc (getI32 (b.take n) off) (getI32 b off) := by
  unfold getI32
  refine Trunc.bind ?_ fun v => Trunc.rfl
  unfold get32
  generalize (0 : BitVec 32) = acc
  generalize List.range 4 = ks
  induction ks generalizing acc with
  | nil => exact Trunc.rfl
  | cons k r ih => exact (getByte_trunc b n _).bind fun x => ih _

theorem collect_trunc {α β : Type} {f' f : α → Res (List β)} (h : ∀ a, Trunc (f' a) (f a))
    (l : List α) : Trunc (collect f' l) (collect f l) := by
  induction l with
  | nil => exact Trunc.rfl
  | cons a r ih => exact (h a).bind fun x => ih.bind fun y => Trunc.rfl

theorem loadVertices_trunc (b : Buf) (n off k : ℕ) :
    Trunc (loadVertices (b.take n) off k) (loadVertices b off k) := by
  induction k generalizing off with
  | zero => exact Trunc.rfl
  | succ k ih =>
    exact (getI32_trunc b n _).bind fun x => (getI32_trunc b n _).bind fun y =>
      (ih _).bind fun r => Trunc.rfl

theorem loadPolygons_trunc (T : ℕ → Polygon.SumTree) (b : Buf) (n off k : ℕ) :
    Trunc (loadPolygons T (b.take n) off k) (loadPolygons T b off k) := by
  induction k generalizing off with
  | zero => exact Trunc.rfl
  | succ k ih =>
    exact (get64_trunc b n _).bind fun x => (loadVertices_trunc b n _ _).bind fun y =>
      Trunc.rfl.bind fun p => (ih _).bind fun r => Trunc.rfl

theorem loadNumbers_trunc (b : Buf) (n back k : ℕ) :
    Trunc (loadNumbers (b.take n) back k) (loadNumbers b back k) :=
  collect_trunc (fun _ => (get64_trunc b n _).bind fun _ => Trunc.rfl) _

theorem loadMatrix_trunc (b : Buf) (n : ℕ) (g : Graph) (off : ℕ) :
    Trunc (loadMatrix (b.take n) g off) (loadMatrix b g off) := by
  unfold loadMatrix
  refine (get64_trunc b n _).bind fun c => (loadNumbers_trunc b n _ _).bind fun ns => ?_
  refine Trunc.bind ?_ fun ops => Trunc.rfl
  exact collect_trunc (fun i => collect_trunc (fun j => (getByte_trunc b n _).bind fun x =>
    Trunc.rfl) _) _

/-- Loading a shorter file, not empty, gives the same or leaves the file. -/
theorem load_trunc (T : ℕ → Polygon.SumTree) (b : Buf) (n : ℕ) (h : b.take n ≠ []) :
    Trunc (load T (b.take n)) (load T b) := by
  unfold load
  have hb : b ≠ [] := fun hb => h (by rw [hb]; simp)
  rw [if_neg h, if_neg hb]
  exact (get64_trunc b n _).bind fun x => (loadPolygons_trunc T b n _ _).bind fun p =>
    loadMatrix_trunc b n _ _

theorem getByte_inside {b : Buf} {off : ℕ} {x : Byte} (h : getByte b off = .ok x) :
    off < b.length := by
  unfold getByte at h
  cases hb : b[off]? with
  | none => rw [hb] at h; cases h
  | some y => exact (List.getElem?_eq_some_iff.1 hb).1

theorem get64_length {b : Buf} {off : ℕ} {x : BitVec 64} (h : get64 b off = .ok x) :
    off + 8 ≤ b.length := by
  have key : ∀ (ks : List ℕ) (acc : BitVec 64), get64Loop b off acc ks = .ok x →
      ∀ k ∈ ks, off + k < b.length := by
    intro ks
    induction ks with
    | nil => intro _ _ k hk; cases hk
    | cons k r ih =>
      intro acc h j hj
      unfold get64Loop at h
      cases hg : getByte b (off + k) with
      | error e => rw [hg] at h; cases h
      | ok y =>
        rw [hg, Res.bind_ok] at h
        rcases List.mem_cons.1 hj with rfl | hj
        · exact getByte_inside hg
        · exact ih _ h j hj
  have := key _ _ h 7 (by decide)
  omega

theorem collect_inv {α β : Type} {f : α → Res (List β)} {l : List α} {r : List β}
    (h : collect f l = .ok r) : ∀ a ∈ l, ∃ x, f a = .ok x := by
  induction l generalizing r with
  | nil => intro a ha; cases ha
  | cons b t ih =>
    intro a ha
    unfold collect at h
    cases hb : f b with
    | error e => rw [hb] at h; cases h
    | ok x =>
      rw [hb, Res.bind_ok] at h
      cases ht : collect f t with
      | error e => rw [ht] at h; cases h
      | ok y =>
        rcases List.mem_cons.1 ha with rfl | ha
        · exact ⟨x, hb⟩
        · exact ih ht a ha

/-- A matrix that could be loaded was followed by as many numbers as announced. -/
theorem loadMatrix_length {b : Buf} {g g' : Graph} {off : ℕ} {c : BitVec 64}
    (hc : get64 b (rowOff off g.verts.length) = .ok c) (h : loadMatrix b g off = .ok g') :
    rowOff off g.verts.length + 8 + 8 * c.toNat ≤ b.length := by
  have h0 := get64_length hc
  unfold loadMatrix at h
  simp only [hc, Res.bind_ok] at h
  cases hn : loadNumbers b (rowOff off g.verts.length) c.toNat with
  | error e => rw [hn] at h; cases h
  | ok ns =>
    rcases Nat.eq_zero_or_pos c.toNat with hz | hp
    · omega
    · obtain ⟨x, hx⟩ := collect_inv hn (c.toNat - 1) (List.mem_range.2 (by omega))
      cases hg : get64 b (rowOff off g.verts.length + (c.toNat - 1 + 1) * 8) with
      | error e => rw [hg] at hx; cases hx
      | ok v =>
        have := get64_length hg
        omega

end Serial

end Capi
