import Verif.Lemmas.SerializerCut
import Mathlib.Algebra.BigOperators.Group.Finset.Basic

/-!
# Loading files with changed bytes
-/

namespace Capi

open Serial Polygon Graph

namespace Serial

theorem rowOff_sum (off n : ℕ) : rowOff off n = off + ∑ i ∈ Finset.range n, (i + 7) / 8 := by
  induction n with
  | zero => rfl
  | succ n ih => rw [rowOff, ih, Finset.sum_range_succ, ceilDiv_eight]; omega

theorem rowOff_strict (off : ℕ) {i j : ℕ} (h : i ≤ j) : rowOff off i ≤ rowOff off j := by
  induction h with
  | refl => exact le_refl _
  | step _ ih => exact ih.trans (Nat.le_add_right _ _)

/-- A list that agrees with `x ++ y` on the length of `x` begins with `x`. -/
theorem prefix_of_agree {x y b : Buf} (h : ∀ k < x.length, b[k]? = (x ++ y)[k]?) :
    ∃ t, b = x ++ t := by
  refine ⟨b.drop x.length, ?_⟩
  have : b.take x.length = x := by
    apply List.ext_getElem?
    intro k
    rw [List.getElem?_take]
    split_ifs with hk
    · rw [h k hk, List.getElem?_append_left hk]
    · rw [List.getElem?_eq_none (by omega)]
  conv_lhs => rw [← List.take_append_drop x.length b, this]

theorem collect_ub {α β : Type} {f : α → Res (List β)} {l : List α}
    (h : ∀ a ∈ l, (∃ r, f a = .ok r) ∨ f a = .error .ub) (hx : ∃ a ∈ l, f a = .error .ub) :
    collect f l = .error .ub := by
  induction l with
  | nil => obtain ⟨a, ha, -⟩ := hx; simp at ha
  | cons a r ih =>
    unfold collect
    rcases h a (by simp) with ⟨y, hy⟩ | hy
    · rw [hy, Res.bind_ok]
      rw [ih (fun b hb => h b (by simp [hb]))]
      · rfl
      · obtain ⟨b, hb, hbu⟩ := hx
        rcases List.mem_cons.1 hb with rfl | hb
        · rw [hy] at hbu; cases hbu
        · exact ⟨b, hb, hbu⟩
    · rw [hy]; rfl

/-- Loading a file with the header and the polygons of `g`, whatever follows, as long as the numbers
it announces are there. -/
theorem load_any {T : ℕ → SumTree} {g : Graph} (hst : Storable T g) (hb : g.Built) {B t : Buf}
    (hB : B = head g ++ t)
    (hlen : rowOff (polygonsEnd 8 g.polygons) g.verts.length + 8 + 8 *
      (word B (rowOff (polygonsEnd 8 g.polygons) g.verts.length)).toNat ≤ B.length) :
    ∃ g', load T B = .ok g' ∧ UserGraph g' ∧ g'.polygons = g.polygons ∧ g'.verts = g.verts ∧
      ∀ a ∈ g.verts, ∀ b ∈ g.verts, a ≠ b →
        (g'.bits a b ≠ 0 ↔ ∃ i l, Marked g.verts.length
            (fun i j => B.getD (rowOff (polygonsEnd 8 g.polygons) i + j) 0) i l ∧
          ((vAt g i = a ∧ vAt g l = b) ∨ (vAt g i = b ∧ vAt g l = a))) := by
  set off := polygonsEnd 8 g.polygons with hoff
  set back := rowOff off g.verts.length with hback
  have hv : g.polygons.flatten = g.verts := hb.verts.symm
  obtain ⟨g', h1, h2, h3, h4, h5⟩ := loadMatrix_ok B g.polygons off
    (fun i j => B.getD (rowOff off i + j) 0) (word B back)
    ((List.range (word B back).toNat).map fun i => word B (back + (i + 1) * 8))
    (by
      rw [hv]; intro i hi j hj
      have : rowOff off (i + 1) ≤ back := rowOff_strict off hi
      rw [rowOff] at this
      rw [List.getD_eq_getElem?_getD, List.getElem?_eq_getElem (by omega)]; rfl)
    (by rw [hv]; exact get64_word (by omega))
    (by rw [hv]; exact loadNumbers_ok (by omega))
  rw [hv] at h4 h5
  have hv' : ∀ i, vAt g' i = vAt g i := by intro i; unfold vAt; rw [h4]
  refine ⟨g', ?_, h2, h3, h4, ?_⟩
  · rw [← h1]; conv_lhs => rw [hB]
    rw [load_head hst hb, ← hB]
  · intro a ha b hb' hab
    have := (h5 a (h4.symm ▸ ha) b (h4.symm ▸ hb') hab).1
    simpa only [hv'] using this

/-- The file of `g`: its parts. -/
theorem saved_parts {g : Graph} (hb : g.Built) {old buf : Buf} (h : save g old = .ok buf) :
    ∃ rest, buf = encode g ++ rest ∧ buf.length = fileSize g (crossCount g) := by
  rw [save_ok hb] at h
  refine ⟨_, (Except.ok.inj h).symm, ?_⟩
  rw [← Except.ok.inj h, List.length_append, List.length_drop, allocate_length, ← encode_le hb]
  omega

theorem saved_byte {g : Graph} {rest : Buf} {i j : ℕ} (hi : i < g.verts.length)
    (hj : j < ceilDiv i 8) :
    (encode g ++ rest)[rowOff (polygonsEnd 8 g.polygons) i + j]? = some (byteOf g i j) := by
  have h0 : (encode g ++ rest).drop 0 = head g ++ (rows g 0 g.verts.length ++
      (le64 (BitVec.ofNat 64 (crossCount g)) ++ encNumbers (crossList g) ++ rest)) := by
    simp [encode]
  have h1 := drop_of_drop h0
  rw [head_length, Nat.zero_add] at h1
  exact byte_of_rows h1 hi hj

theorem saved_count {T : ℕ → SumTree} {g : Graph} (hst : Storable T g) {rest : Buf} :
    (word (encode g ++ rest) (rowOff (polygonsEnd 8 g.polygons) g.verts.length)).toNat =
      crossCount g := by
  have hK : crossCount g < 2 ^ 64 := by
    have h1 := crossCount_le g
    have h2 : g.verts.length * g.verts.length ≤ (2 ^ 32 - 1) * (2 ^ 32 - 1) :=
      Nat.mul_le_mul (by have := hst.verts; omega) (by have := hst.verts; omega)
    norm_num at h2 ⊢
    omega
  set back := rowOff (polygonsEnd 8 g.polygons) g.verts.length with hback
  have h0 : (encode g ++ rest).drop 0 = (head g ++ rows g 0 g.verts.length) ++
      (le64 (BitVec.ofNat 64 (crossCount g)) ++ (encNumbers (crossList g) ++ rest)) := by
    simp [encode]
  have h1 := drop_of_drop h0
  have h2 := rows_length g 0 g.verts.length
  have hl : 0 + (head g ++ rows g 0 g.verts.length).length = back := by
    rw [Nat.zero_add] at h2
    rw [List.length_append, head_length, hback, rowOff_add (polygonsEnd 8 g.polygons), ← h2]
    simp [rowOff]
  rw [hl] at h1
  have h3 := get64_of_drop h1
  rw [get64_word (by rw [List.length_append, encode_length, ← hback]; omega)] at h3
  rw [Except.ok.inj h3, BitVec.toNat_ofNat, Nat.mod_eq_of_lt hK]

end Serial

end Capi
