import Verif.Lemmas.SerializerCut
import Verif.Props.Serializer

/-!
# C65: files that are too short or too long

A file may have been cut short by copying or extended.  Reading beyond its end is undefined
behaviour in the model; on a real machine it is zero bytes up to the end of the page and a bus
error after that.
-/

namespace Capi

open Serial Polygon

/-- **C65** (partial: the fault is not an exception.)  A saved file that is cut short is never
loaded as a different graph: the loader needs all but the last `⌈n/8⌉` bytes, for `n` vertices; with
these it gives the same graph as the whole file, without them it reads outside the file. -/
theorem C65_cut_partial (T : ℕ → SumTree) (g : Graph) (hg : UserGraph g) (hs : Storable T g)
    (old buf : Buf) (h : save g old = .ok buf) (n : ℕ) :
    (buf.length ≤ n + (g.verts.length + 7) / 8 → load T (buf.take n) = load T buf) ∧
    (n + (g.verts.length + 7) / 8 < buf.length → 0 < n → load T (buf.take n) = .error .ub) ∧
    (n = 0 → load T (buf.take n) = .error .exn) := by
  have hr := hg.regular
  have hb := hr.built
  rw [save_ok hb] at h
  have hbuf := Except.ok.inj h
  set rest := (allocate old (fileSize g (crossCount g))).drop (encode g).length with hrest
  set back := rowOff (polygonsEnd 8 g.polygons) g.verts.length with hback
  have hlen : buf.length = fileSize g (crossCount g) := by
    rw [← hbuf, List.length_append, hrest, List.length_drop, allocate_length, ← encode_le hb]
    omega
  have henc : (encode g).length = back + 8 + 8 * (crossList g).length := encode_length g
  have hle := crossList_length_le g
  have hfs := encode_le hb
  rw [ceilDiv_eight] at hfs
  have hK : crossCount g < 2 ^ 64 := by
    have h1 := crossCount_le g
    have h2 : g.verts.length * g.verts.length ≤ (2 ^ 32 - 1) * (2 ^ 32 - 1) :=
      Nat.mul_le_mul (by have := hs.verts; omega) (by have := hs.verts; omega)
    norm_num at h2 ⊢
    omega
  obtain ⟨g0, hfull, -⟩ := load_room hs hr rest
    (by rw [hbuf, hlen]; omega)
  rw [hbuf] at hfull
  refine ⟨fun hn => ?_, fun hn hpos => ?_, fun hn => ?_⟩
  · have hn' : (encode g).length ≤ n := by omega
    have ht : buf.take n = encode g ++ rest.take (n - (encode g).length) := by
      rw [← hbuf, List.take_append, List.take_of_length_le hn']
    obtain ⟨g', hcut, -⟩ := load_room hs hr (rest.take (n - (encode g).length))
      (by rw [← ht, List.length_take]; omega)
    rw [← ht] at hcut
    have hne : buf.take n ≠ [] := by
      intro h0
      rw [h0] at hcut
      cases hcut
    rw [hcut, (load_trunc T buf n hne).ok hcut]
  · have hne : buf.take n ≠ [] := by
      intro h0
      have := congrArg List.length h0
      rw [List.length_take, List.length_nil] at this
      omega
    rcases load_trunc T buf n hne with hsame | hub
    · exfalso
      rw [hfull] at hsame
      -- the loader got through header and polygons of the shorter file
      have hcount : get64 buf back = .ok (BitVec.ofNat 64 (crossCount g)) := by
        have hd : buf.drop 0 = (head g ++ rows g 0 g.verts.length) ++
            (le64 (BitVec.ofNat 64 (crossCount g)) ++ (encNumbers (crossList g) ++ rest)) := by
          rw [← hbuf]
          simp [encode]
        have hd1 := drop_of_drop hd
        have hl : 0 + (head g ++ rows g 0 g.verts.length).length = back := by
          have h1 := rows_length g 0 g.verts.length
          rw [Nat.zero_add] at h1
          rw [List.length_append, head_length, hback, rowOff_add (polygonsEnd 8 g.polygons), ← h1]
          simp [rowOff]
        rw [hl] at hd1
        exact get64_of_drop hd1
      unfold load at hsame
      rw [if_neg hne] at hsame
      have hfull' := hfull
      unfold load at hfull'
      have hbne : buf ≠ [] := by
        intro h0
        rw [h0] at hne
        simp at hne
      rw [if_neg hbne] at hfull'
      cases h1 : get64 (buf.take n) 0 with
      | error e => rw [h1] at hsame; cases hsame
      | ok np =>
        have h1' := (get64_trunc buf n 0).ok h1
        rw [h1, Res.bind_ok] at hsame
        cases h2 : loadPolygons T (buf.take n) 8 np.toNat with
        | error e => rw [h2] at hsame; cases hsame
        | ok ps =>
          have h2' := (loadPolygons_trunc T buf n 8 np.toNat).ok h2
          rw [h2, Res.bind_ok] at hsame
          -- these are the polygons of the graph
          have hhead : buf.drop 0 = le64 (BitVec.ofNat 64 g.polygons.length) ++
              (encPolygons g.polygons ++ (rows g 0 g.verts.length ++
                (le64 (BitVec.ofNat 64 (crossCount g)) ++ (encNumbers (crossList g) ++ rest)))) := by
            rw [← hbuf]
            simp [encode, head]
          have h8 := drop_of_drop hhead
          rw [le64_length, Nat.zero_add] at h8
          have hnp := get64_of_drop hhead
          rw [h1'] at hnp
          obtain rfl := Except.ok.inj hnp
          have hl : (BitVec.ofNat 64 g.polygons.length).toNat = g.polygons.length := by
            rw [BitVec.toNat_ofNat, Nat.mod_eq_of_lt hs.polygons]
          rw [hl, loadPolygons_ok hs.wf (hs.sizes hb) hs.stable h8] at h2'
          obtain rfl := Except.ok.inj h2'
          have hv : (Graph.ofPolygons g.polygons).verts = g.verts := hb.verts.symm
          cases h3 : get64 (buf.take n) back with
          | error e =>
            unfold loadMatrix at hsame
            simp only [hv] at hsame
            rw [← hback, h3] at hsame
            cases hsame
          | ok c =>
            have h3' := (get64_trunc buf n back).ok h3
            rw [hcount] at h3'
            obtain rfl := Except.ok.inj h3'
            have := loadMatrix_length (g := Graph.ofPolygons g.polygons)
              (off := polygonsEnd 8 g.polygons) (by rw [hv]; exact h3) hsame
            rw [hv, BitVec.toNat_ofNat, Nat.mod_eq_of_lt hK, List.length_take] at this
            omega
    · exact hub
  · subst hn
    rfl

/-- **C65** is false as stated: no saved file that lost its end is refused with an exception, unless
nothing is left. -/
theorem C65_refused_false (T : ℕ → SumTree) (g : Graph) (hg : UserGraph g) (hs : Storable T g)
    (old buf : Buf) (h : save g old = .ok buf) :
    0 < buf.length ∧ load T (buf.take 1) = .error .ub := by
  obtain ⟨k, ws, buf', h1, h2, h3, h4, h5, h6⟩ := C29_save_inside g hg old
  rw [h] at h3
  obtain rfl := Except.ok.inj h3
  have hsz : 1 + (g.verts.length + 7) / 8 < buf.length := by
    rw [h4]
    unfold fileSize
    omega
  exact ⟨by omega, (C65_cut_partial T g hg hs old buf h 1).2.1 hsz one_pos⟩

/-- **C65** Anything appended to a saved file is ignored. -/
theorem C65_trailing (T : ℕ → SumTree) (g : Graph) (hg : UserGraph g) (hs : Storable T g)
    (old buf extra : Buf) (h : save g old = .ok buf) : load T (buf ++ extra) = load T buf := by
  obtain ⟨g', hl⟩ := C29_load_inside T g hg hs old buf h
  have ht : (buf ++ extra).take buf.length = buf := by simp
  have hne : (buf ++ extra).take buf.length ≠ [] := by
    rw [ht]
    intro h0
    rw [h0] at hl
    cases hl
  have := (load_trunc T (buf ++ extra) buf.length hne).ok (x := g') (by rw [ht]; exact hl)
  rw [this, hl]

/-- Non-vacuity of C65: the file of a graph with three vertices, a plain and a crossing edge has 67
bytes, of which the last is not needed. -/
example : ∃ g buf, UserGraph g ∧ Storable SumTree.sequential g ∧ save g [] = .ok buf ∧
    buf.length = 67 ∧ (∃ g', load SumTree.sequential (buf.take 66) = .ok g') ∧
    load SumTree.sequential (buf.take 65) = .error .ub := by
  obtain ⟨g, h1, h2, h3, h4, -⟩ := exStorable
  cases hs : save g [] with
  | error e => rw [hs] at h3; cases h3
  | ok buf =>
    rw [hs] at h3
    have hl : buf.length = 67 := Except.ok.inj h3
    refine ⟨g, buf, h1, h2, hs, hl, ?_, ?_⟩
    · rw [(C65_cut_partial _ g h1 h2 [] buf hs 66).1 (by rw [hl, h4])]
      exact C29_load_inside _ g h1 h2 [] buf hs
    · exact (C65_cut_partial _ g h1 h2 [] buf hs 65).2.1 (by rw [hl, h4]; decide) (by decide)

end Capi
