import Verif.Lemmas.SerializerCrash
import Verif.Props.Serializer

/-!
# C31 — crash points inside header and polygons
-/

namespace Capi

open Serial Polygon

/-- **C31** A new file interrupted at any byte store among header and polygons is loaded without
an error or undefined behaviour, as a graph without edges.  Polygons written completely are
loaded right; from the first polygon not begun, all are empty. -/
theorem C31_in_polygons (T : ℕ → SumTree) (g : Graph) (hg : UserGraph g) (hs : Storable T g)
    (hgeo : ∀ p ∈ g.polygons, ∀ c ∈ p, c.Geo) (n : ℕ) (hn : n ≤ polygonsEnd 8 g.polygons) :
    ∃ buf g', crashedSave g [] n = .ok buf ∧ load T buf = .ok g' ∧
      (∀ a b, g'.hasEdge a b ≠ .ok true) ∧
      g'.polygons.length ≤ g.polygons.length ∧
      (8 ≤ n → g'.polygons.length = g.polygons.length) ∧
      (∀ i, polygonsEnd 8 (g.polygons.take i) ≤ n → g'.polygons.take i = g.polygons.take i) ∧
      (∀ i, n ≤ polygonsEnd 8 (g.polygons.take i) → ∀ p ∈ g'.polygons.drop i, p = []) := by
  have hb := hg.regular.built
  set m := fileSize g (crossCount g) with hm
  set B := (encode g).take n ++ (allocate [] m).drop ((encode g).take n).length with hB
  have hsz := encode_le hb
  rw [← hm] at hsz
  have hlen : B.length = m := by
    rw [hB, List.length_append, List.length_drop, allocate_length, List.length_take]; omega
  have hcut : CutOff B (encode g) n := ⟨fun k => crashed_getD, by omega⟩
  have hm' : m = 8 + 8 * g.polygons.length + 8 * g.verts.length +
      (rowOff 0 g.verts.length + ceilDiv g.verts.length 8) + 8 * (crossCount g + 1) := by
    rw [hm, fileSize, matrixBytes_eq]
  have hv : g.polygons.flatten.length = g.verts.length := by rw [hb.verts]
  have hne : B ≠ [] := by
    intro h0
    rw [h0, List.length_nil] at hlen
    omega
  have hd0 : (encode g).drop 0 = le64 (BitVec.ofNat 64 g.polygons.length) ++
      (encPolygons g.polygons ++ (rows g 0 g.verts.length ++
        (le64 (BitVec.ofNat 64 (crossCount g)) ++ encNumbers (crossList g)))) := by
    simp [encode, head]
  have hd8 := drop_of_drop hd0
  rw [le64_length, Nat.zero_add] at hd8
  have hl : (BitVec.ofNat 64 g.polygons.length).toNat = g.polygons.length := by
    rw [BitVec.toNat_ofNat, Nat.mod_eq_of_lt hs.polygons]
  -- the polygons
  obtain ⟨qs, e, h1, h2, h3, h4, h5, h6, h7⟩ : ∃ qs e,
      (do let np ← get64 B 0
          loadPolygons T B 8 np.toNat : Res _) = .ok (qs, e) ∧
      (qs.length ≤ g.polygons.length ∧ (8 ≤ n → qs.length = g.polygons.length)) ∧ n ≤ e ∧
      e ≤ polygonsEnd 8 g.polygons ∧ qs.flatten.length ≤ g.polygons.flatten.length ∧
      (∀ i, polygonsEnd 8 (g.polygons.take i) ≤ n → qs.take i = g.polygons.take i) ∧
      (∀ i, n ≤ polygonsEnd 8 (g.polygons.take i) → ∀ q ∈ qs.drop i, q = []) := by
    by_cases h8 : 8 ≤ n
    · obtain ⟨t1, ht1⟩ := hcut.keep hd0 (by rw [le64_length]; omega)
      obtain ⟨qs, e, i1, i2, i3⟩ := loadPolygons_cut (T := T) hcut hgeo (hs.sizes hb) hs.stable
        hd8 hn (by rw [encode_length, polygonsEnd_eq, rowOff_add]; omega)
      refine ⟨qs, e, ?_, ⟨i2.le, fun _ => i2⟩, i3⟩
      rw [get64_of_drop ht1, Res.bind_ok, hl, i1]
    · have hc : (word B 0).toNat ≤ g.polygons.length := by
        have := hcut.count_le 0
        rw [word_of_drop hd0, hl] at this
        exact this
      refine ⟨List.replicate (word B 0).toNat [], 8 + 8 * (word B 0).toNat, ?_,
        ⟨by simpa using hc, fun h => absurd h h8⟩, by omega,
        by rw [polygonsEnd_eq]; omega, by simp, ?_, ?_⟩
      · rw [get64_word (by omega), Res.bind_ok]
        exact loadPolygons_zero (fun k hk => hcut.zero (by omega)) (by omega)
      · intro i hi
        rw [polygonsEnd_eq] at hi
        omega
      · intro i _ q hq
        exact List.eq_of_mem_replicate (List.mem_of_mem_drop hq)
  -- the matrix
  have hback : rowOff e qs.flatten.length + 8 ≤ B.length := by
    have := rowOff_mono h4 (h5.trans hv.le)
    rw [rowOff_add (polygonsEnd 8 g.polygons), polygonsEnd_eq] at this
    omega
  have hrow : ∀ i < qs.flatten.length, ∀ j < ceilDiv i 8,
      e ≤ rowOff e i + j ∧ rowOff e i + j < B.length := by
    intro i hi j hj
    have a1 := rowOff_mono (a := e) (b := e) (m := i + 1) (k := qs.flatten.length) (le_refl _) hi
    have a2 := rowOff_mono (a := e) (b := e) (m := 0) (k := i) (le_refl _) (by omega)
    simp only [rowOff] at a1 a2
    omega
  have hzb : ∀ k, e ≤ k → B.getD k 0 = 0 := fun k hk => hcut.zero (by omega)
  have hw : word B (rowOff e qs.flatten.length) = 0 := by
    refine word_zero fun k _ => hzb _ ?_
    have a2 := rowOff_mono (a := e) (b := e) (m := 0) (k := qs.flatten.length) (le_refl _)
      (by omega)
    simp only [rowOff] at a2
    omega
  obtain ⟨g', l1, l2, l3, l4, l5⟩ := loadMatrix_ok B qs e (fun _ _ => 0) 0 []
    (by
      intro i hi j hj
      obtain ⟨r1, r2⟩ := hrow i hi j hj
      have := hzb _ r1
      rw [List.getD_eq_getElem?_getD, List.getElem?_eq_getElem r2] at this
      rw [List.getElem?_eq_getElem r2]
      simpa using this)
    (by rw [get64_word hback, hw]) rfl
  refine ⟨B, g', crashedSave_ok hb [] n, ?_, ?_, ?_⟩
  · unfold load
    rw [if_neg hne]
    have : ∀ k : List (List Coord) × ℕ → Res Graph,
        (do let np ← get64 B 0
            let ps ← loadPolygons T B 8 np.toNat
            k ps) = ((do let np ← get64 B 0
                         loadPolygons T B 8 np.toNat : Res _) >>= k) := by
      intro k
      cases get64 B 0 <;> rfl
    rw [this, h1, Res.bind_ok]
    exact l1
  · intro a b h
    obtain ⟨ha, hb', hab, hne'⟩ := Graph.hasEdge_true_mem l2.regular.built.shape h
    obtain ⟨i, l, hmk, _⟩ := (l5 a ha b hb' hab).1.1 hne'
    have := hmk.2.2.2
    simp at this
  · rw [l3]
    exact ⟨h2.1, h2.2, h6, h7⟩

/-- **C31** Whatever the crash point, the new file is loaded without an error or undefined
behaviour and without an edge that was not there. -/
theorem C31_every_point (T : ℕ → SumTree) (g : Graph) (hg : UserGraph g) (hs : Storable T g)
    (hgeo : ∀ p ∈ g.polygons, ∀ c ∈ p, c.Geo) (n : ℕ) :
    ∃ buf g', crashedSave g [] n = .ok buf ∧ load T buf = .ok g' ∧
      ∀ a b, g'.hasEdge a b = .ok true → g.hasEdge a b = .ok true := by
  rcases Nat.le_total n (polygonsEnd 8 g.polygons) with h | h
  · obtain ⟨buf, g', h1, h2, h3, _⟩ := C31_in_polygons T g hg hs hgeo n h
    exact ⟨buf, g', h1, h2, fun a b hab => absurd hab (h3 a b)⟩
  · obtain ⟨buf, g', h1, h2, _, _, h3, _⟩ := C31_after_polygons T g hg hs n h
    exact ⟨buf, g', h1, h2, h3⟩

/-- **C31** is false inside the polygons as well: with one byte of a latitude written, the file is
loaded without an error as a polygon with a corner that was never there. -/
theorem C31_torn_vertex_false :
    (do let f ← crashedSave (Graph.ofPolygons [[⟨1000, 0⟩, ⟨1000, 1000⟩, ⟨0, 1000⟩]]) [] 29
        let g ← load SumTree.sequential f
        pure g.polygons) = (.ok [[⟨1000, 0⟩, ⟨1000, 232⟩, ⟨0, 0⟩]] : Res _) := by
  decide +kernel

/-- **C31** For an existing file even loading safely is lost: saving a smaller graph over it,
interrupted right after the allocation, leaves a file whose loading reads outside of it. -/
theorem C31_overwrite_false :
    (do let old ← save (Graph.ofPolygons [[⟨1000, 0⟩, ⟨1000, 1000⟩, ⟨0, 1000⟩]]) []
        let f ← crashedSave (Graph.ofPolygons []) old 0
        let g ← load SumTree.sequential f
        pure g.polygons) = (.error .ub : Res _) := by
  decide +kernel

/-- Non-vacuity: the graph of the witnesses above meets the assumptions. -/
example : UserGraph (Graph.ofPolygons [[⟨1000, 0⟩, ⟨1000, 1000⟩, ⟨0, 1000⟩]]) ∧
    Storable SumTree.sequential (Graph.ofPolygons [[⟨1000, 0⟩, ⟨1000, 1000⟩, ⟨0, 1000⟩]]) ∧
    ∀ p ∈ (Graph.ofPolygons [[⟨1000, 0⟩, ⟨1000, 1000⟩, ⟨0, 1000⟩]]).polygons, ∀ c ∈ p, c.Geo := by
  refine ⟨⟨_, [], by simp, by unfold OpsOn; simp, rfl⟩, ⟨by decide, ?_, by decide, by decide⟩,
    by decide⟩
  intro p hp
  have : p = [⟨1000, 0⟩, ⟨1000, 1000⟩, ⟨0, 1000⟩] := by simpa [Graph.ofPolygons] using hp
  subst this
  decide +kernel

end Capi
