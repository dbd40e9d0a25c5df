import Verif.Lemmas.SerializerLoad
import Verif.Props.Polygon

/-!
# C28–C32: saving and loading graphs

`T` is the order in which the winding sum of a polygon is evaluated while loading.
-/

namespace Capi

open Serial Polygon
open Graph (Op)

/-! ### C32 -/

/-- **C32** A stored 64-bit number is read back, whatever surrounds it, and no other byte
changes. -/
theorem C32_u64 (pre mid post : Buf) (v : BitVec 64) (hm : mid.length = 8) :
    ∃ enc : Buf, enc.length = 8 ∧
      applyWrites (pre ++ mid ++ post) (put64 v pre.length) = .ok (pre ++ enc ++ post) ∧
      get64 (pre ++ enc ++ post) pre.length = .ok v := by
  refine ⟨le64 v, le64_length v, ?_, ?_⟩
  · rw [put64_eq]; exact applyWrites_storeAt _ _ _ _ (by rw [hm, le64_length])
  · exact get64_of_drop (t := post) (by simp)

example : ∃ enc : Buf, enc.length = 8 ∧
    applyWrites ([7, 7] ++ List.replicate 8 0 ++ [9]) (put64 0x0102030405060708 2) =
      .ok ([7, 7] ++ enc ++ [9]) ∧ get64 ([7, 7] ++ enc ++ [9]) 2 = .ok 0x0102030405060708 :=
  C32_u64 [7, 7] (List.replicate 8 0) [9] _ rfl

/-- **C32** The same for 32-bit numbers. -/
theorem C32_u32 (pre mid post : Buf) (v : BitVec 32) (hm : mid.length = 4) :
    ∃ enc : Buf, enc.length = 4 ∧
      applyWrites (pre ++ mid ++ post) (put32 v pre.length) = .ok (pre ++ enc ++ post) ∧
      get32 (pre ++ enc ++ post) pre.length = .ok v := by
  refine ⟨le32 v, le32_length v, ?_, ?_⟩
  · rw [put32_eq]; exact applyWrites_storeAt _ _ _ _ (by rw [hm, le32_length])
  · exact get32_of_drop (t := post) (by simp)

/-- **C32** The same for signed 32-bit numbers. -/
theorem C32_i32 (pre mid post : Buf) (x : ℤ) (hx : FitsI32 x) (hm : mid.length = 4) :
    ∃ enc : Buf, enc.length = 4 ∧
      applyWrites (pre ++ mid ++ post) (putI32 x pre.length) = .ok (pre ++ enc ++ post) ∧
      getI32 (pre ++ enc ++ post) pre.length = .ok x := by
  refine ⟨le32 (BitVec.ofInt 32 x), le32_length _, ?_, ?_⟩
  · rw [putI32, put32_eq]; exact applyWrites_storeAt _ _ _ _ (by rw [hm, le32_length])
  · exact getI32_of_drop (t := post) hx (by simp)

example : ∃ enc : Buf, enc.length = 4 ∧
    applyWrites ([7, 7] ++ List.replicate 4 0 ++ [9]) (putI32 (-180000000) 2) =
      .ok ([7, 7] ++ enc ++ [9]) ∧ getI32 ([7, 7] ++ enc ++ [9]) 2 = .ok (-180000000) :=
  C32_i32 [7, 7] (List.replicate 4 0) [9] _ (by decide) rfl

/-- **C32** The byte at offset `k` of a stored number is its `k`-th base-256 digit, lowest
first. -/
theorem C32_little_endian (v : BitVec 64) (off k : ℕ) (hk : k < 8) :
    (off + k, BitVec.ofNat 8 (v.toNat / 256 ^ k % 256)) ∈ put64 v off := by
  unfold put64
  rw [List.mem_map]
  refine ⟨k, List.mem_range.2 hk, ?_⟩
  rw [Prod.mk.injEq]
  refine ⟨rfl, ?_⟩
  apply BitVec.eq_of_toNat_eq
  rw [BitVec.toNat_setWidth, BitVec.toNat_and, BitVec.toNat_ushiftRight, BitVec.toNat_ofNat,
    Nat.shiftRight_eq_div_pow]
  have h1 : 255 % 2 ^ 64 = 2 ^ 8 - 1 := by norm_num
  rw [BitVec.toNat_ofNat]
  rw [h1, Nat.and_two_pow_sub_one_eq_mod, Nat.mul_comm k 8, pow_mul]
  norm_num

/-- **C32** Reading any part outside the file is reported as undefined, inside it never is. -/
theorem C32_bounds (b : Buf) (off : ℕ) :
    (off + 8 ≤ b.length → ∃ v, get64 b off = .ok v) ∧
    (b.length < off + 8 → get64 b off = .error .ub) := by
  refine ⟨get64_inside, fun h => ?_⟩
  have key : ∀ (ks : List ℕ) (acc : BitVec 64), (∃ k ∈ ks, b.length ≤ off + k) →
      get64Loop b off acc ks = .error .ub := by
    intro ks
    induction ks with
    | nil => intro acc h; simp at h
    | cons k r ih =>
      rintro acc ⟨q, hq, hlen⟩
      unfold get64Loop getByte
      cases hg : b[off + k]? with
      | none => rfl
      | some x =>
        simp only [Res.bind_ok]
        apply ih
        rcases List.mem_cons.1 hq with rfl | hq
        · rw [List.getElem?_eq_none hlen] at hg; simp at hg
        · exact ⟨q, hq, hlen⟩
  exact key _ _ ⟨7, by simp, by omega⟩

example : get64 (List.replicate 10 0) 3 = .error .ub := (C32_bounds _ _).2 (by decide)

/-- **C32** Writing any part outside the file is reported as undefined. -/
theorem C32_writes (b : Buf) (off : ℕ) :
    (∀ v, b.length < off + 8 → applyWrites b (put64 v off) = .error .ub) ∧
    (∀ v, b.length < off + 4 → applyWrites b (put32 v off) = .error .ub) ∧
    ∀ x, b.length < off + 4 → applyWrites b (putI32 x off) = .error .ub := by
  have key : ∀ (l : List Write) (c : Buf), (∃ w ∈ l, c.length ≤ w.1) →
      applyWrites c l = .error .ub := by
    intro l
    induction l with
    | nil => rintro c ⟨w, hw, -⟩; simp at hw
    | cons w r ih =>
      rintro c ⟨w', hw, hlen⟩
      unfold applyWrites applyWrite
      by_cases hc : w.1 < c.length
      · rw [if_pos hc, Res.bind_ok]
        rcases List.mem_cons.1 hw with rfl | hw
        · omega
        · exact ih _ ⟨w', hw, by simpa using hlen⟩
      · rw [if_neg hc]; rfl
  have h32 : ∀ v, b.length < off + 4 → applyWrites b (put32 v off) = .error .ub := fun v h =>
    key _ _ ⟨(off + 3, _), List.mem_map.2 ⟨3, by simp, rfl⟩, by simpa using by omega⟩
  exact ⟨fun v h => key _ _ ⟨(off + 7, _), List.mem_map.2 ⟨7, by simp, rfl⟩, by simpa using by omega⟩,
    h32, fun x h => h32 _ h⟩

example : applyWrites (List.replicate 10 0) (put64 5 3) = .error .ub :=
  (C32_writes _ _).1 _ (by decide)

/-! ### C28 -/

/-- **C28** Loading a freshly written file gives back the polygons, the vertices in order, and
all edge answers.  Vertices need not be distinct. -/
theorem C28_roundtrip (T : ℕ → SumTree) (g : Graph) (hg : UserGraph g) (hs : Storable T g) :
    ∃ buf g', save g [] = .ok buf ∧ load T buf = .ok g' ∧ UserGraph g' ∧
      g'.polygons = g.polygons ∧ g'.verts = g.verts ∧ SameAnswers g' g := by
  have hr := hg.regular
  have hb := hr.built
  obtain ⟨g', h1, h2, h3, h4, h5⟩ := load_complete hs hr
    ((allocate [] (fileSize g (crossCount g))).drop (encode g).length)
    (by rw [List.length_drop, allocate_length, ← encode_le hb]; omega)
  refine ⟨_, g', save_ok hb [], h1, h2, h3, h4, ?_⟩
  rw [Graph.sameAnswers_iff h2.regular.built.shape hb.shape]
  refine ⟨fun c => by rw [h4], ?_⟩
  intro a ha b hb' hab
  rw [h4] at ha hb'
  obtain ⟨h6, h7⟩ := h5 a ha b hb' hab
  refine ⟨h6, h7.trans ?_⟩
  constructor
  · rintro (h | ⟨hne, hall⟩)
    · exact h
    · exfalso
      obtain ⟨i, hi, rfl⟩ := exists_vAt ha
      obtain ⟨l, hl, rfl⟩ := exists_vAt hb'
      have key : ∀ p q, p < g.verts.length → q < p →
          ((vAt g p = vAt g i ∧ vAt g q = vAt g l) ∨ (vAt g p = vAt g l ∧ vAt g q = vAt g i)) →
          False := by
        intro p q hp hq hpq
        obtain ⟨k, hk1, hk2, hk3⟩ := hall p q hp hq hpq
        rw [word_zero] at hk3
        · have := congrArg BitVec.toNat hk3
          rw [BitVec.toNat_ofNat, Nat.mod_eq_of_lt (edgeNumber_lt (hp.trans hs.verts) hq.le)] at this
          have h0 : (0 : BitVec 64).toNat = edgeNumber 0 0 := by decide
          rw [h0] at this
          have := (edgeNumber_inj (le_refl _) hq.le this).1
          omega
        · intro m _
          have hc := crashed_getD (g := g) (n := (encode g).length)
            (m := fileSize g (crossCount g))
            (k := rowOff (polygonsEnd 8 g.polygons) g.verts.length + (k + 1) * 8 + m)
          rw [List.take_length] at hc
          rw [hc, if_neg]
          rw [encode_length]; omega
      rcases lt_trichotomy l i with h | h | h
      · exact key i l hi h (Or.inl ⟨rfl, rfl⟩)
      · exact hab (by rw [h])
      · exact key l i hl h (Or.inr ⟨rfl, rfl⟩)
  · exact Or.inl

/-- **C28** Polygons built from in-range rings without immediate repetitions and with an area
the floating-point sum resolves are stable, so the hypothesis of `C28_roundtrip` holds for
them. -/
theorem C28_stable (T : ℕ → SumTree) (hT : PlanOk T) (vs : List Coord)
    (hper : ∀ v ∈ vs, v.Per) (hn : NoRepeat vs)
    (hd : (T (removeCollinear vs).length).depth ≤ 2 ^ 40)
    (hA : (removeCollinear vs).length * (156 + 44 * (T (removeCollinear vs).length).depth) <
      |twiceArea (removeCollinear vs)|) :
    polygonC T (mk T vs) = .ok (mk T vs) ∧ ∀ c ∈ mk T vs, c.Wf := by
  have hsub : ∀ c ∈ mk T vs, c.Per := by
    intro c hc
    have : c ∈ removeCollinear vs := by
      rcases C12_same_vertices T vs with h | h
      · rwa [h] at hc
      · rw [h] at hc; exact List.mem_reverse.1 hc
    unfold removeCollinear at this
    obtain ⟨i, hi, rfl⟩ := List.mem_map.1 this
    have hi := List.mem_range.1 (List.mem_filter.1 hi).1
    apply hper
    unfold ringAt
    rw [Nat.mod_eq_of_lt hi, List.getD_eq_getElem?_getD, List.getElem?_eq_getElem hi]
    exact List.getElem_mem hi
  refine ⟨?_, fun c hc => (hsub c hc).wf⟩
  unfold polygonC
  rw [C03_polygon _ hsub, Res.bind_ok]
  have := C15_rebuild_partial T hT vs hper hn hd hA
  rw [Res.pure_eq]
  exact congrArg _ this

/-- **C28** is false for graphs over an unstable polygon (here with a corner given twice in a
row): the loaded graph has other vertices, and an edge moves to a pair that was not
connected. -/
theorem C28_unstable_false :
    (do let p := mk SumTree.sequential [⟨0, 1⟩, ⟨0, 1⟩, ⟨1, 0⟩, ⟨2, 0⟩, ⟨0, 0⟩]
        let g ← (Graph.ofPolygons [p, [⟨9, 9⟩, ⟨8, 9⟩, ⟨9, 8⟩]]).addEdge ⟨9, 9⟩ ⟨8, 9⟩ false
        let buf ← save g []
        let g' ← load SumTree.sequential buf
        let x ← g.hasEdge ⟨8, 9⟩ ⟨9, 9⟩
        let y ← g'.hasEdge ⟨8, 9⟩ ⟨9, 9⟩
        pure (decide (g'.verts = g.verts), x, y)) = (.ok (false, true, false) : Res _) := by
  decide +kernel

/-! ### C29 -/

/-- **C29** Saving never leaves the file: it succeeds over any previous contents, the file has
exactly the computed size, and the stores fill an initial part of it, each byte once, in
ascending order (so the regions do not overlap). -/
theorem C29_save_inside (g : Graph) (hg : UserGraph g) (old : Buf) :
    ∃ k ws buf, countCrossing g = .ok k ∧ stores g k = .ok ws ∧ save g old = .ok buf ∧
      buf.length = fileSize g k ∧ ws.map Prod.fst = List.range ws.length ∧
      ws.length ≤ fileSize g k := by
  have hb := hg.regular.built
  have hle := encode_le hb
  refine ⟨_, _, _, countCrossing_ok hb.shape, stores_ok hb.shape, save_ok hb old, ?_, ?_, ?_⟩
  · rw [List.length_append, List.length_drop, allocate_length]; omega
  · rw [storeAt_fst, storeAt_length, List.range_eq_range']
  · rw [storeAt_length]; omega

/-- **C29** Loading a saved file never leaves it, whatever the file contained before saving. -/
theorem C29_load_inside (T : ℕ → SumTree) (g : Graph) (hg : UserGraph g) (hs : Storable T g)
    (old buf : Buf) (h : save g old = .ok buf) : ∃ g', load T buf = .ok g' := by
  have hr := hg.regular
  rw [save_ok hr.built] at h
  obtain rfl := Except.ok.inj h
  obtain ⟨g', h1, _⟩ := load_complete hs hr
    ((allocate old (fileSize g (crossCount g))).drop (encode g).length)
    (by rw [List.length_drop, allocate_length, ← encode_le hr.built]; omega)
  exact ⟨g', h1⟩

/-- **C29** is false for graphs with a vertex added by `add_vertex`: the file of this
three-vertex graph makes the loader read outside it. -/
theorem C29_added_vertex_false :
    (do let g := (Graph.ofPolygons [[⟨0, 0⟩, ⟨1, 0⟩]]).addVertex ⟨5, 5⟩
        let g1 ← g.addEdge ⟨0, 0⟩ ⟨5, 5⟩ true
        let buf ← save g1 []
        let _ ← load SumTree.sequential buf
        pure ()) = (.error .ub : Res _) := by
  decide +kernel

/-! ### C30 -/

/-- **C30** (partial: everything but the crossing flags of plain edges.)  Whatever the file
contained before, the loaded graph has the saved polygons, vertices and edges, and crossing
edges stay crossing. -/
theorem C30_overwrite_partial (T : ℕ → SumTree) (g : Graph) (hg : UserGraph g) (hs : Storable T g)
    (old : Buf) :
    ∃ buf g', save g old = .ok buf ∧ load T buf = .ok g' ∧
      g'.polygons = g.polygons ∧ g'.verts = g.verts ∧
      ∀ a ∈ g.verts, ∀ b ∈ g.verts, g'.hasEdge a b = g.hasEdge a b ∧
        (g.isCrossing a b = .ok true → g'.isCrossing a b = .ok true) := by
  have hr := hg.regular
  have hb := hr.built
  obtain ⟨g', h1, h2, h3, h4, h5⟩ := load_complete hs hr
    ((allocate old (fileSize g (crossCount g))).drop (encode g).length)
    (by rw [List.length_drop, allocate_length, ← encode_le hb]; omega)
  refine ⟨_, g', save_ok hb old, h1, h3, h4, ?_⟩
  have hs' := h2.regular.built.shape
  intro a ha b hb'
  have ha' := h4.symm ▸ ha
  have hb'' := h4.symm ▸ hb'
  rw [Graph.hasEdge_ok hs' ha' hb'', Graph.hasEdge_ok hb.shape ha hb',
    Graph.isCrossing_ok hs' ha' hb'', Graph.isCrossing_ok hb.shape ha hb']
  by_cases hab : a = b
  · simp [hab]
  · obtain ⟨h6, h7⟩ := h5 a ha b hb' hab
    constructor
    · congr 2
      rw [Bool.eq_iff_iff, bne_iff_ne, bne_iff_ne]; exact h6
    · intro h
      have h := Except.ok.inj h
      rw [Bool.and_eq_true, beq_iff_eq] at h
      congr 1
      rw [Bool.and_eq_true, beq_iff_eq]
      exact ⟨h.1, h7.2 (Or.inl h.2)⟩

/-- **C30** For graphs without crossing edges overwriting is safe. -/
theorem C30_no_crossing (T : ℕ → SumTree) (g : Graph) (hg : UserGraph g) (hs : Storable T g)
    (hc : ∀ a ∈ g.verts, ∀ b ∈ g.verts, g.isCrossing a b = .ok false) (old : Buf) :
    ∃ buf g', save g old = .ok buf ∧ load T buf = .ok g' ∧
      g'.polygons = g.polygons ∧ g'.verts = g.verts ∧ SameAnswers g' g := by
  have hr := hg.regular
  have hb := hr.built
  obtain ⟨g', h1, h2, h3, h4, h5⟩ := load_complete hs hr
    ((allocate old (fileSize g (crossCount g))).drop (encode g).length)
    (by rw [List.length_drop, allocate_length, ← encode_le hb]; omega)
  refine ⟨_, g', save_ok hb old, h1, h3, h4, ?_⟩
  rw [Graph.sameAnswers_iff h2.regular.built.shape hb.shape]
  refine ⟨fun c => by rw [h4], ?_⟩
  intro a ha b hb' hab
  rw [h4] at ha hb'
  obtain ⟨h6, h7⟩ := h5 a ha b hb' hab
  refine ⟨h6, h7.trans ?_⟩
  have h0 : crossCount g = 0 := by
    unfold crossCount
    rw [List.sum_eq_zero]
    intro x hx
    obtain ⟨i, hi, rfl⟩ := List.mem_map.1 hx
    rw [List.mem_range] at hi
    apply List.sum_eq_zero
    intro y hy
    obtain ⟨j, hj, rfl⟩ := List.mem_map.1 hy
    rw [List.mem_range] at hj
    have := hc _ (vAt_mem hi) _ (vAt_mem hj)
    rw [Graph.isCrossing_ok hb.shape (vAt_mem hi) (vAt_mem hj)] at this
    have := Except.ok.inj this
    rw [if_neg]
    unfold crosses
    rw [this]; simp
  constructor
  · rintro (h | ⟨_, hall⟩)
    · exact h
    · exfalso
      obtain ⟨i, hi, rfl⟩ := exists_vAt ha
      obtain ⟨l, hl, rfl⟩ := exists_vAt hb'
      rcases lt_trichotomy l i with h | h | h
      · obtain ⟨k, _, hk, _⟩ := hall i l hi h (Or.inl ⟨rfl, rfl⟩)
        omega
      · exact hab (by rw [h])
      · obtain ⟨k, _, hk, _⟩ := hall l i hl h (Or.inr ⟨rfl, rfl⟩)
        omega
  · exact Or.inl

/-- The graph of a triangle with edge `0–1` crossing and `0–2` crossing as told. -/
def overwriteExample (m : Bool) : Res Graph := do
  let g ← (Graph.ofPolygons [[⟨0, 0⟩, ⟨10, 0⟩, ⟨0, 10⟩]]).addEdge ⟨0, 0⟩ ⟨10, 0⟩ true
  g.addEdge ⟨0, 0⟩ ⟨0, 10⟩ m

/-- **C30** is false: saving a graph over the file of an older version of it, in which one more
edge was crossing, and loading it again, that edge is crossing again. -/
theorem C30_stale_false :
    (do let old ← overwriteExample true
        let g ← overwriteExample false
        let f ← save old []
        let f' ← save g f
        let g' ← load SumTree.sequential f'
        let x ← g.isCrossing ⟨0, 0⟩ ⟨0, 10⟩
        let y ← g'.isCrossing ⟨0, 0⟩ ⟨0, 10⟩
        pure (x, y)) = (.ok (false, true) : Res _) := by
  decide +kernel

/-! ### C31 -/

/-- A file of zeros loads as the empty graph. -/
theorem load_allocated (T : ℕ → SumTree) (g : Graph) :
    load T (allocate [] (fileSize g (crossCount g))) = .ok (Graph.ofPolygons []) := by
  have hz : ∀ off, off + 8 ≤ fileSize g (crossCount g) →
      get64 (allocate [] (fileSize g (crossCount g))) off = .ok 0 := by
    intro off hoff
    rw [get64_word (by rw [allocate_length]; exact hoff), word_zero]
    intro k hk
    simp only [allocate, List.take_nil, List.nil_append, List.length_nil, Nat.sub_zero,
      List.getD_eq_getElem?_getD, List.getElem?_replicate]
    split_ifs <;> rfl
  have hsz : 16 ≤ fileSize g (crossCount g) := by unfold fileSize; omega
  have hne : allocate [] (fileSize g (crossCount g)) ≠ [] := by
    intro h
    have := congrArg List.length h
    rw [allocate_length, List.length_nil] at this
    omega
  unfold load
  rw [if_neg hne, hz 0 (by omega), Res.bind_ok]
  have h0 : (0 : BitVec 64).toNat = 0 := rfl
  rw [h0, loadPolygons, Res.bind_ok]
  unfold loadMatrix
  have hv : (Graph.ofPolygons []).verts.length = 0 := rfl
  simp only [hv, rowOff]
  rw [hz 8 (by omega), Res.bind_ok, h0]
  rfl

/-- **C31** is false for every graph: a save into a new file interrupted right after the
allocation is loaded as the empty graph, without an error. -/
theorem C31_after_allocation_false (T : ℕ → SumTree) (g : Graph) (hg : UserGraph g) :
    ∃ buf g', crashedSave g [] 0 = .ok buf ∧ load T buf = .ok g' ∧ g'.polygons = [] ∧
      g'.verts = [] :=
  ⟨_, Graph.ofPolygons [], crashedSave_ok hg.regular.built [] 0, load_allocated T g, rfl, rfl⟩

/-- **C31** is false also later on: interrupted before the list of crossing edges is written,
the file is loaded with a crossing edge turned into a plain one. -/
theorem C31_crossing_lost_false :
    (do let g ← overwriteExample false
        let f ← crashedSave g [] 42
        let g' ← load SumTree.sequential f
        let x ← g'.hasEdge ⟨0, 0⟩ ⟨10, 0⟩
        let y ← g.isCrossing ⟨0, 0⟩ ⟨10, 0⟩
        let z ← g'.isCrossing ⟨0, 0⟩ ⟨10, 0⟩
        pure (x, y, z)) = (.ok (true, true, false) : Res _) := by
  decide +kernel

/-- **C31** A new file interrupted at any byte store after header and polygons are written is
loaded without an error or undefined behaviour, with the right polygons and vertices and no edge
that was not there; with all edges once the matrix is written. -/
theorem C31_after_polygons (T : ℕ → SumTree) (g : Graph) (hg : UserGraph g) (hs : Storable T g)
    (n : ℕ) (hn : polygonsEnd 8 g.polygons ≤ n) :
    ∃ buf g', crashedSave g [] n = .ok buf ∧ load T buf = .ok g' ∧
      g'.polygons = g.polygons ∧ g'.verts = g.verts ∧
      (∀ a b, g'.hasEdge a b = .ok true → g.hasEdge a b = .ok true) ∧
      (rowOff (polygonsEnd 8 g.polygons) g.verts.length ≤ n →
        ∀ a ∈ g.verts, ∀ b ∈ g.verts, g'.hasEdge a b = g.hasEdge a b) := by
  have hr := hg.regular
  have hb := hr.built
  set m := fileSize g (crossCount g) with hm
  set B := (encode g).take n ++ (allocate [] m).drop ((encode g).take n).length with hB
  have hlen : B.length = m := by
    have := encode_le hb
    rw [hB, List.length_append, List.length_drop, allocate_length, List.length_take]; omega
  have hget : ∀ k, B.getD k 0 = if k < n then (encode g).getD k 0 else 0 := fun k => crashed_getD
  -- the head is complete
  obtain ⟨t, ht⟩ : ∃ t, B = head g ++ t := by
    refine ⟨((encode g).drop (head g).length).take (n - (head g).length) ++
      (allocate [] m).drop ((encode g).take n).length, ?_⟩
    have he : encode g = head g ++ (encode g).drop (head g).length := by
      have h1 : encode g = head g ++ (rows g 0 g.verts.length ++
        (le64 (BitVec.ofNat 64 (crossCount g)) ++ encNumbers (crossList g))) := by
        simp [encode]
      rw [h1, List.drop_left]
    have h2 : (encode g).take n = head g ++ ((encode g).drop (head g).length).take
        (n - (head g).length) := by
      conv_lhs => rw [he]
      rw [List.take_append, List.take_of_length_le (by rw [head_length]; exact hn)]
    rw [hB]
    conv_lhs => rw [h2]
    rw [h2, List.append_assoc]
  set off := polygonsEnd 8 g.polygons with hoff
  set back := rowOff off g.verts.length with hback
  have hsize : back + ceilDiv g.verts.length 8 + 8 * (crossCount g + 1) = m := by
    rw [hm, fileSize, hback, rowOff_add, hoff, polygonsEnd_eq, ← hb.verts, matrixBytes_eq]; omega
  -- the complete file
  have hfull : ∀ i < g.verts.length, ∀ j < ceilDiv i 8,
      (encode g)[rowOff off i + j]? = some (byteOf g i j) := by
    intro i hi j hj
    have h0 : (encode g).drop 0 = head g ++ (rows g 0 g.verts.length ++
      (le64 (BitVec.ofNat 64 (crossCount g)) ++ encNumbers (crossList g))) := by
      simp [encode]
    have h1 := drop_of_drop h0
    rw [head_length, Nat.zero_add] at h1
    exact byte_of_rows h1 hi hj
  have hmono : ∀ i < g.verts.length, rowOff off i + ceilDiv i 8 ≤ back := by
    intro i hi
    have : ∀ k, rowOff off (i + 1) ≤ rowOff off (i + 1 + k) := by
      intro k
      induction k with
      | zero => exact le_refl _
      | succ k ih => exact ih.trans (Nat.le_add_right _ _)
    have h1 := this (g.verts.length - (i + 1))
    rw [show i + 1 + (g.verts.length - (i + 1)) = g.verts.length by omega] at h1
    exact h1
  have hword : (word B back).toNat ≤ crossCount g := by
    have h1 : (word (encode g) back).toNat ≤ crossCount g := by
      have h0 : (encode g).drop back =
          le64 (BitVec.ofNat 64 (crossCount g)) ++ encNumbers (crossList g) := by
        have h0 : (encode g).drop 0 = (head g ++ rows g 0 g.verts.length) ++
          (le64 (BitVec.ofNat 64 (crossCount g)) ++ encNumbers (crossList g)) := by
          simp [encode]
        have h1 := drop_of_drop h0
        have h2 := rows_length g 0 g.verts.length
        rw [Nat.zero_add] at h2
        rw [List.length_append, head_length, Nat.zero_add] at h1
        rw [hback, rowOff_add, ← h2, ← h1]; simp [rowOff, hoff]
      have h2 := get64_of_drop h0
      rw [get64_word (by rw [encode_length, ← hoff, ← hback]; omega)] at h2
      rw [Except.ok.inj h2, BitVec.toNat_ofNat]
      exact Nat.mod_le _ _
    refine (word_le fun k _ => ?_).trans h1
    rw [hget]
    split_ifs
    · exact Or.inl rfl
    · exact Or.inr rfl
  have hv : g.polygons.flatten = g.verts := hb.verts.symm
  obtain ⟨g', h1, h2, h3, h4, h5⟩ := loadMatrix_ok B g.polygons off
    (fun i j => B.getD (rowOff off i + j) 0) (word B back)
    ((List.range (word B back).toNat).map fun i => word B (back + (i + 1) * 8))
    (by
      rw [hv]; intro i hi j hj
      have := hmono i hi
      rw [List.getD_eq_getElem?_getD, List.getElem?_eq_getElem (by omega)]; rfl)
    (by rw [hv]; exact get64_word (by omega))
    (by rw [hv]; exact loadNumbers_ok (by omega))
  rw [hv] at h4 h5
  have hv' : ∀ i, vAt g' i = vAt g i := by intro i; unfold vAt; rw [h4]
  have hs' := h2.regular.built.shape
  have hmark : ∀ i l, Marked g.verts.length (fun i j => B.getD (rowOff off i + j) 0) i l →
      Marked g.verts.length (byteOf g) i l := by
    rintro i l ⟨m1, m2, m3, m4⟩
    refine ⟨m1, m2, m3, ?_⟩
    have e := hget (rowOff off i + l / 8)
    beta_reduce at m4
    rw [e] at m4
    rw [List.getD_eq_getElem?_getD, hfull i m1 _ m3] at m4
    split_ifs at m4
    · simpa using m4
    · simp at m4
  have hmark' : back ≤ n → ∀ i l, Marked g.verts.length (byteOf g) i l →
      Marked g.verts.length (fun i j => B.getD (rowOff off i + j) 0) i l := by
    rintro hbn i l ⟨m1, m2, m3, m4⟩
    refine ⟨m1, m2, m3, ?_⟩
    have := hmono i m1
    have e := hget (rowOff off i + l / 8)
    beta_reduce
    rw [e, List.getD_eq_getElem?_getD, hfull i m1 _ m3, if_pos (by omega)]
    simpa using m4
  have hfwd : ∀ a ∈ g.verts, ∀ b ∈ g.verts, a ≠ b → g'.bits a b ≠ 0 → g.bits a b ≠ 0 := by
    intro a ha b hb' hab hne
    obtain ⟨i, l, hmk, hp⟩ := (h5 a (h4.symm ▸ ha) b (h4.symm ▸ hb') hab).1.1 hne
    obtain ⟨_, _, hadj⟩ := marked_byteOf.1 (hmark i l hmk)
    rw [hv', hv'] at hp
    unfold adj at hadj
    rcases hp with ⟨p1, p2⟩ | ⟨p1, p2⟩
    · rw [p1, p2, Bool.and_eq_true, bne_iff_ne, bne_iff_ne] at hadj; exact hadj.2
    · rw [p1, p2, Bool.and_eq_true, bne_iff_ne, bne_iff_ne, hr.sym] at hadj; exact hadj.2
  refine ⟨B, g', crashedSave_ok hb [] n, ?_, h3, h4, ?_, ?_⟩
  · rw [← h1]; conv_lhs => rw [ht]
    rw [load_head hs hb, ← ht]
  · intro a b h
    obtain ⟨ha, hb', hab, hne⟩ := Graph.hasEdge_true_mem hs' h
    rw [h4] at ha hb'
    rw [Graph.hasEdge_ok hb.shape ha hb']
    congr 1
    rw [Bool.and_eq_true, bne_iff_ne, bne_iff_ne]
    exact ⟨hab, hfwd a ha b hb' hab hne⟩
  · intro hbn a ha b hb'
    rw [Graph.hasEdge_ok hs' (h4.symm ▸ ha) (h4.symm ▸ hb'), Graph.hasEdge_ok hb.shape ha hb']
    by_cases hab : a = b
    · simp [hab]
    · congr 2
      rw [Bool.eq_iff_iff, bne_iff_ne, bne_iff_ne]
      refine ⟨hfwd a ha b hb' hab, fun hne => ?_⟩
      rw [(h5 a (h4.symm ▸ ha) b (h4.symm ▸ hb') hab).1]
      obtain ⟨i, hi, rfl⟩ := exists_vAt ha
      obtain ⟨l, hl, rfl⟩ := exists_vAt hb'
      rcases lt_trichotomy l i with h | h | h
      · refine ⟨i, l, hmark' hbn i l (marked_byteOf.2 ⟨hi, h, ?_⟩), Or.inl ⟨hv' i, hv' l⟩⟩
        unfold adj
        rw [Bool.and_eq_true, bne_iff_ne, bne_iff_ne]
        exact ⟨hab, hne⟩
      · exact absurd (by rw [h]) hab
      · refine ⟨l, i, hmark' hbn l i (marked_byteOf.2 ⟨hl, h, ?_⟩), Or.inr ⟨hv' l, hv' i⟩⟩
        unfold adj
        rw [Bool.and_eq_true, bne_iff_ne, bne_iff_ne, hr.sym]
        exact ⟨fun h => hab h.symm, hne⟩

/-- **C31** Once all stores were made, the interrupted save is complete. -/
theorem C31_complete (g : Graph) (hg : UserGraph g) (old : Buf) :
    ∃ k ws, countCrossing g = .ok k ∧ stores g k = .ok ws ∧
      ∀ n, ws.length ≤ n → crashedSave g old n = save g old := by
  have hb := hg.regular.built
  refine ⟨_, _, countCrossing_ok hb.shape, stores_ok hb.shape, fun n hn => ?_⟩
  rw [storeAt_length] at hn
  rw [crashedSave_ok hb, save_ok hb, List.take_of_length_le hn]

/-- Non-vacuity: a storable graph with a crossing and a plain edge, whose file has 67 bytes. -/
theorem exStorable : ∃ g, UserGraph g ∧ Storable SumTree.sequential g ∧
    (save g []).map List.length = .ok 67 ∧ g.verts.length = 3 ∧
    g.isCrossing ⟨0, 0⟩ ⟨10, 0⟩ = .ok true ∧ g.isCrossing ⟨0, 0⟩ ⟨0, 10⟩ = .ok false ∧
    g.hasEdge ⟨0, 0⟩ ⟨0, 10⟩ = .ok true ∧
    g.polygons = [[⟨0, 0⟩, ⟨10, 0⟩, ⟨0, 10⟩]] ∧ g.verts = [⟨0, 0⟩, ⟨10, 0⟩, ⟨0, 10⟩] ∧
    g.hasEdge ⟨0, 10⟩ ⟨10, 0⟩ = .ok false := by
  have ho : OpsOn [[(⟨0, 0⟩ : Coord), ⟨10, 0⟩, ⟨0, 10⟩]].flatten
      [Op.add ⟨0, 0⟩ ⟨10, 0⟩ true, Op.add ⟨0, 0⟩ ⟨0, 10⟩ false] := by unfold OpsOn; decide
  obtain ⟨g, h1, h2, h3⟩ := (Graph.ok_fresh [[⟨0, 0⟩, ⟨10, 0⟩, ⟨0, 10⟩]]).run _ ho
  have e : ∀ f : Graph → Res Bool, f g = ((Graph.ofPolygons [[⟨0, 0⟩, ⟨10, 0⟩, ⟨0, 10⟩]]).run
      [Op.add ⟨0, 0⟩ ⟨10, 0⟩ true, Op.add ⟨0, 0⟩ ⟨0, 10⟩ false] >>= f) := by
    intro f; rw [h1]; rfl
  have e' : (save g []).map List.length = ((Graph.ofPolygons [[⟨0, 0⟩, ⟨10, 0⟩, ⟨0, 10⟩]]).run
      [Op.add ⟨0, 0⟩ ⟨10, 0⟩ true, Op.add ⟨0, 0⟩ ⟨0, 10⟩ false] >>= fun g =>
        (save g []).map List.length) := by
    rw [h1]; rfl
  refine ⟨g, ⟨_, _, ?_, ho, h1⟩, ⟨?_, ?_, ?_, ?_⟩, ?_, ?_, ?_, ?_, ?_, h2.polygons, h2.verts, ?_⟩
  · intro o h
    simp only [List.mem_cons, List.not_mem_nil, or_false] at h
    rcases h with rfl | rfl <;> trivial
  · rw [h2.polygons]
    decide
  · rw [h2.polygons]
    intro p hp
    have : p = [⟨0, 0⟩, ⟨10, 0⟩, ⟨0, 10⟩] := by simpa [Graph.ofPolygons] using hp
    subst this
    decide +kernel
  · rw [h2.polygons]; decide
  · rw [h2.verts]; decide
  · rw [e']; decide +kernel
  · rw [h2.verts]; decide
  · rw [e fun g => g.isCrossing ⟨0, 0⟩ ⟨10, 0⟩]; decide +kernel
  · rw [e fun g => g.isCrossing ⟨0, 0⟩ ⟨0, 10⟩]; decide +kernel
  · rw [e fun g => g.hasEdge ⟨0, 0⟩ ⟨0, 10⟩]; decide +kernel
  · rw [e fun g => g.hasEdge ⟨0, 10⟩ ⟨10, 0⟩]; decide +kernel

/-- C28–C31 on the file of that graph. -/
example : ∃ g, UserGraph g ∧ g.isCrossing ⟨0, 0⟩ ⟨10, 0⟩ = .ok true ∧
    (∃ buf g', save g [] = .ok buf ∧ load SumTree.sequential buf = .ok g' ∧ SameAnswers g' g) ∧
    (∃ buf g', save g (List.replicate 500 255) = .ok buf ∧
      load SumTree.sequential buf = .ok g' ∧ g'.verts = g.verts) ∧
    ∃ buf g', crashedSave g [] (polygonsEnd 8 g.polygons + 2) = .ok buf ∧
      load SumTree.sequential buf = .ok g' ∧ g'.verts = g.verts := by
  obtain ⟨g, hg, hs, -, h3, h4, -⟩ := exStorable
  obtain ⟨b1, g1, s1, l1, -, -, -, a1⟩ := C28_roundtrip _ g hg hs
  obtain ⟨b2, g2, s2, l2, -, v2, -⟩ := C30_overwrite_partial _ g hg hs (List.replicate 500 255)
  obtain ⟨b3, g3, s3, l3, -, v3, -⟩ := C31_after_polygons _ g hg hs
    (polygonsEnd 8 g.polygons + 2) (by omega)
  exact ⟨g, hg, h4, ⟨b1, g1, s1, l1, a1⟩, ⟨b2, g2, s2, l2, v2⟩, ⟨b3, g3, s3, l3, v3⟩⟩

example : polygonC SumTree.sequential (mk SumTree.sequential
    [⟨0, 0⟩, ⟨100000, 0⟩, ⟨100000, 100000⟩]) =
    .ok (mk SumTree.sequential [⟨0, 0⟩, ⟨100000, 0⟩, ⟨100000, 100000⟩]) := by
  have e : removeCollinear [(⟨0, 0⟩ : Coord), ⟨100000, 0⟩, ⟨100000, 100000⟩] =
      [⟨0, 0⟩, ⟨100000, 0⟩, ⟨100000, 100000⟩] := by decide +kernel
  exact (C28_stable _ sequential_ok _ (by decide) (by decide) (by rw [e]; decide)
    (by rw [e]; decide +kernel)).1

end Capi
