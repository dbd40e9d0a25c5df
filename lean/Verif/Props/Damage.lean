import Verif.Lemmas.Damage
import Verif.Props.Cut

/-!
# C84: files with damaged contents

The file has no check sum.  It consists of the polygons, one bit for every pair of vertices, the
number of crossing edges and their numbers.
-/

namespace Capi

open Serial Polygon

/-- Where the bits of the pairs begin. -/
def bitsStart (g : Graph) : ℕ := 8 + 8 * g.polygons.length + 8 * g.verts.length

/-- The byte with the bit of the pair `i`, `l`; vertex `m` has a row of `⌈m/8⌉` bytes. -/
def bitPlace (g : Graph) (i l : ℕ) : ℕ :=
  bitsStart g + ∑ m ∈ Finset.range i, (m + 7) / 8 + l / 8

/-- Where the number of crossing edges is. -/
def countStart (g : Graph) : ℕ :=
  bitsStart g + ∑ m ∈ Finset.range g.verts.length, (m + 7) / 8

theorem bitsStart_eq {g : Graph} (hb : g.Built) : polygonsEnd 8 g.polygons = bitsStart g := by
  rw [polygonsEnd_eq, bitsStart, ← hb.verts]

theorem countStart_eq {g : Graph} (hb : g.Built) :
    rowOff (polygonsEnd 8 g.polygons) g.verts.length = countStart g := by
  rw [rowOff_sum, bitsStart_eq hb, countStart]

theorem countStart_room {g : Graph} (hb : g.Built) :
    countStart g + 8 + 8 * crossCount g ≤ fileSize g (crossCount g) := by
  have h1 := encode_le hb
  have h2 := encode_length g
  have h3 := crossList_length_le g
  rw [countStart_eq hb] at h2
  omega

theorem getD_of_eq {b c : Buf} {k : ℕ} (h : b[k]? = c[k]?) : b.getD k 0 = c.getD k 0 := by
  rw [List.getD_eq_getElem?_getD, List.getD_eq_getElem?_getD, h]

theorem word_congr {b c : Buf} {off : ℕ} (h : ∀ k < 8, b.getD (off + k) 0 = c.getD (off + k) 0) :
    word b off = word c off := by
  apply BitVec.eq_of_getLsbD_eq
  intro i hi
  rw [word_bit _ _ _ hi, word_bit _ _ _ hi, h _ (by omega)]

/-- A saved file with changes outside the polygons and the number of crossing edges. -/
theorem load_changed {T : ℕ → SumTree} {g : Graph} (hg : UserGraph g) (hs : Storable T g)
    {old buf : Buf} (h : save g old = .ok buf) {buf' : Buf} (hl : buf'.length = buf.length)
    (hp : ∀ k < bitsStart g, buf'[k]? = buf[k]?)
    (hc : ∀ k, countStart g ≤ k → k < countStart g + 8 → buf'[k]? = buf[k]?) :
    ∃ g', load T buf' = .ok g' ∧ UserGraph g' ∧ g'.polygons = g.polygons ∧ g'.verts = g.verts ∧
      ∀ a ∈ g.verts, ∀ b ∈ g.verts, a ≠ b →
        (g'.bits a b ≠ 0 ↔ ∃ i l, Marked g.verts.length
            (fun i j => buf'.getD (rowOff (polygonsEnd 8 g.polygons) i + j) 0) i l ∧
          ((vAt g i = a ∧ vAt g l = b) ∨ (vAt g i = b ∧ vAt g l = a))) := by
  have hb := hg.regular.built
  obtain ⟨rest, hbuf, hlen⟩ := saved_parts hb h
  have hw : (word buf' (countStart g)).toNat = crossCount g := by
    rw [word_congr (c := buf) fun k hk => getD_of_eq (hc _ (by omega) (by omega)), hbuf,
      ← countStart_eq hb, saved_count hs]
  obtain ⟨t, ht⟩ : ∃ t, buf' = head g ++ t := by
    apply prefix_of_agree (y := (encode g).drop (head g).length ++ rest)
    intro k hk
    rw [head_length, bitsStart_eq hb] at hk
    rw [hp k hk, hbuf]
    congr 1
    have : encode g = head g ++ (rows g 0 g.verts.length ++
        (le64 (BitVec.ofNat 64 (crossCount g)) ++ encNumbers (crossList g))) := by simp [encode]
    rw [← List.append_assoc]
    congr 1
    rw [this, List.drop_left]
  refine load_any hs hb ht ?_
  rw [countStart_eq hb, hw, hl, hlen]
  exact countStart_room hb

/-- **C84** (partial: damage outside the polygons and the number of crossing edges.)  Such a file is
loaded without undefined behaviour, and the polygons and vertices are those saved. -/
theorem C84_contained_partial (T : ℕ → SumTree) (g : Graph) (hg : UserGraph g) (hs : Storable T g)
    (old buf buf' : Buf) (h : save g old = .ok buf) (hl : buf'.length = buf.length)
    (hp : ∀ k < bitsStart g, buf'[k]? = buf[k]?)
    (hc : ∀ k, countStart g ≤ k → k < countStart g + 8 → buf'[k]? = buf[k]?) :
    ∃ g', load T buf' = .ok g' ∧ UserGraph g' ∧ g'.polygons = g.polygons ∧ g'.verts = g.verts := by
  obtain ⟨g', h1, h2, h3, h4, -⟩ := load_changed hg hs h hl hp hc
  exact ⟨g', h1, h2, h3, h4⟩

/-- The bits of a saved file. -/
theorem marked_saved {g : Graph} (hg : UserGraph g)
    {old buf : Buf} (h : save g old = .ok buf) {i l : ℕ} :
    Marked g.verts.length
      (fun i j => buf.getD (rowOff (polygonsEnd 8 g.polygons) i + j) 0) i l ↔
      Marked g.verts.length (byteOf g) i l := by
  obtain ⟨rest, hbuf, -⟩ := saved_parts hg.regular.built h
  unfold Marked
  refine and_congr_right fun hi => and_congr_right fun _ => and_congr_right fun hj => ?_
  beta_reduce
  rw [List.getD_eq_getElem?_getD, hbuf, saved_byte hi hj]
  rfl

/-- A vertex pair is joined if one of its places is marked. -/
theorem edge_marked {g : Graph} (hg : UserGraph g) {a b : Coord} (ha : a ∈ g.verts)
    (hb : b ∈ g.verts) (hab : a ≠ b) :
    g.bits a b ≠ 0 ↔ ∃ i l, Marked g.verts.length (byteOf g) i l ∧
      ((vAt g i = a ∧ vAt g l = b) ∨ (vAt g i = b ∧ vAt g l = a)) := by
  have hr := hg.regular
  constructor
  · intro hne
    obtain ⟨i, hi, rfl⟩ := exists_vAt ha
    obtain ⟨l, hl, rfl⟩ := exists_vAt hb
    rcases lt_trichotomy l i with h | h | h
    · refine ⟨i, l, marked_byteOf.2 ⟨hi, h, ?_⟩, Or.inl ⟨rfl, rfl⟩⟩
      unfold adj
      rw [Bool.and_eq_true, bne_iff_ne, bne_iff_ne]
      exact ⟨hab, hne⟩
    · exact absurd (by rw [h]) hab
    · refine ⟨l, i, marked_byteOf.2 ⟨hl, h, ?_⟩, Or.inr ⟨rfl, rfl⟩⟩
      unfold adj
      rw [Bool.and_eq_true, bne_iff_ne, bne_iff_ne, hr.sym]
      exact ⟨fun h => hab h.symm, hne⟩
  · rintro ⟨i, l, hm, hp⟩
    obtain ⟨-, -, hadj⟩ := marked_byteOf.1 hm
    unfold adj at hadj
    rcases hp with ⟨rfl, rfl⟩ | ⟨rfl, rfl⟩
    · rw [Bool.and_eq_true, bne_iff_ne, bne_iff_ne] at hadj; exact hadj.2
    · rw [Bool.and_eq_true, bne_iff_ne, bne_iff_ne, hr.sym] at hadj; exact hadj.2

/-- **C84** Damage behind the number of crossing edges changes no edge, at most whether it crosses
the meridian. -/
theorem C84_numbers (T : ℕ → SumTree) (g : Graph) (hg : UserGraph g) (hs : Storable T g)
    (old buf buf' : Buf) (h : save g old = .ok buf) (hl : buf'.length = buf.length)
    (hp : ∀ k < countStart g + 8, buf'[k]? = buf[k]?) :
    ∃ g', load T buf' = .ok g' ∧ g'.polygons = g.polygons ∧ g'.verts = g.verts ∧
      ∀ a ∈ g.verts, ∀ b ∈ g.verts, g'.hasEdge a b = g.hasEdge a b := by
  have hb := hg.regular.built
  have hbc : bitsStart g ≤ countStart g := Nat.le_add_right _ _
  obtain ⟨g', h1, h2, h3, h4, h5⟩ := load_changed hg hs h hl (fun k hk => hp k (by omega))
    (fun k _ hk => hp k hk)
  refine ⟨g', h1, h3, h4, fun a ha b hb' => ?_⟩
  rw [Graph.hasEdge_ok h2.regular.built.shape (h4.symm ▸ ha) (h4.symm ▸ hb'),
    Graph.hasEdge_ok hb.shape ha hb']
  by_cases hab : a = b
  · simp [hab]
  · congr 2
    rw [Bool.eq_iff_iff, bne_iff_ne, bne_iff_ne, h5 a ha b hb' hab, edge_marked hg ha hb' hab]
    refine exists_congr fun i => exists_congr fun l => and_congr_left fun _ => ?_
    rw [← marked_saved hg h]
    unfold Marked
    refine and_congr_right fun hi => and_congr_right fun _ => and_congr_right fun hj => ?_
    have : rowOff (polygonsEnd 8 g.polygons) (i + 1) ≤ countStart g := by
      rw [← countStart_eq hb]; exact rowOff_strict _ hi
    rw [rowOff] at this
    beta_reduce
    rw [getD_of_eq (hp _ (by omega))]

theorem rowOff_place {g : Graph} (hb : g.Built) (i l : ℕ) :
    rowOff (polygonsEnd 8 g.polygons) i + l / 8 = bitPlace g i l := by
  rw [rowOff_sum, bitsStart_eq hb, bitPlace]

/-- Different pairs have different bits. -/
theorem place_inj {g : Graph} (hb : g.Built) {i l i' l' : ℕ} (h : l / 8 < ceilDiv i 8)
    (h' : l' / 8 < ceilDiv i' 8) (he : bitPlace g i l = bitPlace g i' l') (hm : l % 8 = l' % 8) :
    i = i' ∧ l = l' := by
  rw [← rowOff_place hb, ← rowOff_place hb] at he
  have key : ∀ {m k p q : ℕ}, p / 8 < ceilDiv m 8 → m < k →
      rowOff (polygonsEnd 8 g.polygons) m + p / 8 <
        rowOff (polygonsEnd 8 g.polygons) k + q / 8 := by
    intro m k p q hp hk
    have := rowOff_strict (polygonsEnd 8 g.polygons) hk
    rw [rowOff] at this
    omega
  rcases lt_trichotomy i i' with hi | hi | hi
  · have := key (q := l') h hi; omega
  · subst hi; exact ⟨rfl, by omega⟩
  · have := key (q := l) h' hi; omega

/-- **C84** is false: for every saved graph and every pair of its vertices there is a bit of the
file whose inversion goes unnoticed and adds or removes just the edge between them. -/
theorem C84_silent_false (T : ℕ → SumTree) (g : Graph) (hg : UserGraph g) (hs : Storable T g)
    (hn : g.verts.Nodup) (old buf : Buf) (h : save g old = .ok buf) (i l : ℕ)
    (hi : i < g.verts.length) (hli : l < i) :
    let u := g.verts[i]
    let v := g.verts[l]
    ∃ g' e, load T (buf.modify (bitPlace g i l) fun x => x ^^^ (1#8 <<< (l % 8))) = .ok g' ∧
      g'.polygons = g.polygons ∧ g'.verts = g.verts ∧
      g.hasEdge u v = .ok e ∧ g'.hasEdge u v = .ok (!e) ∧ g'.hasEdge v u = .ok (!e) ∧
      ∀ a ∈ g.verts, ∀ b ∈ g.verts, ¬ (a = u ∧ b = v) → ¬ (a = v ∧ b = u) →
        g'.hasEdge a b = g.hasEdge a b := by
  intro u v
  have hb := hg.regular.built
  have hu : vAt g i = u := by
    unfold vAt; rw [List.getD_eq_getElem?_getD, List.getElem?_eq_getElem hi]; rfl
  have hv : vAt g l = v := by
    unfold vAt; rw [List.getD_eq_getElem?_getD, List.getElem?_eq_getElem (by omega)]; rfl
  have hinj : ∀ {m k : ℕ}, m < g.verts.length → k < g.verts.length → vAt g m = vAt g k → m = k := by
    intro m k hm hk he
    unfold vAt at he
    rw [List.getD_eq_getElem?_getD, List.getD_eq_getElem?_getD, List.getElem?_eq_getElem hm,
      List.getElem?_eq_getElem hk] at he
    exact hn.getElem_inj_iff.1 he
  have huv : u ≠ v := by
    intro e
    rw [← hu, ← hv] at e
    have := hinj hi (by omega) e
    omega
  have hum : u ∈ g.verts := List.getElem_mem _
  have hvm : v ∈ g.verts := List.getElem_mem _
  set k := bitPlace g i l with hk
  set buf' := buf.modify k fun x => x ^^^ (1#8 <<< (l % 8)) with hbuf'
  have hrow : rowOff (polygonsEnd 8 g.polygons) (i + 1) ≤ countStart g := by
    rw [← countStart_eq hb]; exact rowOff_strict _ hi
  rw [rowOff, ceilDiv_eight] at hrow
  have hkp := rowOff_place hb i l
  rw [← hk] at hkp
  have hk1 : bitsStart g ≤ k := by rw [hk, bitPlace]; omega
  have hk2 : k < countStart g := by omega
  have hsame : ∀ m, m ≠ k → buf'[m]? = buf[m]? := by
    intro m hm
    rw [List.getElem?_modify]; simp [Ne.symm hm]
  obtain ⟨g', h1, h2, h3, h4, h5⟩ := load_changed hg hs h (buf' := buf') (by rw [hbuf']; simp)
    (fun m hm => hsame m (by omega)) (fun m hm _ => hsame m (by omega))
  obtain ⟨rest, hbuf, hlen⟩ := saved_parts hb h
  have hj : l / 8 < ceilDiv i 8 := by rw [ceilDiv_eight]; omega
  have hbyte : buf'.getD k 0 = byteOf g i (l / 8) ^^^ (1#8 <<< (l % 8)) := by
    have := saved_byte (rest := rest) hi hj
    rw [hkp, ← hbuf] at this
    rw [List.getD_eq_getElem?_getD, hbuf', List.getElem?_modify, this]
    simp
  have hbit : ∀ m < 8, (1#8 <<< (l % 8)).getLsbD m = decide (m = l % 8) := by
    intro m hm
    have hl8 : l % 8 < 8 := Nat.mod_lt _ (by simp)
    generalize l % 8 = q at hl8
    interval_cases q <;> interval_cases m <;> rfl
  -- the marks after the change
  have hmark : ∀ i' l', (Marked g.verts.length
      (fun i j => buf'.getD (rowOff (polygonsEnd 8 g.polygons) i + j) 0) i' l' ↔
      (i' < g.verts.length ∧ l' < g.verts.length ∧ l' / 8 < ceilDiv i' 8) ∧
        ((l' ≤ i' ∧ adj g i' l' = true) ↔ ¬ (i' = i ∧ l' = l))) := by
    intro i' l'
    unfold Marked
    rw [and_assoc, and_assoc]
    refine and_congr_right fun hi' => and_congr_right fun hl' => and_congr_right fun hj' => ?_
    beta_reduce
    rw [rowOff_place hb]
    have hb8 : l' % 8 < 8 := Nat.mod_lt _ (by simp)
    have hbo : (byteOf g i' (l' / 8)).getLsbD (l' % 8) = true ↔ l' ≤ i' ∧ adj g i' l' = true := by
      rw [byteOf_bit _ _ _ _ hb8, Nat.div_add_mod', Bool.and_eq_true, decide_eq_true_eq]
    by_cases hp : bitPlace g i' l' = k
    · rw [hp, hbyte, BitVec.getLsbD_xor, hbit _ hb8]
      have hby : byteOf g i (l / 8) = byteOf g i' (l' / 8) := by
        have e1 := saved_byte (rest := rest) hi hj
        have e2 := saved_byte (rest := rest) hi' hj'
        rw [rowOff_place hb] at e1 e2
        rw [hp, hk, e1] at e2
        exact Option.some.inj e2
      rw [hby, ← hbo]
      by_cases hm : l' % 8 = l % 8
      · obtain ⟨rfl, rfl⟩ := place_inj hb hj' hj hp hm
        simp
      · have : ¬ (i' = i ∧ l' = l) := by rintro ⟨-, rfl⟩; exact hm rfl
        simp [hm, this]
    · have hne : ¬ (i' = i ∧ l' = l) := by rintro ⟨rfl, rfl⟩; exact hp rfl
      rw [getD_of_eq (hsame _ hp)]
      have e2 := saved_byte (rest := rest) hi' hj'
      rw [rowOff_place hb, ← hbuf] at e2
      rw [List.getD_eq_getElem?_getD, e2, Option.getD_some, hbo]
      simp only [hne, not_false_eq_true, iff_true]
  have hold : ∀ i' l', ¬ (i' = i ∧ l' = l) → (Marked g.verts.length
      (fun i j => buf'.getD (rowOff (polygonsEnd 8 g.polygons) i + j) 0) i' l' ↔
      Marked g.verts.length (byteOf g) i' l') := by
    intro i' l' hne
    rw [hmark, marked_byteOf]
    simp only [hne, not_false_eq_true, iff_true]
    constructor
    · rintro ⟨⟨h1, h2, h3⟩, h4, h5⟩
      refine ⟨h1, lt_of_le_of_ne h4 ?_, h5⟩
      rintro rfl
      simp [adj] at h5
    · rintro ⟨h1, h2, h3⟩
      exact ⟨⟨h1, by omega, by rw [ceilDiv_eight]; omega⟩, h2.le, h3⟩
  have hpair : g'.bits u v ≠ 0 ↔ ¬ g.bits u v ≠ 0 := by
    have hadj : adj g i l = true ↔ g.bits u v ≠ 0 := by
      unfold adj
      rw [hu, hv, Bool.and_eq_true, bne_iff_ne, bne_iff_ne]
      exact and_iff_right huv
    rw [h5 u hum v hvm huv, ← hadj]
    constructor
    · rintro ⟨i', l', hm, hp⟩
      by_cases he : i' = i ∧ l' = l
      · obtain ⟨rfl, rfl⟩ := he
        have := ((hmark _ _).1 hm).2
        simp only [hli.le, true_and, and_self, not_true_eq_false, iff_false] at this
        exact this
      · exfalso
        obtain ⟨m1, m2, -⟩ := marked_byteOf.1 ((hold _ _ he).1 hm)
        rw [← hu, ← hv] at hp
        rcases hp with ⟨p1, p2⟩ | ⟨p1, p2⟩
        · exact he ⟨hinj m1 hi p1, hinj (by omega) (by omega) p2⟩
        · have := hinj m1 (by omega) p1
          have := hinj (by omega) hi p2
          omega
    · intro hn
      refine ⟨i, l, (hmark _ _).2 ⟨⟨hi, by omega, hj⟩, ?_⟩, Or.inl ⟨hu, hv⟩⟩
      simp [hn]
  have hrest : ∀ a ∈ g.verts, ∀ b ∈ g.verts, a ≠ b → ¬ (a = u ∧ b = v) → ¬ (a = v ∧ b = u) →
      (g'.bits a b ≠ 0 ↔ g.bits a b ≠ 0) := by
    intro a ha b hb' hab n1 n2
    rw [h5 a ha b hb' hab, edge_marked hg ha hb' hab]
    refine exists_congr fun i' => exists_congr fun l' => and_congr_left fun hp => ?_
    apply hold
    rintro ⟨rfl, rfl⟩
    rw [hu, hv] at hp
    rcases hp with ⟨rfl, rfl⟩ | ⟨rfl, rfl⟩
    · exact n1 ⟨rfl, rfl⟩
    · exact n2 ⟨rfl, rfl⟩
  have hs' := h2.regular.built.shape
  have hval : (g'.bits u v != 0) = !(g.bits u v != 0) := by
    rw [Bool.eq_iff_iff, bne_iff_ne, hpair, Bool.not_eq_true', ← Bool.not_eq_true, bne_iff_ne]
  refine ⟨g', u != v && g.bits u v != 0, h1, h3, h4, Graph.hasEdge_ok hb.shape hum hvm, ?_, ?_, ?_⟩
  · rw [Graph.hasEdge_ok hs' (h4.symm ▸ hum) (h4.symm ▸ hvm), hval, bne_iff_ne.2 huv]
    rfl
  · rw [Graph.hasEdge_ok hs' (h4.symm ▸ hvm) (h4.symm ▸ hum), h2.regular.sym, hval, bne_iff_ne.2 huv,
      bne_iff_ne.2 huv.symm]
    rfl
  · intro a ha b hb' n1 n2
    rw [Graph.hasEdge_ok hs' (h4.symm ▸ ha) (h4.symm ▸ hb'), Graph.hasEdge_ok hb.shape ha hb']
    by_cases hab : a = b
    · simp [hab]
    · congr 2
      rw [Bool.eq_iff_iff, bne_iff_ne, bne_iff_ne]
      exact hrest a ha b hb' hab n1 n2

/-- **C84** is false: in every saved file one byte can be changed so that loading it reads outside
the file. -/
theorem C84_undefined_false (T : ℕ → SumTree) (g : Graph) (hg : UserGraph g) (hs : Storable T g)
    (hn : g.verts.length ≤ 2 ^ 31) (old buf : Buf) (h : save g old = .ok buf) :
    load T (buf.set (countStart g + 7) 255) = .error .ub := by
  have hb := hg.regular.built
  obtain ⟨rest, hbuf, hlen⟩ := saved_parts hb h
  have hroom := countStart_room hb
  have hsize : fileSize g (crossCount g) =
      countStart g + 8 + 8 * crossCount g + (g.verts.length + 7) / 8 := by
    have h1 := encode_le hb
    have h2 := encode_length g
    have h3 := crossList_length_le g
    rw [countStart_eq hb] at h2
    rw [ceilDiv_eight] at h1
    omega
  have hK : crossCount g ≤ 2 ^ 62 := by
    refine (crossCount_le g).trans ((Nat.mul_le_mul hn hn).trans (by norm_num))
  set buf' := buf.set (countStart g + 7) 255 with hbuf'
  have hl' : buf'.length = buf.length := by rw [hbuf', List.length_set]
  obtain ⟨t, ht⟩ : ∃ t, buf' = head g ++ t := by
    apply prefix_of_agree (y := rows g 0 g.verts.length ++
      (le64 (BitVec.ofNat 64 (crossCount g)) ++ encNumbers (crossList g)) ++ rest)
    intro k hk
    rw [head_length, bitsStart_eq hb] at hk
    have : bitsStart g ≤ countStart g := Nat.le_add_right _ _
    rw [hbuf', List.getElem?_set_ne (by omega), hbuf]
    simp [encode]
  have hbig : 255 * 2 ^ 56 ≤ (word buf' (countStart g)).toNat := by
    have hsh : word buf' (countStart g) >>> 56 = 255#64 := by
      apply BitVec.eq_of_getLsbD_eq
      intro m hm
      rw [BitVec.getLsbD_ushiftRight]
      by_cases h8 : m < 8
      · rw [word_bit _ _ _ (by omega), show (56 + m) / 8 = 7 by omega,
          show (56 + m) % 8 = m by omega, hbuf', List.getD_eq_getElem?_getD,
          List.getElem?_set_self (by omega)]
        interval_cases m <;> rfl
      · rw [BitVec.getLsbD_of_ge _ _ (by omega)]
        symm
        have : (255#64).getLsbD m = (255#8).getLsbD m := by
          rw [show (255#64) = (255#8).setWidth 64 from rfl, BitVec.getLsbD_setWidth]
          simp [hm]
        rw [this, BitVec.getLsbD_of_ge _ _ (by omega)]
    have := congrArg BitVec.toNat hsh
    rw [BitVec.toNat_ushiftRight, Nat.shiftRight_eq_div_pow] at this
    have h255 : (255#64).toNat = 255 := rfl
    rw [h255] at this
    have h2 := Nat.div_mul_le_self (word buf' (countStart g)).toNat (2 ^ 56)
    rwa [this] at h2
  rw [ht, load_head hs hb, ← ht]
  unfold loadMatrix
  have hv : (Graph.ofPolygons g.polygons).verts = g.verts := hb.verts.symm
  simp only [hv]
  rw [countStart_eq hb, get64_word (by omega), Res.bind_ok]
  have hnum : loadNumbers buf' (countStart g) (word buf' (countStart g)).toNat = .error .ub := by
    unfold loadNumbers
    apply collect_ub
    · intro m _
      by_cases hm : countStart g + (m + 1) * 8 + 8 ≤ buf'.length
      · obtain ⟨v, hv⟩ := (C32_bounds buf' _).1 hm
        exact Or.inl ⟨[v], by rw [hv]; rfl⟩
      · exact Or.inr (by rw [(C32_bounds buf' _).2 (by omega)]; rfl)
    · refine ⟨(word buf' (countStart g)).toNat - 1, ?_, ?_⟩
      · rw [List.mem_range]; omega
      · rw [(C32_bounds buf' _).2 (by omega)]; rfl
  rw [hnum]
  rfl

/-- A file of 67 bytes with an edge between vertices 2 and 0: the edge is lost when bit 0 of byte 41
changes, and 255 in byte 49 is undefined. -/
example : ∃ g buf g', UserGraph g ∧ Storable SumTree.sequential g ∧ save g [] = .ok buf ∧
    buf.length = 67 ∧ g.hasEdge ⟨0, 10⟩ ⟨0, 0⟩ = .ok true ∧
    load SumTree.sequential (buf.modify 41 fun x => x ^^^ 1) = .ok g' ∧
    g'.hasEdge ⟨0, 10⟩ ⟨0, 0⟩ = .ok false ∧ g'.hasEdge ⟨10, 0⟩ ⟨0, 0⟩ = g.hasEdge ⟨10, 0⟩ ⟨0, 0⟩ ∧
    load SumTree.sequential (buf.set 49 255) = .error .ub := by
  obtain ⟨g, hg, hs, hl, -, h10, -, he, hp, hv, -⟩ := exStorable
  obtain ⟨buf, -, hbuf, -⟩ := C28_roundtrip _ g hg hs
  have hlen : buf.length = 67 := by
    rw [hbuf] at hl
    exact Except.ok.inj hl
  have hpl : bitPlace g 2 0 = 41 := by simp [bitPlace, bitsStart, hp, hv, Finset.sum_range_succ]
  have hct : countStart g = 42 := by simp [countStart, bitsStart, hp, hv, Finset.sum_range_succ]
  have hn3 : g.verts.length = 3 := by rw [hv]; rfl
  obtain ⟨g', e, h1, h2, h3, h4, h5, -, h6⟩ := C84_silent_false _ g hg hs (by rw [hv]; decide) [] buf
    hbuf 2 0 (by omega) (by omega)
  have hub := C84_undefined_false _ g hg hs (by omega) [] buf hbuf
  simp only [hv, hpl, hct] at h1 h4 h5 h6 hub
  have hb := hg.regular.built.shape
  have hsym : g.hasEdge ⟨0, 10⟩ ⟨0, 0⟩ = g.hasEdge ⟨0, 0⟩ ⟨0, 10⟩ := by
    rw [Graph.hasEdge_ok hb (by simp [hv]) (by simp [hv]),
      Graph.hasEdge_ok hb (by simp [hv]) (by simp [hv]), hg.regular.sym]
    rfl
  obtain rfl : true = e := Except.ok.inj (he.symm.trans (hsym.symm.trans h4))
  exact ⟨g, buf, g', hg, hs, hbuf, hlen, hsym.trans he, h1, h5,
    h6 _ (by simp) _ (by simp) (by simp) (by simp), hub⟩

end Capi
