import Verif.Lemmas.Loading
import Verif.Props.Damage

/-!
# C88: what happens to an arbitrary file

The loader checks nothing.  For every sequence of bytes it is known here whether it is loaded, and
with what result.
-/

namespace Capi

open Serial Polygon File

theorem loadM_unlimited (T : ℕ → SumTree) (b : Buf) : loadM .unlimited T b = load T b := by
  have key : ∀ n off, loadPolygonsM .unlimited T b off n = loadPolygons T b off n := by
    intro n
    induction n with
    | zero => intro off; rfl
    | succ n ih =>
      intro off
      unfold loadPolygonsM loadPolygons
      simp only [ih]
      rfl
  unfold loadM load
  simp only [key]
  rfl

/-- Loading the matrix of a file with room for the announced numbers. -/
theorem loadMatrix_room (b : Buf) (ps : List (List Coord)) (off : ℕ)
    (h : off + rowBytes ps.flatten.length + 8 + 8 *
      (word b (off + rowBytes ps.flatten.length)).toNat ≤ b.length) :
    ∃ g, loadMatrix b (Graph.ofPolygons ps) off = .ok g ∧ UserGraph g ∧ g.polygons = ps ∧
      g.verts = ps.flatten ∧ ∀ a ∈ g.verts, ∀ c ∈ g.verts, a ≠ c →
        (g.bits a c ≠ 0 ↔ ∃ i l, Marked ps.flatten.length
          (fun i j => b.getD (off + rowBytes i + j) 0) i l ∧
          ((vAt g i = a ∧ vAt g l = c) ∨ (vAt g i = c ∧ vAt g l = a))) := by
  have hr : ∀ n, rowOff off n = off + rowBytes n := fun n => rowOff_sum off n
  obtain ⟨g, h1, h2, h3, h4, h5⟩ := loadMatrix_ok b ps off
    (fun i j => b.getD (off + rowBytes i + j) 0) (word b (off + rowBytes ps.flatten.length))
    ((List.range (word b (off + rowBytes ps.flatten.length)).toNat).map fun i =>
      word b (off + rowBytes ps.flatten.length + (i + 1) * 8))
    (by
      intro i hi j hj
      have : rowOff off (i + 1) ≤ rowOff off ps.flatten.length := rowOff_strict off hi
      rw [rowOff, hr, hr] at this
      rw [hr, List.getD_eq_getElem?_getD, List.getElem?_eq_getElem (by omega)]; rfl)
    (by rw [hr]; exact get64_word (by omega))
    (by rw [hr]; exact loadNumbers_ok (by omega))
  exact ⟨g, h1, h2, h3, h4, fun a ha c hc hac => (h5 a ha c hc hac).1⟩

theorem loadMatrix_no_room (b : Buf) (ps : List (List Coord)) (off : ℕ)
    (h : b.length < off + rowBytes ps.flatten.length + 8 + 8 *
      (word b (off + rowBytes ps.flatten.length)).toNat) :
    loadMatrix b (Graph.ofPolygons ps) off = .error .ub := by
  have hr : ∀ n, rowOff off n = off + rowBytes n := fun n => rowOff_sum off n
  unfold loadMatrix
  change (do
    let count ← get64 b (rowOff off ps.flatten.length)
    let ns ← loadNumbers b (rowOff off ps.flatten.length) count.toNat
    let ops ← loadOps b (Graph.ofPolygons ps) ns off
    (Graph.ofPolygons ps).run ops : Res Graph) = _
  rw [hr]
  set back := off + rowBytes ps.flatten.length
  by_cases h8 : back + 8 ≤ b.length
  · rw [get64_word h8, Res.bind_ok]
    have hnum : loadNumbers b back (word b back).toNat = .error .ub := by
      unfold loadNumbers
      apply collect_ub
      · intro m _
        by_cases hm : back + (m + 1) * 8 + 8 ≤ b.length
        · obtain ⟨v, hv⟩ := (C32_bounds b _).1 hm
          exact Or.inl ⟨[v], by rw [hv]; rfl⟩
        · exact Or.inr (by rw [(C32_bounds b _).2 (by omega)]; rfl)
      · refine ⟨(word b back).toNat - 1, ?_, ?_⟩
        · rw [List.mem_range]; omega
        · rw [(C32_bounds b _).2 (by omega)]; rfl
    rw [hnum]
    rfl
  · rw [(C32_bounds b _).2 (by omega)]
    rfl

theorem prefix_drop {x b : Buf} {off : ℕ} (h : x <+: b.drop off) : ∃ t, b.drop off = x ++ t := by
  obtain ⟨t, ht⟩ := h
  exact ⟨t, ht.symm⟩

/-- What a successful loading tells about the file. -/
theorem loadM_inv {M : Memory} {T : ℕ → SumTree} {b : Buf} {g : Graph}
    (h : loadM M T b = .ok g) : ∃ rs, Writable rs ∧ (∀ r ∈ rs, RingFits r) ∧
      headBytes rs <+: b ∧ M.polygons rs.length = true ∧ (∀ r ∈ rs, M.vertices r.length = true) ∧
      M.graph (rs.map (Polygon.mk T)).flatten.length = true ∧
      loadMatrix b (Graph.ofPolygons (rs.map (Polygon.mk T))) (headBytes rs).length = .ok g := by
  unfold loadM at h
  split at h
  · cases h
  · obtain ⟨np, h1, h⟩ := bind_ok_inv h
    obtain ⟨_, h2, h⟩ := bind_ok_inv h
    obtain ⟨⟨ps, e⟩, h3, h⟩ := bind_ok_inv h
    obtain ⟨_, h4, h⟩ := bind_ok_inv h
    obtain ⟨-, a2⟩ := get64_inv h1
    obtain ⟨rs, b1, b2, b3, b4, b5⟩ := loadPolygonsM_inv h3
    have hw : Writable rs := ⟨by rw [b1]; exact np.isLt, fun r hr => ⟨(b2 r hr).1, (b2 r hr).2.1⟩⟩
    have hfit : ∀ r ∈ rs, RingFits r := by
      intro r hr
      by_contra hf
      obtain ⟨i, hi, rfl⟩ := List.getElem_of_mem hr
      have := (List.forall₂_iff_get.1 b3).2 i hi (by rw [← b3.length_eq]; exact hi)
      rw [List.get_eq_getElem, polygonC_unfit T hf] at this
      cases this
    have hps : ps = rs.map (Polygon.mk T) := by
      apply List.ext_getElem (by rw [List.length_map, b3.length_eq])
      intro i h1' h2'
      rw [List.length_map] at h2'
      have := (List.forall₂_iff_get.1 b3).2 i h2' h1'
      rw [List.get_eq_getElem, List.get_eq_getElem,
        polygonC_fits T (hfit _ (List.getElem_mem h2'))] at this
      rw [List.getElem_map, Except.ok.inj this]
    have hnp : np = BitVec.ofNat 64 rs.length := by rw [b1, BitVec.ofNat_toNat]; simp
    have hhead := head_bytes hw
    have he : e = (headBytes rs).length := by
      rw [← hhead, b5, List.length_append, le64_length]
    refine ⟨rs, hw, hfit, ⟨b.drop e, ?_⟩, ?_, fun r hr => (b2 r hr).2.2, ?_, ?_⟩
    · rw [← hhead, List.append_assoc, ← hnp]
      rw [Nat.zero_add, List.drop_zero, b4] at a2
      exact a2.symm
    · rw [b1]; exact ensure_ok h2
    · rw [← hps]; exact ensure_ok h4
    · rw [← hps, ← he]; exact h

/-- Loading a file that begins with rings. -/
theorem loadM_head {M : Memory} {T : ℕ → SumTree} {b : Buf} {rs : List (List Coord)}
    (hw : Writable rs) (hf : ∀ r ∈ rs, RingFits r) (hp : headBytes rs <+: b)
    (h1 : M.polygons rs.length = true) (h2 : ∀ r ∈ rs, M.vertices r.length = true)
    (h3 : M.graph (rs.map (Polygon.mk T)).flatten.length = true) :
    loadM M T b =
      loadMatrix b (Graph.ofPolygons (rs.map (Polygon.mk T))) (headBytes rs).length := by
  obtain ⟨t, rfl⟩ := hp
  have hhead := head_bytes hw
  have hne : headBytes rs ++ t ≠ [] := by
    rw [← hhead]
    intro h0
    have := congrArg List.length h0
    simp only [List.length_append, le64_length, List.length_nil] at this
    omega
  have hd : (headBytes rs ++ t).drop 0 = le64 (BitVec.ofNat 64 rs.length) ++ (encPolygons rs ++ t) := by
    rw [List.drop_zero, ← hhead, List.append_assoc]
  have hd8 := drop_of_drop hd
  rw [le64_length, Nat.zero_add] at hd8
  have hl : (BitVec.ofNat 64 rs.length).toNat = rs.length := by
    rw [BitVec.toNat_ofNat, Nat.mod_eq_of_lt hw.1]
  have hps : List.Forall₂ (fun r p => polygonC T r = .ok p) rs (rs.map (Polygon.mk T)) := by
    rw [List.forall₂_map_right_iff, List.forall₂_same]
    exact fun r hr => polygonC_fits T (hf r hr)
  have hlen : (headBytes rs).length = 8 + (encPolygons rs).length := by
    rw [← hhead, List.length_append, le64_length]
  unfold loadM
  rw [if_neg hne, get64_of_drop hd, Res.bind_ok, hl, h1, hlen]
  change (do
    let ps ← loadPolygonsM M T (headBytes rs ++ t) 8 rs.length
    ensure (M.graph ps.1.flatten.length)
    loadMatrix (headBytes rs ++ t) (Graph.ofPolygons ps.1) ps.2 : Res Graph) = _
  rw [loadPolygonsM_ok hw.2 h2 hps hd8, Res.bind_ok, h3]
  rfl

/-- **C88** A polygon is built exactly if neighbouring corners are not too far apart; otherwise the
behaviour is undefined, whatever order the sum is formed in. -/
theorem C88_ring (T : ℕ → SumTree) (r : List Coord) :
    polygonC T r = if RingFits r then .ok (Polygon.mk T r) else .error .ub := by
  split
  · exact polygonC_fits T ‹_›
  · exact polygonC_unfit T ‹_›

/-- Corners more than `2 ^ 31` apart, and a corner that has no negative. -/
example : polygonC SumTree.sequential [⟨2 ^ 31 - 1, 0⟩, ⟨-2, 0⟩, ⟨0, 5⟩] = .error .ub ∧
    polygonC SumTree.sequential [⟨-(2 ^ 31), 0⟩, ⟨-(2 ^ 31) + 9, 0⟩, ⟨-(2 ^ 31), 5⟩] = .error .ub ∧
    polygonC SumTree.sequential [⟨2 ^ 31 - 1, 0⟩, ⟨0, 0⟩, ⟨0, 5⟩] =
      .ok (Polygon.mk SumTree.sequential [⟨2 ^ 31 - 1, 0⟩, ⟨0, 0⟩, ⟨0, 5⟩]) := by
  rw [C88_ring, C88_ring, C88_ring, if_neg (by decide), if_neg (by decide), if_pos (by decide)]
  exact ⟨rfl, rfl, rfl⟩

def triRing : List Coord := [⟨0, 0⟩, ⟨10, 0⟩, ⟨0, 10⟩]

/-- A triangle.  In the row of the second vertex only the bit of the third one is set, which stands
behind the bits of the earlier vertices. -/
def triFile : Buf := headBytes [triRing] ++ [4, 0] ++ bytesOf 8 1 ++ bytesOf 8 77

theorem triWritable : Writable [triRing] := by
  refine ⟨by decide, ?_⟩
  intro r hr
  rw [List.mem_singleton] at hr
  subst hr
  exact ⟨by decide, by decide⟩

theorem triFits : ∀ r ∈ [triRing], RingFits r := by decide

theorem triPrefix : headBytes [triRing] <+: triFile := by
  unfold triFile
  rw [List.append_assoc, List.append_assoc]
  exact List.prefix_append _ _

theorem triMk : [triRing].map (Polygon.mk SumTree.sequential) = [triRing] := by decide +kernel

theorem triLayout : Layout triFile [triRing] 3 :=
  ⟨triPrefix, 1, by norm_num, ⟨bytesOf 8 77, by decide +kernel⟩, by decide +kernel⟩

/-- **C88** The rings a file begins with are determined by the file. -/
theorem C88_unique (b : Buf) (rs rs' : List (List Coord)) (hw : Writable rs) (hw' : Writable rs')
    (h : headBytes rs <+: b) (h' : headBytes rs' <+: b) : rs = rs' :=
  headBytes_unique hw hw' h h'

/-- A file beginning with a triangle begins with no other list of rings. -/
example (rs : List (List Coord)) (h : Writable rs) (h' : headBytes rs <+: triFile) : rs = [triRing] :=
  C88_unique triFile _ _ h triWritable h' triPrefix

/-- **C88** Exactly these files are loaded: they begin with rings, which fit into memory and whose
corners are not too far apart, and behind the rows of bits there are as many numbers as announced.
All other files are refused for lack of memory, or the behaviour is undefined. -/
theorem C88_loads (M : Memory) (T : ℕ → SumTree) (b : Buf) :
    (∃ g, loadM M T b = .ok g) ↔
      ∃ rs, Writable rs ∧ (∀ r ∈ rs, RingFits r) ∧
        Layout b rs (rs.map (Polygon.mk T)).flatten.length ∧ M.polygons rs.length = true ∧
        (∀ r ∈ rs, M.vertices r.length = true) ∧
        M.graph (rs.map (Polygon.mk T)).flatten.length = true := by
  constructor
  · rintro ⟨g, h⟩
    obtain ⟨rs, h1, h2, h3, h4, h5, h6, h7⟩ := loadM_inv h
    refine ⟨rs, h1, h2, ⟨h3, ?_⟩, h4, h5, h6⟩
    set n := (rs.map (Polygon.mk T)).flatten.length
    by_cases hr : (headBytes rs).length + rowBytes n + 8 +
        8 * (word b ((headBytes rs).length + rowBytes n)).toNat ≤ b.length
    · refine ⟨_, BitVec.isLt _, ?_, hr⟩
      obtain ⟨-, hd⟩ := get64_inv (get64_word (b := b) (off := (headBytes rs).length + rowBytes n)
        (by omega))
      rw [← le64_bytes, hd]
      exact List.prefix_append _ _
    · rw [loadMatrix_no_room b _ _ (not_le.1 hr)] at h7
      cases h7
  · rintro ⟨rs, h1, h2, ⟨h3, count, c1, c2, c3⟩, h4, h5, h6⟩
    obtain ⟨t, ht⟩ := prefix_drop c2
    rw [← le64_nat c1] at ht
    have hc := get64_of_drop ht
    rw [get64_word (by omega)] at hc
    have hcount : (word b ((headBytes rs).length +
        rowBytes (rs.map (Polygon.mk T)).flatten.length)).toNat = count := by
      rw [Except.ok.inj hc, BitVec.toNat_ofNat, Nat.mod_eq_of_lt c1]
    obtain ⟨g, hg, -⟩ := loadMatrix_room b (rs.map (Polygon.mk T)) (headBytes rs).length
      (by rw [hcount]; exact c3)
    exact ⟨g, by rw [loadM_head h1 h2 h3 h4 h5 h6, hg]⟩

theorem triLoads (M : Memory) (h1 : M.polygons 1 = true) (h2 : M.vertices 3 = true)
    (h3 : M.graph 3 = true) : ∃ g, loadM M SumTree.sequential triFile = .ok g := by
  refine (C88_loads M SumTree.sequential triFile).2 ⟨[triRing], triWritable, triFits, ?_, h1, ?_, ?_⟩
  · rw [triMk]; exact triLayout
  · intro r hr
    rw [List.mem_singleton] at hr
    subst hr
    exact h2
  · rw [triMk]; exact h3

/-- The file of the triangle needs memory for three vertices. -/
example : (∃ g, loadM ⟨fun k => k ≤ 1, fun k => k ≤ 3, fun k => k ≤ 3⟩ SumTree.sequential triFile = .ok g) ∧
    ¬ ∃ g, loadM ⟨fun k => k ≤ 1, fun k => k ≤ 2, fun k => k ≤ 3⟩ SumTree.sequential triFile = .ok g := by
  refine ⟨triLoads _ (by decide) (by decide) (by decide), fun h => ?_⟩
  obtain ⟨rs, hw, -, hl, -, hv, -⟩ := (C88_loads _ _ _).1 h
  obtain rfl := C88_unique _ _ _ triWritable hw triPrefix hl.rings
  exact absurd (hv triRing (by simp)) (by decide)

/-- **C88** Whatever is loaded is a proper graph, with the polygons of the rings the file begins
with.  Two of its vertices are joined exactly if a bit says so: in the row of vertex `i` there is
one for every vertex up to the next multiple of eight, even for those not before `i`. -/
theorem C88_result (M : Memory) (T : ℕ → SumTree) (b : Buf) (g : Graph)
    (h : loadM M T b = .ok g) :
    UserGraph g ∧ ∃ rs, Writable rs ∧ headBytes rs <+: b ∧ g.polygons = rs.map (Polygon.mk T) ∧
      g.verts = g.polygons.flatten ∧
      ∀ a ∈ g.verts, ∀ c ∈ g.verts, a ≠ c → ∃ e, g.hasEdge a c = .ok e ∧
        (e = true ↔ ∃ i l, i < g.verts.length ∧ l < g.verts.length ∧ l / 8 < (i + 7) / 8 ∧
          (b.getD ((headBytes rs).length + rowBytes i + l / 8) 0).getLsbD (l % 8) = true ∧
          (g.verts[i]? = some a ∧ g.verts[l]? = some c ∨
            g.verts[i]? = some c ∧ g.verts[l]? = some a)) := by
  obtain ⟨rs, h1, h2, h3, h4, h5, h6, h7⟩ := loadM_inv h
  set n := (rs.map (Polygon.mk T)).flatten.length with hn
  by_cases hr : (headBytes rs).length + rowBytes n + 8 +
      8 * (word b ((headBytes rs).length + rowBytes n)).toNat ≤ b.length
  · obtain ⟨g', m1, m2, m3, m4, m5⟩ := loadMatrix_room b (rs.map (Polygon.mk T))
      (headBytes rs).length hr
    rw [h7] at m1
    cases m1
    refine ⟨m2, rs, h1, h3, m3, by rw [m4, m3], fun a ha c hc hac => ?_⟩
    refine ⟨_, Graph.hasEdge_ok m2.regular.built.shape ha hc, ?_⟩
    have hvn : g.verts.length = n := by rw [m4]
    have hv : ∀ i < n, ∀ x, g.verts[i]? = some x ↔ vAt g i = x := by
      intro i hi x
      unfold vAt
      rw [List.getD_eq_getElem?_getD, List.getElem?_eq_getElem (by rw [hvn]; exact hi)]
      simp
    have := m5 a ha c hc hac
    simp only [hac, bne_iff_ne, ne_eq, not_false_eq_true, Bool.and_eq_true, true_and]
    rw [← ne_eq, this]
    constructor
    · rintro ⟨i, l, ⟨k1, k2, k3, k4⟩, k5⟩
      rw [ceilDiv_eight] at k3
      refine ⟨i, l, by rw [hvn]; exact k1, by rw [hvn]; exact k2, k3, k4, ?_⟩
      rw [hv i k1, hv l k2, hv i k1, hv l k2]
      exact k5
    · rintro ⟨i, l, k1, k2, k3, k4, k5⟩
      rw [hvn] at k1 k2
      rw [hv i k1, hv l k2, hv i k1, hv l k2] at k5
      exact ⟨i, l, ⟨k1, k2, by rw [ceilDiv_eight]; exact k3, k4⟩, k5⟩
  · rw [loadMatrix_no_room b _ _ (not_le.1 hr)] at h7
    cases h7

/-- The file is loaded with little memory; the stray bit joins the second and the third vertex and
nothing else is joined.  Without its last byte the file makes the behaviour undefined. -/
example : ∃ g, loadM ⟨fun k => k ≤ 1, fun k => k ≤ 3, fun k => k ≤ 3⟩ SumTree.sequential triFile =
      .ok g ∧ UserGraph g ∧ g.polygons = [triRing] ∧ g.hasEdge ⟨10, 0⟩ ⟨0, 10⟩ = .ok true ∧
    g.hasEdge ⟨0, 0⟩ ⟨10, 0⟩ = .ok false ∧
    load SumTree.sequential (triFile.take 57) = .error .ub := by
  obtain ⟨g, hg⟩ := triLoads ⟨fun k => k ≤ 1, fun k => k ≤ 3, fun k => k ≤ 3⟩ (by decide) (by decide)
    (by decide)
  obtain ⟨hu, rs, hw, hp, hps, hv, he⟩ := C88_result _ _ _ _ hg
  obtain rfl := C88_unique _ _ _ triWritable hw triPrefix hp
  rw [triMk] at hps
  have hv' : g.verts = triRing := by rw [hv, hps]; decide
  rw [hv'] at he
  refine ⟨g, hg, hu, hps, ?_, ?_, ?_⟩
  · obtain ⟨e, h1, h2⟩ := he ⟨10, 0⟩ (by decide) ⟨0, 10⟩ (by decide) (by decide)
    rw [h1, h2.2 ⟨1, 2, by decide, by decide, by decide, by decide +kernel, by decide⟩]
  · obtain ⟨e, h1, h2⟩ := he ⟨0, 0⟩ (by decide) ⟨10, 0⟩ (by decide) (by decide)
    rw [h1]
    cases e with
    | false => rfl
    | true =>
      exfalso
      obtain ⟨i, l, a1, a2, a3, a4, a5⟩ := h2.1 rfl
      have key : ∀ i < 3, ∀ l < 3, l / 8 < (i + 7) / 8 →
          (triFile.getD ((headBytes [triRing]).length + rowBytes i + l / 8) 0).getLsbD (l % 8) = true →
          i = 1 ∧ l = 2 := by decide +kernel
      obtain ⟨rfl, rfl⟩ := key i a1 l a2 a3 a4
      revert a5
      decide
  · rw [← loadM_unlimited, loadM_head triWritable triFits ⟨(triFile.take 57).drop 40, by decide +kernel⟩
      rfl (fun _ _ => rfl) rfl, triMk]
    exact loadMatrix_no_room _ _ _ (by decide +kernel)

theorem collect_no_exn {α β : Type} {f : α → Res (List β)} (l : List α)
    (h : ∀ a ∈ l, f a ≠ .error .exn) : collect f l ≠ .error .exn := by
  induction l with
  | nil => intro h'; cases h'
  | cons a r ih =>
    unfold collect
    have ha := h a (by simp)
    cases hf : f a with
    | error e =>
      rw [hf] at ha
      intro h'
      exact ha h'
    | ok x =>
      rw [Res.bind_ok]
      have hr := ih fun c hc => h c (by simp [hc])
      cases hc : collect f r with
      | error e =>
        rw [hc] at hr
        intro h'
        exact hr h'
      | ok y => intro h'; cases h'

theorem bind_no_exn {α β : Type} {x : Res α} {f : α → Res β} (hx : x ≠ .error .exn)
    (hf : ∀ a, x = .ok a → f a ≠ .error .exn) : (x >>= f) ≠ .error .exn := by
  cases h : x with
  | error e =>
    rw [h] at hx
    intro h'
    change (Except.error e : Res β) = _ at h'
    exact hx (by rw [Except.error.inj h'])
  | ok a => exact hf a h

theorem get64_no_exn (b : Buf) (off : ℕ) : get64 b off ≠ .error .exn := by
  by_cases h : off + 8 ≤ b.length
  · obtain ⟨v, hv⟩ := (C32_bounds b off).1 h
    rw [hv]; intro h'; cases h'
  · rw [(C32_bounds b off).2 (by omega)]; intro h'; cases h'

theorem getI32_no_exn (b : Buf) (off : ℕ) : getI32 b off ≠ .error .exn := by
  have key : ∀ (ks : List ℕ) (acc : BitVec 32), get32Loop b off acc ks ≠ .error .exn := by
    intro ks
    induction ks with
    | nil => intro acc h; cases h
    | cons k r ih =>
      intro acc
      unfold get32Loop
      refine bind_no_exn ?_ fun x _ => ih _
      unfold getByte
      split <;> (intro h; cases h)
  unfold getI32 get32
  exact bind_no_exn (key _ _) fun v _ h => by cases h

theorem loadVertices_no_exn (b : Buf) (off n : ℕ) : loadVertices b off n ≠ .error .exn := by
  induction n generalizing off with
  | zero => intro h; cases h
  | succ n ih =>
    unfold loadVertices
    exact bind_no_exn (getI32_no_exn _ _) fun _ _ => bind_no_exn (getI32_no_exn _ _) fun _ _ =>
      bind_no_exn (ih _) fun _ _ h => by cases h

theorem polygonC_no_exn (T : ℕ → SumTree) (r : List Coord) : polygonC T r ≠ .error .exn := by
  by_cases h : RingFits r
  · rw [polygonC_fits T h]; intro h'; cases h'
  · rw [polygonC_unfit T h]; intro h'; cases h'

theorem loadPolygons_no_exn (T : ℕ → SumTree) (b : Buf) (off n : ℕ) :
    loadPolygons T b off n ≠ .error .exn := by
  induction n generalizing off with
  | zero => intro h; cases h
  | succ n ih =>
    unfold loadPolygons
    exact bind_no_exn (get64_no_exn _ _) fun _ _ => bind_no_exn (loadVertices_no_exn _ _ _) fun _ _ =>
      bind_no_exn (polygonC_no_exn _ _) fun _ _ => bind_no_exn (ih _) fun _ _ h => by cases h

theorem loadPolygonsM_no_exn {M : Memory} (T : ℕ → SumTree) (b : Buf) (off n : ℕ)
    (h : ∀ k, M.vertices k = true) : loadPolygonsM M T b off n ≠ .error .exn := by
  induction n generalizing off with
  | zero => intro h; cases h
  | succ n ih =>
    unfold loadPolygonsM
    refine bind_no_exn (get64_no_exn _ _) fun k _ => ?_
    rw [h]
    exact bind_no_exn (fun h => by cases h) fun _ _ =>
      bind_no_exn (loadVertices_no_exn _ _ _) fun _ _ =>
      bind_no_exn (polygonC_no_exn _ _) fun _ _ => bind_no_exn (ih _) fun _ _ h => by cases h

/-- **C88** An exception is raised for the empty file, and otherwise only for lack of memory: no
damage is recognised. -/
theorem C88_refused (M : Memory) (T : ℕ → SumTree) (b : Buf) (h : loadM M T b = .error .exn) :
    b = [] ∨ ∃ k, M.polygons k = false ∨ M.vertices k = false ∨ M.graph k = false := by
  by_contra hcon
  push Not at hcon
  obtain ⟨hb, hM⟩ := hcon
  simp only [Bool.not_eq_false, ne_eq] at hM
  unfold loadM at h
  rw [if_neg hb] at h
  revert h
  refine bind_no_exn (get64_no_exn _ _) fun np _ => ?_
  rw [(hM _).1]
  refine bind_no_exn (fun h => by cases h) fun _ _ =>
    bind_no_exn (loadPolygonsM_no_exn _ _ _ _ fun k => (hM k).2.1) fun ps _ => ?_
  rw [(hM _).2.2]
  refine bind_no_exn (fun h => by cases h) fun _ _ => ?_
  by_cases hr : ps.2 + rowBytes ps.1.flatten.length + 8 + 8 *
      (word b (ps.2 + rowBytes ps.1.flatten.length)).toNat ≤ b.length
  · obtain ⟨g, hg, -⟩ := loadMatrix_room b ps.1 ps.2 hr
    rw [hg]; intro h'; cases h'
  · rw [loadMatrix_no_room b ps.1 ps.2 (not_le.1 hr)]; intro h'; cases h'

/-- A file of eight bytes announcing many rings: an exception if there is no memory for them,
otherwise undefined. -/
example : loadM ⟨fun k => k < 100, fun _ => true, fun _ => true⟩ SumTree.sequential
      (bytesOf 8 (2 ^ 40)) = .error .exn ∧
    loadM .unlimited SumTree.sequential (bytesOf 8 7) = .error .ub :=
  ⟨rfl, rfl⟩

/-- **C88** A file that begins with rings is refused with an exception if there is no memory for the
rings, for the corners of one of them or for the graph, whatever follows the rings. -/
theorem C88_memory (M : Memory) (T : ℕ → SumTree) (b : Buf) (rs : List (List Coord))
    (hw : Writable rs) (hf : ∀ r ∈ rs, RingFits r) (hp : headBytes rs <+: b)
    (h : M.polygons rs.length = false ∨ (∃ r ∈ rs, M.vertices r.length = false) ∨
      M.graph (rs.map (Polygon.mk T)).flatten.length = false) :
    loadM M T b = .error .exn := by
  obtain ⟨t, rfl⟩ := hp
  have hhead := head_bytes hw
  have hne : headBytes rs ++ t ≠ [] := by
    rw [← hhead]
    intro h0
    have := congrArg List.length h0
    simp only [List.length_append, le64_length, List.length_nil] at this
    omega
  have hd : (headBytes rs ++ t).drop 0 = le64 (BitVec.ofNat 64 rs.length) ++ (encPolygons rs ++ t) := by
    rw [List.drop_zero, ← hhead, List.append_assoc]
  have hd8 := drop_of_drop hd
  rw [le64_length, Nat.zero_add] at hd8
  have hl : (BitVec.ofNat 64 rs.length).toNat = rs.length := by
    rw [BitVec.toNat_ofNat, Nat.mod_eq_of_lt hw.1]
  have hps : List.Forall₂ (fun r p => polygonC T r = .ok p) rs (rs.map (Polygon.mk T)) := by
    rw [List.forall₂_map_right_iff, List.forall₂_same]
    exact fun r hr => polygonC_fits T (hf r hr)
  unfold loadM
  rw [if_neg hne, get64_of_drop hd, Res.bind_ok, hl]
  cases h1 : M.polygons rs.length with
  | false => rfl
  | true =>
    change (do
      let ps ← loadPolygonsM M T (headBytes rs ++ t) 8 rs.length
      ensure (M.graph ps.1.flatten.length)
      loadMatrix (headBytes rs ++ t) (Graph.ofPolygons ps.1) ps.2 : Res Graph) = _
    by_cases h2 : ∃ r ∈ rs, M.vertices r.length = false
    · rw [loadPolygonsM_short hw.2 h2 hps hd8]; rfl
    · have h2' : ∀ r ∈ rs, M.vertices r.length = true := by
        intro r hr
        by_contra hc
        exact h2 ⟨r, hr, Bool.not_eq_true _ ▸ hc⟩
      have h3 : M.graph (rs.map (Polygon.mk T)).flatten.length = false := by
        rcases h with h | h | h
        · rw [h1] at h; cases h
        · exact absurd h h2
        · exact h
      rw [loadPolygonsM_ok hw.2 h2' hps hd8, Res.bind_ok, h3]
      rfl

/-- The triangle is refused without memory for three corners. -/
example : loadM ⟨fun k => k ≤ 1, fun k => k ≤ 2, fun k => k ≤ 3⟩ SumTree.sequential triFile =
    .error .exn :=
  C88_memory _ _ _ _ triWritable triFits triPrefix (Or.inr (Or.inl ⟨triRing, by simp, by decide⟩))

/-- **C88** With enough memory the loader raises an exception for the empty file and for no
other. -/
theorem C88_unlimited (T : ℕ → SumTree) (b : Buf) : load T b = .error .exn ↔ b = [] := by
  constructor
  · intro h
    rw [← loadM_unlimited] at h
    obtain h | ⟨k, h⟩ := C88_refused _ T b h
    · exact h
    · simp [Memory.unlimited] at h
  · rintro rfl
    rfl

/-- The empty file, and one that is too short. -/
example : load SumTree.sequential [] = .error .exn ∧ load SumTree.sequential [1, 2, 3] ≠ .error .exn :=
  ⟨(C88_unlimited _ _).2 rfl, fun h => absurd ((C88_unlimited _ _).1 h) (by decide)⟩

end Capi
