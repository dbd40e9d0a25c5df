import Verif.Model.Frontend
import Verif.Props.Query
import Verif.Props.Visgraph
import Verif.Props.Coordinate

/-!
# C53–C55, C57, C58: the Python layer
-/

namespace Capi

open Frontend ShortestPath

/-! ### C53 -/

/-- **C53** The ranges of the splits are consecutive and cover all vertices: they are the gaps of a
rising sequence from 0 to the number of vertices. -/
theorem C53_partition (n k : ℤ) (hn : 0 ≤ n) (hk : 1 ≤ k) :
    ∃ b : ℤ → ℤ, b 0 = 0 ∧ b k = n ∧ (∀ i j, 0 ≤ i → i ≤ j → j ≤ k → b i ≤ b j) ∧
      ∀ i, 0 ≤ i → i < k → splitRange n k i = .ok (b i, b (i + 1)) := by
  have hs : 0 ≤ Int.fdiv n k := by
    rw [Int.fdiv_eq_ediv_of_nonneg _ (by omega)]
    exact Int.ediv_nonneg hn (by omega)
  have hmul : Int.fdiv n k * k ≤ n := by
    rw [Int.fdiv_eq_ediv_of_nonneg _ (by omega)]
    exact Int.ediv_mul_le n (by omega)
  refine ⟨fun i => if i < k then Int.fdiv n k * i else n, ?_, ?_, ?_, ?_⟩
  · dsimp only
    rw [if_pos (by omega), mul_zero]
  · dsimp only
    rw [if_neg (by omega)]
  · intro i j hi hij hj
    dsimp only
    by_cases hjk : j < k
    · rw [if_pos hjk, if_pos (by omega)]
      exact mul_le_mul_of_nonneg_left hij hs
    · rw [if_neg hjk]
      split_ifs with hik
      · exact (mul_le_mul_of_nonneg_left hik.le hs).trans hmul
      · exact le_refl _
  · intro i hi hik
    unfold splitRange
    rw [if_neg (by omega)]
    dsimp only
    rw [if_pos hik]
    by_cases h : i < k - 1
    · rw [if_pos h, if_pos (by omega)]
    · rw [if_neg h, if_neg (by omega)]

/-- **C53** Every vertex position belongs to exactly one split. -/
theorem C53_exactly_one (n k : ℤ) (hk : 1 ≤ k) (j : ℤ) (h0 : 0 ≤ j) (h1 : j < n) :
    ∃! i : ℤ, 0 ≤ i ∧ i < k ∧ ∃ lo hi, splitRange n k i = .ok (lo, hi) ∧ lo ≤ j ∧ j < hi := by
  obtain ⟨b, b0, bk, hm, hr⟩ := C53_partition n k (by omega) hk
  have ex : ∀ m : ℕ, (m : ℤ) ≤ k → j < b m → ∃ i : ℤ, 0 ≤ i ∧ i < k ∧ b i ≤ j ∧ j < b (i + 1) := by
    intro m
    induction m with
    | zero =>
      intro _ h
      simp only [Nat.cast_zero] at h
      omega
    | succ m ih =>
      intro hm' h
      push_cast at hm' h
      by_cases hlt : j < b m
      · exact ih (by omega) hlt
      · exact ⟨m, by omega, by omega, by omega, h⟩
  obtain ⟨i, hi0, hik, h2, h3⟩ := ex k.toNat (by omega) (by
    rw [Int.toNat_of_nonneg (by omega), bk]; exact h1)
  refine ⟨i, ⟨hi0, hik, _, _, hr i hi0 hik, h2, h3⟩, ?_⟩
  rintro i' ⟨hi0', hik', lo, hi, hr', h2', h3'⟩
  rw [hr i' hi0' hik'] at hr'
  simp only [Except.ok.injEq, Prod.mk.injEq] at hr'
  obtain ⟨rfl, rfl⟩ := hr'
  rcases lt_trichotomy i' i with h | h | h
  · have := hm (i' + 1) i (by omega) (by omega) (by omega)
    omega
  · exact h
  · have := hm (i + 1) i' (by omega) (by omega) (by omega)
    omega

/-- Seven vertices in three splits, and two vertices in three splits. -/
example : (splitRange 7 3 0, splitRange 7 3 1, splitRange 7 3 2) =
    (.ok (0, 2), .ok (2, 4), .ok (4, 7)) := by rfl
example : (splitRange 2 3 0, splitRange 2 3 1, splitRange 2 3 2) =
    (.ok (0, 0), .ok (0, 0), .ok (0, 2)) := by rfl

theorem numVertices_eq (ps : List (List Coord)) (hp : ps ≠ []) :
    numVertices ps = .ok (ps.flatten.length : ℤ) := by
  have key : ∀ (l : List (List Coord)) (a : ℤ),
      (l.map fun q => (q.length : ℤ)).foldl (fun a b => a + b) a = a + (l.flatten.length : ℤ) := by
    intro l
    induction l with
    | nil => intro a; simp
    | cons p r ih =>
      intro a
      rw [List.map_cons, List.foldl_cons, ih]
      simp only [List.flatten_cons, List.length_append]
      push_cast
      ring
  cases ps with
  | nil => exact absurd rfl hp
  | cons p r =>
    change Except.ok ((r.map fun q => (q.length : ℤ)).foldl (fun a b => a + b) (p.length : ℤ)) = _
    rw [key]
    simp

/-- **C53** Every split of the polygons is accepted and generated, and the graphs of all splits,
made with one seed and merged in any way, answer like the graph generated in one go. -/
theorem C53_shards (T : ℕ → Polygon.SumTree) (ps : List (List Coord)) (hp : ps ≠ [])
    (hg : ∀ v ∈ ps.flatten, v.Geo) (hsize : ps.flatten.length < 2 ^ 64)
    (scanner : Coord → Res (List (Coord × Bool)))
    (hs : Visgraph.IsScanner T ps scanner) (order shuffle : List Coord → List Coord)
    (ho : ∀ l, (order l).Perm l) (hsh : ∀ l, (shuffle l).Perm l) (k : ℕ) (hk : 1 ≤ k) :
    ∃ gs g, (List.range k).mapM (fun (i : ℕ) => generateSplit ps scanner order shuffle k i) =
        .ok gs ∧
      Visgraph.generate ps scanner order = .ok g ∧
      ∀ (ps' : List (List Coord)) (schedule : List Graph.Op → List Graph.Op),
        Graph.MergeOrder gs ps' → (∀ l, (schedule l).Perm l) →
        ∃ G, Graph.merge ps' schedule gs = .ok G ∧ SameAnswers G g := by
  obtain ⟨b, b0, bk, hm, hr⟩ := C53_partition ps.flatten.length k (by omega) (by omega)
  have hb : ∀ i : ℤ, 0 ≤ i → i ≤ k → 0 ≤ b i ∧ b i ≤ ps.flatten.length := by
    intro i h0 h1
    exact ⟨b0 ▸ hm 0 i (le_refl _) h0 h1, bk ▸ hm i k h0 h1 (le_refl _)⟩
  have hsplit : ∀ i : ℕ, i < k → generateSplit ps scanner order shuffle k i =
      Visgraph.generateRange ps scanner order shuffle (b i).toNat (b (i + 1)).toNat := by
    intro i hi
    have h1 := hb i (by omega) (by omega)
    have h2 := hb (i + 1) (by omega) (by omega)
    unfold generateSplit
    rw [numVertices_eq ps hp, Res.bind_ok, hr i (by omega) (by omega), Res.bind_ok]
    dsimp only
    unfold toSize
    rw [if_pos (by omega), Res.bind_ok, if_pos (by omega), Res.bind_ok]
  obtain ⟨gs, g, h1, h2, h3⟩ := C40_shards T ps hg scanner hs shuffle hsh
    ((List.range k).map fun (i : ℕ) => ((b i).toNat, (b (i + 1)).toNat))
    (by
      intro r hr'
      obtain ⟨i, hi, rfl⟩ := List.mem_map.1 hr'
      rw [List.mem_range] at hi
      have h1 := hb i (by omega) (by omega)
      have h2 := hb (i + 1) (by omega) (by omega)
      have h3 := hm i (i + 1) (by omega) (by omega) (by omega)
      dsimp only
      omega)
    (by
      intro j hj
      obtain ⟨i, ⟨hi0, hik, lo, hi, hr', h2, h3⟩, -⟩ :=
        C53_exactly_one ps.flatten.length k (by omega) j (by omega) (by omega)
      rw [hr i hi0 hik] at hr'
      simp only [Except.ok.injEq, Prod.mk.injEq] at hr'
      obtain ⟨rfl, rfl⟩ := hr'
      have h1 := hb i (by omega) (by omega)
      refine ⟨_, List.mem_map.2 ⟨i.toNat, List.mem_range.2 (by omega), rfl⟩, ?_⟩
      have : ((i.toNat : ℕ) : ℤ) = i := by omega
      dsimp only
      rw [this]
      omega)
    (fun _ => order) (fun _ => ho) order ho
  refine ⟨gs, g, ?_, h2, h3⟩
  rw [List.mapM_map] at h1
  rw [← h1]
  have : ∀ l : List ℕ, (∀ i ∈ l, i < k) →
      l.mapM (fun (i : ℕ) => generateSplit ps scanner order shuffle k i) =
      l.mapM ((fun r : ℕ × ℕ => Visgraph.generateRange ps scanner order shuffle r.1 r.2) ∘
        fun (i : ℕ) => ((b i).toNat, (b (i + 1)).toNat)) := by
    intro l
    induction l with
    | nil => intro _; rfl
    | cons i r ih =>
      intro h
      rw [List.mapM_cons, List.mapM_cons, hsplit i (h i List.mem_cons_self),
        ih fun j hj => h j (List.mem_cons_of_mem _ hj)]
      rfl
  exact this _ fun i hi => List.mem_range.1 hi

example : [exTriangle] ≠ [] ∧ (∀ v ∈ [exTriangle].flatten, v.Geo) ∧
    Visgraph.IsScanner Polygon.SumTree.sequential [exTriangle]
      (exScanner Polygon.SumTree.sequential [exTriangle]) :=
  ⟨by decide, by decide, exScanner_ok _ _⟩

/-- **C53** A split number equal to the number of splits is not rejected: it repeats the end of the
last split.  No polygons raise an error, although generation in one go accepts them. -/
theorem C53_unchecked :
    (∃ n k lo hi : ℤ, 1 ≤ k ∧ splitRange n k k = .ok (lo, hi) ∧ 0 ≤ lo ∧ lo < hi ∧ hi ≤ n) ∧
    (∀ scanner order shuffle k i,
      generateSplit [] scanner order shuffle k i = .error .exn) ∧
    ∀ scanner, Visgraph.generate [] scanner id = .ok (Graph.ofPolygons []) :=
  ⟨⟨7, 3, 6, 7, by decide, rfl, by decide, by decide, by decide⟩, fun _ _ _ _ _ => rfl,
    fun _ => rfl⟩

/-- **C53** A split whose number is negative, or so large that it would begin behind the last vertex,
raises an error. -/
theorem C53_rejected (ps : List (List Coord)) (scanner : Coord → Res (List (Coord × Bool)))
    (order shuffle : List Coord → List Coord) (k i : ℤ) (hk : 1 ≤ k)
    (hn : k ≤ ps.flatten.length)
    (hi : i < 0 ∨ (ps.flatten.length : ℤ) < (ps.flatten.length : ℤ) / k * i) :
    generateSplit ps scanner order shuffle k i = .error .exn := by
  have hp : ps ≠ [] := by
    rintro rfl
    simp only [List.flatten_nil, List.length_nil] at hn
    omega
  have hpos : 1 ≤ (ps.flatten.length : ℤ) / k := (Int.le_ediv_iff_mul_le (by omega)).2 (by omega)
  have hle : (ps.flatten.length : ℤ) / k * k ≤ ps.flatten.length := Int.ediv_mul_le _ (by omega)
  unfold generateSplit splitRange
  rw [numVertices_eq ps hp, Res.bind_ok, if_neg (by omega), Res.bind_ok,
    Int.fdiv_eq_ediv_of_nonneg _ (by omega : 0 ≤ k)]
  dsimp only
  generalize hs : (ps.flatten.length : ℤ) / k = s at *
  rcases hi with hi | hi
  · have : s * i < 0 := by nlinarith
    unfold toSize
    rw [if_neg (by omega)]
    rfl
  · have hki : k < i := by
      by_contra hc
      have : s * i ≤ s * k := mul_le_mul_of_nonneg_left (by omega) (by omega)
      omega
    rw [if_neg (by omega)]
    unfold toSize
    by_cases h : 0 ≤ s * i ∧ s * i < 2 ^ 64
    · rw [if_pos h, Res.bind_ok, if_pos (by omega), Res.bind_ok]
      unfold Visgraph.generateRange
      have he : ps.isEmpty = false := by cases ps <;> simp_all
      rw [he, Visgraph.polygonVertices_eq]
      simp only [Bool.false_eq_true, if_false]
      rw [if_pos (Or.inr (by omega))]
      rfl
    · rw [if_neg h]
      rfl

/-- Split -1 and split 4 of 3, for a map with three vertices. -/
example (scanner : Coord → Res (List (Coord × Bool))) :
    generateSplit [exTriangle] scanner id id 3 (-1) = .error .exn ∧
    generateSplit [exTriangle] scanner id id 3 4 = .error .exn :=
  ⟨C53_rejected _ _ _ _ _ _ (by decide) (by decide) (Or.inl (by decide)),
    C53_rejected _ _ _ _ _ _ (by decide) (by decide) (Or.inr (by decide))⟩

/-! ### C54 -/

/-- The points of the first part: those before the start of the second, if there is one. -/
def firstRing (s : Shape) : List (ℚ × ℚ) :=
  match s.parts[1]? with
  | some e => s.points.take e
  | none => s.points

theorem partLoop_eq (parts : List ℕ) (i : ℕ) (l : List (ℚ × ℚ)) :
    partLoop parts i l = match parts[1]? with
      | some e => if i ≤ e then l.take (e - i) else l
      | none => l := by
  induction l generalizing i with
  | nil =>
    unfold partLoop
    cases parts[1]? <;> simp
  | cons p r ih =>
    unfold partLoop
    cases he : parts[1]? with
    | none =>
      rw [if_neg (by simp), ih, he]
    | some e =>
      have hlen : parts.length > 1 := (List.getElem?_eq_some_iff.1 he).1
      dsimp only
      by_cases hei : e = i
      · subst hei
        rw [if_pos ⟨hlen, rfl⟩, if_pos (le_refl _)]
        simp
      · rw [if_neg (by rintro ⟨-, h⟩; exact hei (Option.some.inj h)), ih, he]
        dsimp only
        by_cases h : i ≤ e
        · rw [if_pos h, if_pos (by omega)]
          obtain ⟨d, hd⟩ : ∃ d, e - i = d + 1 := ⟨e - i - 1, by omega⟩
          rw [hd, List.take_succ_cons, show e - (i + 1) = d by omega]
        · rw [if_neg h, if_neg (by omega)]

theorem partLoop_first (s : Shape) : partLoop s.parts 0 s.points = firstRing s := by
  rw [partLoop_eq]
  unfold firstRing
  cases s.parts[1]? <;> simp

/-- **C54** Reading never raises and returns, in order, for every polygon record whose first ring has
at least four points, that ring without its last point. -/
theorem C54_read (shapes : List Shape) :
    readShapes shapes = .ok ((shapes.filter fun s =>
      s.isPolygon && decide (4 ≤ (firstRing s).length)).map fun s => (firstRing s).dropLast) := by
  induction shapes with
  | nil => rfl
  | cons s r ih =>
    unfold readShapes
    rw [partLoop_first, ih]
    cases hp : s.isPolygon with
    | false => simp [hp]
    | true =>
      simp only [Bool.true_eq_false, if_false]
      by_cases hl : (firstRing s).length > 3
      · rw [if_pos hl]
        unfold pyPolygon
        rw [if_neg (by rw [List.length_dropLast]; omega), Res.bind_ok, Res.bind_ok, Res.pure_eq]
        rw [List.filter_cons_of_pos (by rw [hp]; simp; omega), List.map_cons]
      · rw [if_neg hl, List.filter_cons_of_neg (by rw [hp]; simp; omega)]

/-- **C54** Of a closed ring nothing is lost: the polygon followed by its first point is the ring. -/
theorem C54_closed (s : Shape) (h4 : 4 ≤ (firstRing s).length)
    (hc : (firstRing s).head? = (firstRing s).getLast?) :
    ∃ p ps, (firstRing s).dropLast = p :: ps ∧ firstRing s = (p :: ps) ++ [p] ∧ 2 ≤ ps.length := by
  generalize firstRing s = l at h4 hc
  match l, h4 with
  | p :: q :: t, h4 =>
    have hne : (p :: q :: t) ≠ [] := List.cons_ne_nil _ _
    have hlast : (p :: q :: t).getLast hne = p := by
      rw [List.getLast?_eq_some_getLast hne] at hc
      exact (Option.some.inj hc).symm
    refine ⟨p, (q :: t).dropLast, rfl, ?_, ?_⟩
    · have := List.dropLast_append_getLast hne
      rw [hlast] at this
      exact this.symm
    · simp only [List.length_cons] at h4
      rw [List.length_dropLast, List.length_cons]
      omega

example : ∃ p ps, (firstRing ⟨true, [(0, 0), (1, 0), (0, 1), (0, 0), (5, 5)], [0, 4]⟩).dropLast =
    p :: ps ∧ firstRing ⟨true, [(0, 0), (1, 0), (0, 1), (0, 0), (5, 5)], [0, 4]⟩ =
    (p :: ps) ++ [p] ∧ 2 ≤ ps.length := C54_closed _ (by decide) rfl

/-- **C54** Parts other than the first are not read at all. -/
theorem C54_other_parts (s : Shape) (more : List (ℚ × ℚ)) (starts : List ℕ)
    (h : s.parts = [0]) :
    firstRing ⟨s.isPolygon, s.points ++ more, 0 :: s.points.length :: starts⟩ = firstRing s := by
  unfold firstRing
  rw [h]
  simp

/-- Two closed triangles in one record, a record of another type, and one that is too short. -/
example : readShapes [⟨true, [(0, 0), (1, 0), (0, 1), (0, 0), (5, 5), (6, 5), (5, 6), (5, 5)], [0, 4]⟩,
    ⟨false, [(0, 0), (1, 0), (0, 1), (0, 0)], [0]⟩, ⟨true, [(0, 0), (1, 0), (0, 0)], [0]⟩] =
    .ok [[(0, 0), (1, 0), (0, 1)]] := by
  rw [C54_read]
  rfl

theorem micro_geo {x : ℚ} {B : ℤ} (hB : 0 ≤ B) (hB2 : B ≤ 2147) (hx : |x| ≤ B) :
    ∃ k, Coord.microOfDegC x = .ok k ∧ -(B * 1000000) ≤ k ∧ k ≤ B * 1000000 := by
  obtain ⟨h1, h2⟩ := abs_le.1 hx
  have hfl : fl ((B * 1000000 : ℤ) : ℚ) = ((B * 1000000 : ℤ) : ℚ) := fl_int _ (by
    rw [abs_of_nonneg (by omega)]; omega)
  have hi : fl (1000000 * x) ≤ ((B * 1000000 : ℤ) : ℚ) := by
    rw [← hfl]
    apply fl_mono
    push_cast
    linarith
  have lo : -((B * 1000000 : ℤ) : ℚ) ≤ fl (1000000 * x) := by
    rw [← hfl, ← fl_neg]
    apply fl_mono
    push_cast
    linarith
  have ht : -(B * 1000000) ≤ truncZ (fl (1000000 * x)) ∧ truncZ (fl (1000000 * x)) ≤ B * 1000000 := by
    unfold truncZ
    split_ifs with h0
    · constructor
      · rw [Int.le_floor]; push_cast at lo ⊢; exact lo
      · have : (⌊fl (1000000 * x)⌋ : ℚ) ≤ ((B * 1000000 : ℤ) : ℚ) := (Int.floor_le _).trans hi
        exact_mod_cast this
    · constructor
      · have : (-((B * 1000000 : ℤ)) : ℚ) ≤ (⌈fl (1000000 * x)⌉ : ℚ) := lo.trans (Int.le_ceil _)
        exact_mod_cast this
      · rw [Int.ceil_le]; exact hi
  refine ⟨truncZ (fl (1000000 * x)), ?_, ht.1, ht.2⟩
  unfold Coord.microOfDegC
  exact chk32_ok (by unfold FitsI32; omega)

theorem ofDegrees_geo {p : ℚ × ℚ} (h1 : |p.1| ≤ 180) (h2 : |p.2| ≤ 90) :
    ∃ c, Coord.ofDegreesC p.1 p.2 = .ok c ∧ c.Geo := by
  obtain ⟨x, hx, x1, x2⟩ := micro_geo (B := 180) (by omega) (by omega) (by exact_mod_cast h1)
  obtain ⟨y, hy, y1, y2⟩ := micro_geo (B := 90) (by omega) (by omega) (by exact_mod_cast h2)
  refine ⟨⟨x, y⟩, ?_, ?_⟩
  · unfold Coord.ofDegreesC
    rw [hx, Res.bind_ok, hy, Res.bind_ok]
    rfl
  · unfold Coord.Geo
    dsimp only
    omega

theorem mapM_ok {α β : Type} {f : α → Res β} {P : β → Prop} (l : List α)
    (h : ∀ a ∈ l, ∃ b, f a = .ok b ∧ P b) : ∃ r, l.mapM f = .ok r ∧ ∀ b ∈ r, P b := by
  induction l with
  | nil => exact ⟨[], rfl, fun b hb => by cases hb⟩
  | cons a t ih =>
    obtain ⟨b, hb, hP⟩ := h a List.mem_cons_self
    obtain ⟨r, hr, hall⟩ := ih fun x hx => h x (List.mem_cons_of_mem _ hx)
    refine ⟨b :: r, ?_, fun x hx => ?_⟩
    · rw [List.mapM_cons, hb, Res.bind_ok, hr]
      rfl
    · rcases List.mem_cons.1 hx with rfl | hx
      · exact hP
      · exact hall x hx

/-- **C54** A shapefile whose longitudes are within ±180 and latitudes within ±90 is turned into
polygons of geographic coordinates without error; these are the inputs C38–C41 are about. -/
theorem C54_geographic (T : ℕ → Polygon.SumTree) (shapes : List Shape)
    (h : ∀ s ∈ shapes, ∀ p ∈ s.points, |p.1| ≤ 180 ∧ |p.2| ≤ 90) :
    ∃ ps, (readShapes shapes >>= toPolygons T) = .ok ps ∧ ∀ v ∈ ps.flatten, v.Geo := by
  rw [C54_read, Res.bind_ok]
  unfold toPolygons
  obtain ⟨ps, h1, h2⟩ := mapM_ok (P := fun p : List Coord => ∀ v ∈ p, v.Geo)
    (f := fun q : List (ℚ × ℚ) => (do
      let cs ← q.mapM fun p => Coord.ofDegreesC p.1 p.2
      return Polygon.mk T cs : Res (List Coord)))
    ((shapes.filter fun s => s.isPolygon && decide (4 ≤ (firstRing s).length)).map fun s =>
      (firstRing s).dropLast) (by
    intro q hq
    obtain ⟨s, hs, rfl⟩ := List.mem_map.1 hq
    have hs := (List.mem_filter.1 hs).1
    obtain ⟨cs, g1, g2⟩ := mapM_ok (f := fun p : ℚ × ℚ => Coord.ofDegreesC p.1 p.2) (P := Coord.Geo)
      (firstRing s).dropLast (by
        intro p hp
        have hp : p ∈ s.points := by
          have := List.dropLast_subset _ hp
          unfold firstRing at this
          split at this
          · exact List.mem_of_mem_take this
          · exact this
        obtain ⟨a, b⟩ := h s hs p hp
        exact ofDegrees_geo a b)
    refine ⟨Polygon.mk T cs, ?_, fun v hv => g2 v ?_⟩
    · rw [g1]; rfl
    · apply (removeCollinear_sublist cs).subset
      rcases C12_same_vertices T cs with e | e
      · rwa [e] at hv
      · rw [e] at hv; exact List.mem_reverse.1 hv)
  refine ⟨ps, h1, fun v hv => ?_⟩
  obtain ⟨p, hp, hv⟩ := List.mem_flatten.1 hv
  exact h2 p hp v hv

example : ∃ ps, (readShapes [⟨true, [(0, 0), (-180, 90), (1 / 2, 1), (0, 0)], [0]⟩] >>=
    toPolygons Polygon.SumTree.sequential) = .ok ps ∧ ∀ v ∈ ps.flatten, v.Geo := by
  refine C54_geographic _ _ fun s hs p hp => ?_
  rw [List.mem_singleton.1 hs] at hp
  simp only [List.mem_cons, List.not_mem_nil, or_false] at hp
  rcases hp with rfl | rfl | rfl | rfl <;> norm_num [abs_le]

/-! ### C55 -/

theorem pyMod_range (x m : ℚ) (hm : 0 < m) : 0 ≤ pyMod x m ∧ pyMod x m < m := by
  unfold pyMod
  have h1 := Int.floor_le (x / m)
  have h2 := Int.lt_floor_add_one (x / m)
  rw [le_div_iff₀ hm] at h1
  rw [div_lt_iff₀ hm] at h2
  constructor <;> linarith

theorem pyMod_unique {x m y : ℚ} (hm : 0 < m) (h0 : 0 ≤ y) (h1 : y < m) (k : ℤ)
    (h : x = y + m * k) : pyMod x m = y := by
  have : ⌊x / m⌋ = k := by
    rw [Int.floor_eq_iff, le_div_iff₀ hm, div_lt_iff₀ hm]
    constructor <;> linarith
  unfold pyMod
  rw [this, h]
  ring

/-- **C55** The result is in the half-open range. -/
theorem C55_range (lat lon : ℚ) :
    -90 ≤ (wrapLatLon lat lon).1 ∧ (wrapLatLon lat lon).1 < 90 ∧
      -180 ≤ (wrapLatLon lat lon).2 ∧ (wrapLatLon lat lon).2 < 180 := by
  have h1 := pyMod_range (lat + 90) 180 (by norm_num)
  have h2 := pyMod_range (lon + 180) 360 (by norm_num)
  unfold wrapLatLon
  dsimp only
  refine ⟨?_, ?_, ?_, ?_⟩ <;> linarith

/-- **C55** It differs from the input by whole multiples of 180 and 360 degrees. -/
theorem C55_congruent (lat lon : ℚ) :
    ∃ a b : ℤ, wrapLatLon lat lon = (lat - 180 * a, lon - 360 * b) := by
  refine ⟨⌊(lat + 90) / 180⌋, ⌊(lon + 180) / 360⌋, ?_⟩
  unfold wrapLatLon pyMod
  rw [Prod.mk.injEq]
  constructor <;> ring

/-- **C55** Whole turns before wrapping do not change the result. -/
theorem C55_turns (lat lon : ℚ) (a b : ℤ) :
    wrapLatLon (lat + 180 * a) (lon + 360 * b) = wrapLatLon lat lon := by
  unfold wrapLatLon
  rw [Prod.mk.injEq]
  constructor
  · have h := pyMod_range (lat + 90) 180 (by norm_num)
    rw [pyMod_unique (by norm_num) h.1 h.2 (a + ⌊(lat + 90) / 180⌋) (by
      unfold pyMod; push_cast; ring)]
  · have h := pyMod_range (lon + 180) 360 (by norm_num)
    rw [pyMod_unique (by norm_num) h.1 h.2 (b + ⌊(lon + 180) / 360⌋) (by
      unfold pyMod; push_cast; ring)]

/-- **C55** Values in the half-open range are unchanged. -/
theorem C55_id (lat lon : ℚ) (h1 : -90 ≤ lat) (h2 : lat < 90) (h3 : -180 ≤ lon) (h4 : lon < 180) :
    wrapLatLon lat lon = (lat, lon) := by
  unfold wrapLatLon
  rw [pyMod_unique (y := lat + 90) (by norm_num) (by linarith) (by linarith) 0 (by simp),
    pyMod_unique (y := lon + 180) (by norm_num) (by linarith) (by linarith) 0 (by simp),
    Prod.mk.injEq]
  constructor <;> ring

example : wrapLatLon (-90) 179.5 = (-90, 179.5) ∧ wrapLatLon (90 + 180 * (3 : ℤ)) (179.5 + 360 * (-2 : ℤ)) =
    (-90, 179.5) := by
  have h := C55_id (-90) 179.5 (by norm_num) (by norm_num) (by norm_num) (by norm_num)
  refine ⟨h, ?_⟩
  have e : (90 + 180 * ((3 : ℤ) : ℚ)) = -90 + 180 * ((4 : ℤ) : ℚ) := by norm_num
  rw [e, C55_turns, h]

/-- **C55** Wrapping twice is wrapping once. -/
theorem C55_idempotent (lat lon : ℚ) :
    wrapLatLon (wrapLatLon lat lon).1 (wrapLatLon lat lon).2 = wrapLatLon lat lon := by
  obtain ⟨h1, h2, h3, h4⟩ := C55_range lat lon
  exact C55_id _ _ h1 h2 h3 h4

/-- **C55** The north pole becomes the south pole, and going past a pole comes back at the other
one instead of on the other side of it. -/
theorem C55_pole_false : wrapLatLon 90 0 = (-90, 0) ∧ wrapLatLon 91 0 = (-89, 0) := by
  constructor
  · have := C55_turns (-90) 0 1 0
    norm_num at this
    rw [this]
    exact C55_id _ _ (by norm_num) (by norm_num) (by norm_num) (by norm_num)
  · have := C55_turns (-89) 0 1 0
    norm_num at this
    rw [this]
    exact C55_id _ _ (by norm_num) (by norm_num) (by norm_num) (by norm_num)

theorem pyModFl_range (x m : ℚ) (hm : 0 < m) (hf : fl m = m) :
    0 ≤ pyModFl x m ∧ pyModFl x m ≤ m := by
  have key : -m < x - m * truncZ (x / m) ∧ x - m * truncZ (x / m) < m := by
    unfold truncZ
    split_ifs with h
    · have h1 := Int.floor_le (x / m)
      have h2 := Int.lt_floor_add_one (x / m)
      rw [le_div_iff₀ hm] at h1
      rw [div_lt_iff₀ hm] at h2
      constructor <;> linarith
    · have h1 := Int.le_ceil (x / m)
      have h2 := Int.ceil_lt_add_one (x / m)
      rw [div_le_iff₀ hm] at h1
      rw [← sub_lt_iff_lt_add, lt_div_iff₀ hm] at h2
      constructor <;> linarith
  unfold pyModFl
  dsimp only
  split_ifs with h
  · constructor
    · rw [← fl_zero]; apply fl_mono; linarith
    · calc fl (x - m * truncZ (x / m) + m) ≤ fl m := fl_mono (by linarith)
        _ = m := hf
  · exact ⟨not_lt.1 h, key.2.le⟩

/-- **C55** With rounding, the result is in the closed range. -/
theorem C55_rounded_range (lat lon : ℚ) :
    -90 ≤ (wrapLatLonFl lat lon).1 ∧ (wrapLatLonFl lat lon).1 ≤ 90 ∧
      -180 ≤ (wrapLatLonFl lat lon).2 ∧ (wrapLatLonFl lat lon).2 ≤ 180 := by
  have f1 : fl 180 = 180 := by exact_mod_cast fl_int 180 (by norm_num)
  have f2 : fl 360 = 360 := by exact_mod_cast fl_int 360 (by norm_num)
  have f3 : fl 90 = 90 := by exact_mod_cast fl_int 90 (by norm_num)
  have f4 : fl (-90) = -90 := by rw [fl_neg, f3]
  have f5 : fl (-180) = -180 := by rw [fl_neg, f1]
  have h1 := pyModFl_range (fl (lat + 90)) 180 (by norm_num) f1
  have h2 := pyModFl_range (fl (lon + 180)) 360 (by norm_num) f2
  unfold wrapLatLonFl
  dsimp only
  refine ⟨?_, ?_, ?_, ?_⟩
  · rw [← f4]; apply fl_mono; linarith
  · calc _ ≤ fl 90 := fl_mono (by linarith)
      _ = 90 := f3
  · rw [← f5]; apply fl_mono; linarith
  · calc _ ≤ fl 180 := fl_mono (by linarith)
      _ = 180 := f1

theorem fl_near_180 : fl (180 - 1 / 2 ^ 46) = 180 := by
  have := fl_eval (x := 180 - 1 / 2 ^ 46) 7 (180 * 2 ^ 45) (by
    rw [abs_of_pos (by norm_num)]; norm_num) (by rw [abs_of_pos (by norm_num)]; norm_num) (by
    norm_num [rne, Int.floor_eq_iff])
  rw [this]
  norm_num

/-- **C55** With rounding, the half-open range is not kept and a latitude next to the north pole
becomes the south pole. -/
theorem C55_rounded_false :
    (wrapLatLonFl (-90 - 1 / 2 ^ 46) 0).1 = 90 ∧ (wrapLatLonFl (90 - 1 / 2 ^ 46) 0).1 = -90 := by
  have f3 : fl 90 = 90 := by exact_mod_cast fl_int 90 (by norm_num)
  constructor
  · unfold wrapLatLonFl pyModFl
    dsimp only
    have e1 : fl (-90 - 1 / 2 ^ 46 + 90) = -(1 / 2 ^ 46) := by
      have := fl_exact (-1) (-46) (by norm_num)
      rw [show (-90 - 1 / 2 ^ 46 + 90 : ℚ) = (-1 : ℤ) * 2 ^ (-46 : ℤ) by norm_num, this]
      norm_num
    have e2 : truncZ (-(1 / 2 ^ 46) / 180) = 0 := by
      unfold truncZ
      rw [if_neg (by norm_num), Int.ceil_eq_iff]
      norm_num
    rw [e1, e2]
    norm_num
    have := fl_near_180
    norm_num at this
    rw [this]
    norm_num
    exact f3
  · unfold wrapLatLonFl pyModFl
    dsimp only
    have e1 : fl (90 - 1 / 2 ^ 46 + 90) = 180 := by
      rw [show (90 - 1 / 2 ^ 46 + 90 : ℚ) = 180 - 1 / 2 ^ 46 by norm_num]
      exact fl_near_180
    have e2 : truncZ (180 / 180) = 1 := by
      unfold truncZ
      rw [if_pos (by norm_num)]
      norm_num
    rw [e1, e2]
    norm_num
    rw [fl_neg, f3]

/-- **C55** With rounding, values in the range and not next to its upper end are changed only by
rounding. -/
theorem C55_rounded_id (lat lon : ℚ) (h1 : -90 ≤ lat) (h2 : lat ≤ 90 - 1 / 2 ^ 45) (h3 : -180 ≤ lon)
    (h4 : lon ≤ 180 - 1 / 2 ^ 44) :
    |(wrapLatLonFl lat lon).1 - lat| ≤ 1 / 2 ^ 44 ∧ |(wrapLatLonFl lat lon).2 - lon| ≤ 1 / 2 ^ 43 := by
  have key : ∀ (x h : ℚ) (m : ℤ) (e : ℤ), 0 < h → h ≤ 180 → -h ≤ x → x ≤ h - 2 ^ e →
      (m : ℚ) * 2 ^ e = 2 * h - 2 ^ e → |m| ≤ 2 ^ 53 →
      |fl (pyModFl (fl (x + h)) (2 * h) - h) - x| ≤ 3 * h / 2 ^ 53 := by
    intro x h m e hh _ l1 l2 hm hm2
    have he : (0 : ℚ) < 2 ^ e := by positivity
    have u : fl (x + h) ≤ 2 * h - 2 ^ e := by
      rw [← hm, ← fl_exact m e hm2]
      apply fl_mono
      rw [hm]
      linarith
    have l : 0 ≤ fl (x + h) := by
      rw [← fl_zero]; apply fl_mono; linarith
    have t : truncZ (fl (x + h) / (2 * h)) = 0 := by
      unfold truncZ
      rw [if_pos (by positivity), Int.floor_eq_iff]
      constructor
      · simp only [Int.cast_zero]; positivity
      · rw [div_lt_iff₀ (by positivity)]
        push_cast
        linarith
    have hmod : pyModFl (fl (x + h)) (2 * h) = fl (x + h) := by
      unfold pyModFl
      rw [t]
      simp only [Int.cast_zero, mul_zero, sub_zero]
      rw [if_neg (not_lt.2 l)]
    rw [hmod]
    have r1 := fl_err (x + h)
    have r2 := fl_err (fl (x + h) - h)
    have b1 : |x + h| ≤ 2 * h := by rw [abs_le]; constructor <;> linarith
    have b2 : |fl (x + h) - h| ≤ h := by rw [abs_le]; constructor <;> linarith
    have r1' : |fl (x + h) - (x + h)| ≤ 2 * h / 2 ^ 53 := r1.trans (by gcongr)
    have r2' : |fl (fl (x + h) - h) - (fl (x + h) - h)| ≤ h / 2 ^ 53 := r2.trans (by gcongr)
    have : fl (fl (x + h) - h) - x =
        (fl (fl (x + h) - h) - (fl (x + h) - h)) + (fl (x + h) - (x + h)) := by ring
    rw [this]
    refine (abs_add_le _ _).trans ?_
    calc _ ≤ h / 2 ^ 53 + 2 * h / 2 ^ 53 := add_le_add r2' r1'
      _ = 3 * h / 2 ^ 53 := by ring
  unfold wrapLatLonFl
  dsimp only
  constructor
  · have := key lat 90 (180 * 2 ^ 45 - 1) (-45) (by norm_num) (by norm_num) h1
      (by rw [zpow_neg]; norm_num at h2 ⊢; linarith) (by norm_num) (by norm_num)
    rw [show (2 * 90 : ℚ) = 180 by norm_num] at this
    refine this.trans (by norm_num)
  · have := key lon 180 (360 * 2 ^ 44 - 1) (-44) (by norm_num) (by norm_num) h3
      (by rw [zpow_neg]; norm_num at h4 ⊢; linarith) (by norm_num) (by norm_num)
    rw [show (2 * 180 : ℚ) = 360 by norm_num] at this
    refine this.trans (by norm_num)

example : |(wrapLatLonFl 45.5 (-122.7)).1 - 45.5| ≤ 1 / 2 ^ 44 ∧
    |(wrapLatLonFl 45.5 (-122.7)).2 - (-122.7)| ≤ 1 / 2 ^ 43 :=
  C55_rounded_id _ _ (by norm_num) (by norm_num) (by norm_num) (by norm_num)

/-! ### C57 -/

variable {D : Type} [LinearOrder D]

/-- What a single call says about an entry of the batch. -/
def Agrees (entry : Option (List (ℚ × ℚ))) (out : Res (List (ℚ × ℚ))) : Prop :=
  (∃ p, out = .ok p ∧ entry = some p) ∨ (out = .error .exn ∧ entry = none)

theorem mapM_index {α β : Type} {f : α → Res β} {l : List α} {r : List β} (h : l.mapM f = .ok r) :
    r.length = l.length ∧ ∀ (i : ℕ) (a : α), l[i]? = some a → ∃ b, r[i]? = some b ∧ f a = .ok b := by
  induction l generalizing r with
  | nil =>
    cases h
    exact ⟨rfl, fun i a h => by simp at h⟩
  | cons x t ih =>
    rw [List.mapM_cons] at h
    obtain ⟨b, hb, h⟩ := bind_eq_ok h
    obtain ⟨bs, hbs, h⟩ := bind_eq_ok h
    cases h
    obtain ⟨h1, h2⟩ := ih hbs
    refine ⟨by simp [h1], fun i a hi => ?_⟩
    cases i with
    | zero =>
      simp only [List.getElem?_cons_zero, Option.some.injEq] at hi
      exact ⟨b, rfl, hi ▸ hb⟩
    | succ i =>
      simp only [List.getElem?_cons_succ] at hi ⊢
      exact h2 i a hi

/-- The entry made of a result. -/
def Converted (b : BatchResult) (e : Option (List (ℚ × ℚ))) : Prop :=
  (b.error.isSome ∧ e = none) ∨ (b.error = none ∧ ∃ p, b.path = some p ∧ e = some (toDegrees p))

theorem convertResults_index {bs : List BatchResult} {r : List (Option (List (ℚ × ℚ)))}
    (h : convertResults bs = .ok r) :
    r.length = bs.length ∧
      ∀ (i : ℕ) (b : BatchResult), bs[i]? = some b → ∃ e, r[i]? = some e ∧ Converted b e := by
  induction bs generalizing r with
  | nil =>
    cases h
    exact ⟨rfl, fun i a h => by simp at h⟩
  | cons x t ih =>
    have step : ∃ e rest, r = e :: rest ∧ convertResults t = .ok rest ∧ Converted x e := by
      unfold convertResults at h
      split_ifs at h with he
      · obtain ⟨rest, hr, h⟩ := bind_eq_ok h
        cases h
        exact ⟨none, rest, rfl, hr, Or.inl ⟨he, rfl⟩⟩
      · cases hp : x.path with
        | none => rw [hp] at h; cases h
        | some p =>
          rw [hp] at h
          obtain ⟨rest, hr, h⟩ := bind_eq_ok h
          cases h
          refine ⟨_, rest, rfl, hr, Or.inr ⟨?_, p, hp, rfl⟩⟩
          cases hx : x.error with
          | none => rfl
          | some u => rw [hx] at he; exact absurd rfl he
    obtain ⟨e, rest, rfl, hr, hc⟩ := step
    obtain ⟨h1, h2⟩ := ih hr
    refine ⟨by simp [h1], fun i a hi => ?_⟩
    cases i with
    | zero =>
      simp only [List.getElem?_cons_zero, Option.some.injEq] at hi
      exact ⟨e, rfl, hi ▸ hc⟩
    | succ i =>
      simp only [List.getElem?_cons_succ] at hi ⊢
      exact h2 i a hi

/-- **C57** A batch has an entry for every pair, in order: `None` where a single call can raise and
the path of a single call otherwise. -/
theorem C57_batch (A : Arith D) (E : Env) (qs : List ((ℚ × ℚ) × (ℚ × ℚ))) (allow : Bool)
    (rs : List (Option (List (ℚ × ℚ)))) (h : BatchInterpolate A E qs allow (.ok rs)) :
    rs.length = qs.length ∧
    ∀ (i : ℕ) (q : (ℚ × ℚ) × (ℚ × ℚ)), qs[i]? = some q → ∃ out entry,
      Interpolate A E q.1 q.2 allow out ∧ rs[i]? = some entry ∧ Agrees entry out := by
  unfold BatchInterpolate at h
  split at h
  · cases h
  · rename_i cs hcs
    obtain ⟨x, hx, h⟩ := h
    obtain ⟨bs, rfl, hbs⟩ := bind_eq_ok h.symm
    obtain ⟨l1, m1⟩ := mapM_index hcs
    obtain ⟨l2, m2⟩ := C49_batch A E cs allow bs hx
    obtain ⟨l3, m3⟩ := convertResults_index hbs
    refine ⟨by omega, fun i q hi => ?_⟩
    obtain ⟨ab, hab, hq⟩ := m1 i q hi
    obtain ⟨out, b, ho, hb, hrep⟩ := m2 i ab hab
    obtain ⟨e, he, hconv⟩ := m3 i b hb
    refine ⟨out.map toDegrees, e, ?_, he, ?_⟩
    · unfold Interpolate
      rw [hq]
      exact ⟨out, ho, rfl⟩
    · rcases hrep with ⟨p, rfl, h4, h5⟩ | ⟨rfl, h4, h5⟩
      · rcases hconv with ⟨h6, -⟩ | ⟨-, p', h6, rfl⟩
        · rw [h5] at h6; cases h6
        · rw [h4] at h6
          cases h6
          exact Or.inl ⟨_, rfl, rfl⟩
      · rcases hconv with ⟨-, rfl⟩ | ⟨h6, -⟩
        · exact Or.inr ⟨rfl, rfl⟩
        · rw [h5] at h6; cases h6

theorem convertResults_ok {bs : List BatchResult} (h : ∀ b ∈ bs, ∃ out, Reports b out) :
    ∃ r, convertResults bs = .ok r := by
  induction bs with
  | nil => exact ⟨[], rfl⟩
  | cons b t ih =>
    obtain ⟨r, hr⟩ := ih fun x hx => h x (List.mem_cons_of_mem _ hx)
    obtain ⟨out, ⟨p, -, h1, h2⟩ | ⟨-, h1, h2⟩⟩ := h b List.mem_cons_self
    · refine ⟨some (toDegrees p) :: r, ?_⟩
      unfold convertResults
      rw [h2, h1, if_neg (by simp)]
      dsimp only
      rw [hr]
      rfl
    · refine ⟨none :: r, ?_⟩
      unfold convertResults
      rw [h2, if_pos (by simp), hr]
      rfl

/-- **C57** A batch of degrees in range raises nothing, whatever happens to its single queries, as
long as none of them has undefined behaviour. -/
theorem C57_never_raises (A : Arith D) (E : Env) (qs : List ((ℚ × ℚ) × (ℚ × ℚ))) (allow : Bool)
    (hr : ∀ q ∈ qs, |q.1.1| ≤ 180 ∧ |q.1.2| ≤ 90 ∧ |q.2.1| ≤ 180 ∧ |q.2.2| ≤ 90)
    (hq : ∀ s d : Coord, s.Geo → d.Geo → ∀ out, Query A E s d allow out → out ≠ .error .ub)
    (r : Res (List (Option (List (ℚ × ℚ))))) (h : BatchInterpolate A E qs allow r) :
    ∃ rs, r = .ok rs := by
  unfold BatchInterpolate at h
  obtain ⟨cs, hcs, hgeo⟩ := mapM_ok (P := fun q : Coord × Coord => q.1.Geo ∧ q.2.Geo)
    (f := fun q : (ℚ × ℚ) × (ℚ × ℚ) => (do
      let a ← Coord.ofDegreesC q.1.1 q.1.2
      let b ← Coord.ofDegreesC q.2.1 q.2.2
      return (a, b) : Res (Coord × Coord))) qs (by
    intro q hq'
    obtain ⟨h1, h2, h3, h4⟩ := hr q hq'
    obtain ⟨a, ha, ga⟩ := ofDegrees_geo h1 h2
    obtain ⟨b, hb, gb⟩ := ofDegrees_geo h3 h4
    refine ⟨(a, b), ?_, ga, gb⟩
    rw [ha, Res.bind_ok, hb, Res.bind_ok]
    rfl)
  rw [hcs] at h
  obtain ⟨x, ⟨order, outs, hp, ho, hx⟩, h⟩ := h
  obtain ⟨bs, hbs, -, hall⟩ := C49_schedules outs cs.length order order hp hp (by
    intro i hi
    obtain ⟨g1, g2⟩ := hgeo _ (List.getElem_mem hi)
    exact hq _ _ g1 g2 _ (ho i _ (List.getElem?_eq_getElem hi)))
  have hlen := runBatch_length hbs
  rw [List.length_replicate] at hlen
  rw [hx, hbs] at h
  rw [h, Res.bind_ok]
  refine convertResults_ok fun b hb => ?_
  obtain ⟨i, hi, rfl⟩ := List.getElem_of_mem hb
  obtain ⟨b', h1, h2⟩ := hall i (by omega)
  rw [List.getElem?_eq_getElem hi] at h1
  rw [Option.some.inj h1]
  exact ⟨_, h2⟩

/-- The corrections of endpoints on land that are made stay in range. -/
def LandOk (E : Env) : Prop :=
  ∀ v : Coord, v.Geo → E.onLand v = true → ∀ r, correctOne E v = r →
    r = .error .exn ∨ ∃ w e, r = .ok (w, some e) ∧ w.Geo ∧ e.p.Per ∧ e.q.Per

theorem query_no_ub (A : Arith D) (hA : A.Sound) (E : Env) (hg : UserGraph E.graph)
    (hord : ∀ l, (E.ord l).Perm l) (ps : List (List Coord)) (hps : ∀ v ∈ ps.flatten, v.Geo)
    (hv : E.graph.verts = ps.flatten) (hr : IsReach ps E.reach) (allow : Bool)
    (hland : allow = true → LandOk E) (s d : Coord) (hs : s.Geo) (hd : d.Geo)
    (out : Res (List Coord)) (h : Query A E s d allow out) : out ≠ .error .ub := by
  have norm : ∀ c : Coord, c.Geo → normalizeC c = .ok c := fun c hc =>
    C01_normalize_id c (by unfold Coord.Geo at hc; omega) (by unfold Coord.Geo at hc; omega)
  have one : ∀ v : Coord, v.Geo → (allow = true ∨ E.onLand v = false) →
      correctOne E v = .error .exn ∨ ∃ w e, correctOne E v = .ok (w, e) ∧ w.Geo ∧
        ∀ x, e = some x → x.p.Per ∧ x.q.Per := by
    intro v hvg ha
    cases hl : E.onLand v with
    | false =>
      refine Or.inr ⟨v, none, ?_, hvg, fun x hx => by cases hx⟩
      unfold correctOne
      rw [if_neg (by rw [hl]; simp)]
    | true =>
      rcases ha with ha | ha
      · rcases hland ha v hvg hl _ rfl with h | ⟨w, e, h1, h2, h3, h4⟩
        · exact Or.inl h
        · exact Or.inr ⟨w, some e, h1, h2, fun x hx => by cases hx; exact ⟨h3, h4⟩⟩
      · rw [hl] at ha; cases ha
  have hcorr : correct E s d allow = .error .exn ∨ ∃ c, correct E s d allow = .ok c ∧
      c.src.Geo ∧ c.dst.Geo ∧ (∀ e, c.srcEdge = some e → e.p.Per ∧ e.q.Per) ∧
      (∀ e, c.dstEdge = some e → e.p.Per ∧ e.q.Per) := by
    unfold correct
    by_cases hc : (!allow && (E.onLand s || E.onLand d)) = true
    · exact Or.inl (if_pos hc)
    · rw [if_neg hc]
      have hx : (allow = true ∨ E.onLand s = false) ∧ (allow = true ∨ E.onLand d = false) := by
        cases ha : allow with
        | true => exact ⟨Or.inl rfl, Or.inl rfl⟩
        | false =>
          rw [ha] at hc
          have hc : E.onLand s = false ∧ E.onLand d = false := by simpa using hc
          exact ⟨Or.inr hc.1, Or.inr hc.2⟩
      rcases one s hs hx.1 with h1 | ⟨w1, e1, h1, g1, p1⟩
      · rw [h1]; exact Or.inl rfl
      · rw [h1, Res.bind_ok]
        rcases one d hd hx.2 with h2 | ⟨w2, e2, h2, g2, p2⟩
        · rw [h2]; exact Or.inl rfl
        · rw [h2, Res.bind_ok]
          exact Or.inr ⟨_, rfl, g1, g2, p1, p2⟩
  unfold Query at h
  have hprep : prepare E s d allow = .error .exn ∨ ∃ x, prepare E s d allow = .ok x := by
    unfold prepare
    rw [norm s hs, Res.bind_ok, norm d hd, Res.bind_ok]
    rcases hcorr with h1 | ⟨c, h1, g1, g2, g3, g4⟩
    · rw [h1]; exact Or.inl rfl
    · rw [h1, Res.bind_ok]
      obtain ⟨⟨N, hN⟩, -⟩ := C42_ready E ps hps hv hr c g1 g2 g3 g4
      by_cases hb : (blocking E c).length = 0
      · rw [if_pos hb]; exact Or.inr ⟨_, rfl⟩
      · rw [if_neg hb, hN]; exact Or.inr ⟨_, rfl⟩
  rcases hprep with hp | ⟨x, hp⟩
  · rw [hp] at h
    rw [h]
    intro h; cases h
  · rw [hp] at h
    rcases x with p | ⟨N, c⟩
    · rw [h]; intro h; cases h
    · intro ho
      subst ho
      obtain ⟨-, -, -, -, -, -, h5⟩ := prepare_inr hp
      obtain ⟨vs, hvs⟩ := net_ok hg hord h5
      have := (AStar.outcome_error (problem_monotone hA E.ord N c.src c.dst) (hvs.within A) h).1
      cases this

/-- **C57** With geographic polygons, the real visibility scan and corrections that stay in range,
single calls for degrees in range have no undefined behaviour and batches raise nothing. -/
theorem C57_geographic (A : Arith D) (hA : A.Sound) (E : Env) (hg : UserGraph E.graph)
    (hord : ∀ l, (E.ord l).Perm l) (ps : List (List Coord)) (hps : ∀ v ∈ ps.flatten, v.Geo)
    (hv : E.graph.verts = ps.flatten) (hr : IsReach ps E.reach) (allow : Bool)
    (hland : allow = true → LandOk E) :
    (∀ s d : ℚ × ℚ, |s.1| ≤ 180 → |s.2| ≤ 90 → |d.1| ≤ 180 → |d.2| ≤ 90 → ∀ r,
      Interpolate A E s d allow r → r ≠ .error .ub) ∧
    (∀ qs : List ((ℚ × ℚ) × (ℚ × ℚ)),
      (∀ q ∈ qs, |q.1.1| ≤ 180 ∧ |q.1.2| ≤ 90 ∧ |q.2.1| ≤ 180 ∧ |q.2.2| ≤ 90) → ∀ r,
      BatchInterpolate A E qs allow r → ∃ rs, r = .ok rs) := by
  constructor
  · intro s d h1 h2 h3 h4 r h
    obtain ⟨a, ha, ga⟩ := ofDegrees_geo h1 h2
    obtain ⟨b, hb, gb⟩ := ofDegrees_geo h3 h4
    unfold Interpolate at h
    rw [ha, Res.bind_ok, hb, Res.bind_ok] at h
    obtain ⟨q, hq, rfl⟩ := h
    have := query_no_ub A hA E hg hord ps hps hv hr allow hland a b ga gb q hq
    cases q with
    | ok p => intro h; cases h
    | error f =>
      intro h
      exact this (by injection h with h; rw [h])
  · intro qs hq r h
    exact C57_never_raises A E qs allow hq
      (query_no_ub A hA E hg hord ps hps hv hr allow hland) r h

/-- The island of C42 and a query past it. -/
example : IsReach [exSquare] exIsland.reach ∧ exIsland.graph.verts = [exSquare].flatten ∧
    (∀ v ∈ [exSquare].flatten, v.Geo) ∧ LandOk exIsland ∧ |(-0.000005 : ℚ)| ≤ 180 :=
  ⟨fun _ => ⟨_, _, _, List.Perm.refl _, List.Perm.refl _, exLook_ok, rfl⟩, rfl, by decide,
    (fun _ _ h => by cases h), by rw [abs_le]; norm_num⟩

/-- A batch with a rejected and an answered pair: the first starts on land. -/
theorem exRejected_batch : BatchInterpolate (exactArith 1 none) { exLand with crossings := fun _ => [] }
    [((0, 0), (4, 0)), ((4, 0), (8, 0))] false
    (.ok [none, some (toDegrees [exT, exB])]) := by
  have f : ∀ n : ℤ, |n| ≤ 100 → Coord.microOfDegC n = .ok (n * 1000000) := by
    intro n hn
    have := abs_le.1 hn
    unfold Coord.microOfDegC
    have e : fl (1000000 * (n : ℚ)) = ((n * 1000000 : ℤ) : ℚ) := by
      rw [show 1000000 * (n : ℚ) = ((n * 1000000 : ℤ) : ℚ) by push_cast; ring]
      exact fl_int _ (by rw [abs_le]; constructor <;> omega)
    have t : ∀ z : ℤ, truncZ (z : ℚ) = z := by
      intro z
      unfold truncZ
      split_ifs <;> simp
    rw [e, t]
    exact chk32_ok (by unfold FitsI32; omega)
  have f0 := f 0 (by decide)
  have f4 := f 4 (by decide)
  have f8 := f 8 (by decide)
  push_cast at f0 f4 f8
  have c : ([((0, 0), (4, 0)), ((4, 0), (8, 0))] : List ((ℚ × ℚ) × (ℚ × ℚ))).mapM
      (fun q => (do
        let a ← Coord.ofDegreesC q.1.1 q.1.2
        let b ← Coord.ofDegreesC q.2.1 q.2.2
        return (a, b) : Res (Coord × Coord))) = .ok [(exS, exT), (exT, exB)] := by
    simp only [List.mapM_cons, List.mapM_nil, Coord.ofDegreesC, f0, f4, f8, Res.bind_ok, Res.pure_eq]
    rfl
  unfold BatchInterpolate
  rw [c]
  have n1 : normalizeC exS = .ok exS := C01_normalize_id exS (by decide) (by decide)
  have n2 : normalizeC exT = .ok exT := C01_normalize_id exT (by decide) (by decide)
  have n3 : normalizeC exB = .ok exB := C01_normalize_id exB (by decide) (by decide)
  refine ⟨.ok [⟨none, some ()⟩, ⟨some [exT, exB], none⟩], ⟨[1, 0],
    fun i => if i = 0 then .error .exn else .ok [exT, exB], by decide, ?_, rfl⟩, rfl⟩
  intro i q hi
  match i, hi with
  | 0, hi =>
    cases hi
    unfold Query prepare
    rw [n1, n2]
    rfl
  | 1, hi =>
    cases hi
    unfold Query prepare
    rw [n2, n3]
    rfl
  | _ + 2, hi => simp at hi

/-! ### C58 -/

theorem micro_back {x : ℚ} {k : ℤ} (hx : |x| ≤ 180) (h : Coord.microOfDegC x = .ok k) :
    |Coord.degOfMicro k - x| ≤ 1001 / 1000000000 := by
  have hk : k = truncZ (fl (1000000 * x)) ∧ FitsI32 k := by
    unfold Coord.microOfDegC chk32 at h
    split_ifs at h with hf
    cases h
    exact ⟨rfl, hf⟩
  obtain ⟨hk, hfit⟩ := hk
  have e1 : |fl (1000000 * x) - 1000000 * x| ≤ 1 / 10000000 := by
    refine (fl_err _).trans ?_
    rw [abs_mul, abs_of_pos (by norm_num)]
    calc 1000000 * |x| / 2 ^ 53 ≤ 1000000 * 180 / 2 ^ 53 := by gcongr
      _ ≤ _ := by norm_num
  have e2 : |(k : ℚ) - fl (1000000 * x)| ≤ 1 := by
    rw [hk]
    unfold truncZ
    split_ifs
    · have h1 := Int.floor_le (fl (1000000 * x))
      have h2 := Int.lt_floor_add_one (fl (1000000 * x))
      rw [abs_le]; constructor <;> linarith
    · have h1 := Int.le_ceil (fl (1000000 * x))
      have h2 := Int.ceil_lt_add_one (fl (1000000 * x))
      rw [abs_le]; constructor <;> linarith
  have e3 := micro_deg_close hfit
  have e4 : |1000000 * Coord.degOfMicro k - k| ≤ 2 / 100000 := by
    have r := fl_err (1000000 * Coord.degOfMicro k)
    generalize 1000000 * Coord.degOfMicro k = y at r e3 ⊢
    have hkq : |(k : ℚ)| ≤ 2147483648 := by
      have : |k| ≤ 2147483648 := by unfold FitsI32 at hfit; rw [abs_le]; omega
      exact_mod_cast this
    have b1 := abs_le.1 e3
    have b2 := abs_le.1 r
    have b3 := abs_le.1 hkq
    have b4 : |y| ≤ 4294967300 := by
      have : |y| / 2 ^ 53 ≤ |y| / 2 := by gcongr; norm_num
      rcases abs_cases y with ⟨h1, h2⟩ | ⟨h1, h2⟩ <;> linarith
    have b5 : |y| / 2 ^ 53 ≤ 1 / 1000000 := by
      calc |y| / 2 ^ 53 ≤ 4294967300 / 2 ^ 53 := by gcongr
        _ ≤ _ := by norm_num
    rw [abs_le]
    constructor <;> linarith
  have a1 := abs_le.1 e1
  have a2 := abs_le.1 e2
  have a4 := abs_le.1 e4
  rw [abs_le]
  constructor <;> linarith

/-- Two positions less than 1.001 millionths of a degree apart in each direction. -/
def CloseTo (a b : ℚ × ℚ) : Prop :=
  |a.1 - b.1| ≤ 1001 / 1000000000 ∧ |a.2 - b.2| ≤ 1001 / 1000000000

/-- **C58** The path for endpoints at sea starts and ends where the user asked, up to the resolution
of the coordinates. -/
theorem C58_endpoints (A : Arith D) (hA : A.Sound) (E : Env) (hg : UserGraph E.graph)
    (hord : ∀ l, (E.ord l).Perm l) (s d : ℚ × ℚ) (hs1 : |s.1| ≤ 180) (hs2 : |s.2| ≤ 90)
    (hd1 : |d.1| ≤ 180) (hd2 : |d.2| ≤ 90)
    (hsea : ∀ c : Coord, Coord.ofDegreesC s.1 s.2 = .ok c ∨ Coord.ofDegreesC d.1 d.2 = .ok c →
      E.onLand c = false) (allow : Bool) (path : List (ℚ × ℚ))
    (h : Interpolate A E s d allow (.ok path)) :
    ∃ p q, path.head? = some p ∧ path.getLast? = some q ∧ CloseTo p s ∧ CloseTo q d := by
  have close : ∀ (p : ℚ × ℚ) (c : Coord), |p.1| ≤ 180 → |p.2| ≤ 90 →
      Coord.ofDegreesC p.1 p.2 = .ok c → CloseTo (c.lonDeg, c.latDeg) p := by
    intro p c h1 h2 hc
    unfold Coord.ofDegreesC at hc
    obtain ⟨x, hx, hc⟩ := bind_eq_ok hc
    obtain ⟨y, hy, hc⟩ := bind_eq_ok hc
    cases hc
    exact ⟨micro_back h1 hx, micro_back (by linarith) hy⟩
  obtain ⟨a, ha, ga⟩ := ofDegrees_geo hs1 hs2
  obtain ⟨b, hb, gb⟩ := ofDegrees_geo hd1 hd2
  unfold Interpolate at h
  rw [ha, Res.bind_ok, hb, Res.bind_ok] at h
  obtain ⟨q, hq, h⟩ := h
  cases q with
  | error f => cases h
  | ok cs =>
    have h : path = toDegrees cs := Except.ok.inj h
    have norm : ∀ c : Coord, c.Geo → normalizeC c = .ok c := fun c hc =>
      C01_normalize_id c (by unfold Coord.Geo at hc; omega) (by unfold Coord.Geo at hc; omega)
    obtain ⟨h1, h2⟩ := C48_unmoved A hA E hg hord a b a b (norm a ga) (norm b gb)
      (hsea a (Or.inl ha)) (hsea b (Or.inr hb)) allow cs hq
    refine ⟨(a.lonDeg, a.latDeg), (b.lonDeg, b.latDeg), ?_, ?_, close s a hs1 hs2 ha,
      close d b hd1 hd2 hb⟩
    · rw [h]; unfold toDegrees; rw [List.head?_map, h1]; rfl
    · rw [h]; unfold toDegrees; rw [List.getLast?_map, h2]; rfl

end Capi
