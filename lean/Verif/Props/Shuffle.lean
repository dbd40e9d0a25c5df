import Verif.Lemmas.Shuffle
import Verif.Props.Frontend

/-! # C93: the shuffle behind the parts of a graph -/

namespace Capi

open Shuffle Frontend

/-- **C93** The outputs of the generator are 32 bits wide, for every seed. -/
theorem C93_outputs (seed i : ℕ) : mt19937 seed i < 2 ^ 32 := mt19937_lt seed i

/-- The first output for seed 42. -/
example : mt19937 42 0 = 1608637542 := by decide +kernel

/-- **C93** When the shuffle ends, it has touched no position outside the list and the result is a
rearrangement of it. -/
theorem C93_permutation {α : Type} (lib : Lib) (g : ℕ → ℕ) (hg : ∀ i, g i < 2 ^ 32) (fuel : ℕ)
    (l : List α) (r : Res (List α)) (h : shuffleFor lib g fuel l = some r) :
    ∃ l', r = .ok l' ∧ l'.Perm l := shuffleFor_perm hg h

/-- Nine elements, seed 42: the order libstdc++ makes. -/
example : shuffleFor .from11 (mt19937 42) 5 (List.range 9) =
    some (.ok [4, 7, 2, 3, 8, 5, 1, 0, 6]) := by decide +kernel

/-- **C93** The shuffle ends if in every stretch of outputs there is one that can be used. -/
theorem C93_ends {α : Type} (lib : Lib) (g : ℕ → ℕ) (hg : ∀ i, g i < 2 ^ 32) (fuel : ℕ)
    (hl : Lively lib g fuel) (l : List α) (hn : l.length < 2 ^ 32) :
    ∃ l', shuffleFor lib g fuel l = some (.ok l') ∧ l'.Perm l := by
  obtain ⟨r, hr⟩ := shuffleFor_ends hg hl hn
  obtain ⟨l', rfl, hp⟩ := shuffleFor_perm hg hr
  exact ⟨l', hr, hp⟩

/-- Some constant sources never need a second output. -/
example : Lively .upTo10 (fun _ => 2 ^ 31 - 1) 1 ∧ Lively .from11 (fun _ => 2 ^ 32 - 1) 1 := by
  constructor
  · intro e he he' i
    refine ⟨0, by omega, ?_⟩
    unfold scale
    dsimp only
    rw [if_pos]
    · rfl
    · have h1 := Nat.div_add_mod (2 ^ 32 - 1) e
      have h2 := Nat.mod_lt (2 ^ 32 - 1) he
      have h3 : 0 < (2 ^ 32 - 1) / e := Nat.div_pos (by omega) he
      have h4 : e * 1 ≤ e * ((2 ^ 32 - 1) / e) := Nat.mul_le_mul_left e h3
      omega
  · intro e he he' i
    refine ⟨0, by omega, ?_⟩
    unfold scale
    dsimp only
    rw [if_neg]
    · rfl
    · rintro ⟨-, h⟩
      have h1 : (2 ^ 32 - 1) * e = (e - 1) * 2 ^ 32 + (2 ^ 32 - e) := by
        obtain ⟨d, rfl⟩ : ∃ d, e = d + 1 := ⟨e - 1, by omega⟩
        simp only [Nat.add_sub_cancel]
        omega
      have h2 : (2 ^ 32 - 1) * e % 2 ^ 32 = 2 ^ 32 - e := by rw [h1]; omega
      rw [h2] at h
      exact absurd (Nat.mod_le (2 ^ 32 - e) e) (by omega)

/-- **C93** Every number of the range is made of equally many outputs, and at most half of the outputs
are unusable. -/
theorem C93_uniform (lib : Lib) (e : ℕ) (he : 0 < e) (he' : e < 2 ^ 32) :
    (∃ c, 0 < c ∧ ∀ v < e,
      ((Finset.range (2 ^ 32)).filter fun r => scale lib e r = some v).card = c) ∧
    (∀ r < 2 ^ 32, ∀ v, scale lib e r = some v → v < e) ∧
    2 * ((Finset.range (2 ^ 32)).filter fun r => scale lib e r = none).card ≤ 2 ^ 32 := by
  have hlt : ∀ r < 2 ^ 32, ∀ v, scale lib e r = some v → v < e := fun r hr v => scale_lt he hr
  have h3 : ∃ c, 2 ^ 31 ≤ e * c ∧ 0 < c ∧ ∀ v < e,
      ((Finset.range (2 ^ 32)).filter fun r => scale lib e r = some v).card = c := by
    cases lib with
    | upTo10 =>
      have h1 := Nat.div_add_mod (2 ^ 32 - 1) e
      have h2 := Nat.mod_lt (2 ^ 32 - 1) he
      have h3 : 0 < (2 ^ 32 - 1) / e := Nat.div_pos (by omega) he
      have h4 : e * 1 ≤ e * ((2 ^ 32 - 1) / e) := Nat.mul_le_mul_left e h3
      exact ⟨_, by omega, h3, fun v hv => scale_count .upTo10 he he' hv⟩
    | from11 =>
      have h1 := Nat.div_add_mod (2 ^ 32) e
      have h2 := Nat.mod_lt (2 ^ 32) he
      have h3 : 0 < 2 ^ 32 / e := Nat.div_pos (by omega) he
      have h4 : e * 1 ≤ e * (2 ^ 32 / e) := Nat.mul_le_mul_left e h3
      exact ⟨_, by omega, h3, fun v hv => scale_count .from11 he he' hv⟩
  obtain ⟨c, hc, hc0, hcv⟩ := h3
  refine ⟨⟨c, hc0, hcv⟩, hlt, ?_⟩
  have hsome : ((Finset.range (2 ^ 32)).filter fun r => ¬ scale lib e r = none).card = e * c := by
    have : ((Finset.range (2 ^ 32)).filter fun r => ¬ scale lib e r = none) =
        (Finset.range e).biUnion fun v =>
          (Finset.range (2 ^ 32)).filter fun r => scale lib e r = some v := by
      ext r
      simp only [Finset.mem_filter, Finset.mem_range, Finset.mem_biUnion]
      constructor
      · rintro ⟨h1, h2⟩
        obtain ⟨v, hv⟩ := Option.ne_none_iff_exists'.1 h2
        exact ⟨v, hlt r h1 v hv, h1, hv⟩
      · rintro ⟨v, -, h1, h2⟩
        exact ⟨h1, by rw [h2]; simp⟩
    rw [this, Finset.card_biUnion, Finset.sum_congr rfl fun v hv => hcv v (Finset.mem_range.1 hv)]
    · simp
    · intro v _ w _ hvw
      rw [Function.onFun, Finset.disjoint_left]
      intro r h1 h2
      rw [Finset.mem_filter] at h1 h2
      exact hvw (Option.some.inj (h1.2.symm.trans h2.2))
  have := Finset.card_filter_add_card_filter_not (s := Finset.range (2 ^ 32))
    (fun r => scale lib e r = none)
  rw [hsome, Finset.card_range] at this
  omega

/-- Both scalings of one output to a number below 12. -/
example : scale .upTo10 12 1608637542 = some 4 ∧ scale .from11 12 1608637542 = some 4 ∧
    scale .upTo10 12 4294967293 = none ∧ scale .from11 12 4294967293 = some 11 := by decide +kernel

/-- **C93** The result is the list after exchanging each position with one not behind it, and every
order arises from exactly one such sequence of choices: with `C93_uniform`, no order is preferred. -/
theorem C93_orders {α : Type} (lib : Lib) (g : ℕ → ℕ) (hg : ∀ i, g i < 2 ^ 32) (fuel : ℕ)
    (l : List α) :
    (∀ l', shuffleFor lib g fuel l = some (.ok l') →
      ∃ ks, Choices l.length ks ∧ ∀ i, l'[i]? = l[exchanges 1 ks i]?) ∧
    ∀ σ : Equiv.Perm ℕ, (∀ i, l.length ≤ i → σ i = i) →
      ∃! ks, Choices l.length ks ∧ exchanges 1 ks = σ :=
  ⟨fun _ h => shuffleFor_order hg h, fun σ hσ => exchanges_unique l.length σ hσ⟩

/-- Three elements: exchange position 1 with 0, then position 2 with 1. -/
example : Choices 3 [0, 1] ∧ (List.range 3).map (exchanges 1 [0, 1]) = [1, 2, 0] := by
  refine ⟨⟨rfl, ?_⟩, by decide +kernel⟩
  intro i h
  match i, h with
  | 0, _ => exact Nat.zero_le _
  | 1, _ => exact Nat.le_add_right 1 1

/-- **C93** Every order does arise: some outputs of the generator lead to it, whatever the number of
elements.  One output for each choice, or for each two, is enough. -/
theorem C93_every {α : Type} (lib : Lib) (l : List α) (hn : l.length < 2 ^ 32)
    (σ : Equiv.Perm ℕ) (hσ : ∀ i, l.length ≤ i → σ i = i) :
    ∃ g : ℕ → ℕ, (∀ i, g i < 2 ^ 32) ∧ ∀ fuel, 1 ≤ fuel →
      ∃ l', shuffleFor lib g fuel l = some (.ok l') ∧ ∀ i, l'[i]? = l[σ i]? := by
  obtain ⟨ks, ⟨hk, rfl⟩, -⟩ := exchanges_unique l.length σ hσ
  exact shuffleFor_reach lib l hn ks hk

/-- Four elements turned round, by two outputs; the first and the last exchanged, by two others. -/
example :
    shuffleFor .from11 (fun i => if i = 0 then 2147483648 else 1431655766) 1 [1, 2, 3, 4] =
      some (.ok [4, 3, 2, 1]) ∧
    shuffleFor .from11 (fun i => if i = 0 then 2147483648 else 2863311531) 1 [1, 2, 3, 4] =
      some (.ok [4, 2, 3, 1]) := by decide +kernel

/-! ### The parts of a graph -/

/-- The order of the vertices in a process whose shuffle ends. -/
def shuffled (lib : Lib) (fuel seed : ℕ) (l : List Coord) : List Coord :=
  match shuffleFor lib (mt19937 seed) fuel l with
  | some (.ok l') => l'
  | _ => l

theorem shuffled_perm (lib : Lib) (fuel seed : ℕ) (l : List Coord) :
    (shuffled lib fuel seed l).Perm l := by
  unfold shuffled
  split
  · rename_i l' h
    obtain ⟨l2, h1, h2⟩ := shuffleFor_perm (mt19937_lt seed) h
    exact (Except.ok.inj h1) ▸ h2
  · exact List.Perm.refl l

/-- **C93** A process with a seed makes the part that C53 to C92 speak of, for a shuffle that is a
rearrangement depending on the library, the seed and the vertices only. -/
theorem C93_split (lib : Lib) (fuel : ℕ) (ps : List (List Coord))
    (scanner : Coord → Res (List (Coord × Bool))) (order : List Coord → List Coord) (k i seed : ℤ)
    (h0 : 0 ≤ seed) (h1 : seed < 2 ^ 32)
    (hend : ∃ r, shuffleFor lib (mt19937 seed.toNat) fuel ps.flatten = some r) :
    (∀ l, (shuffled lib fuel seed.toNat l).Perm l) ∧
    generateSplitSeeded lib fuel ps scanner order k i seed =
      some (generateSplit ps scanner order (shuffled lib fuel seed.toNat) k i) := by
  refine ⟨shuffled_perm lib fuel seed.toNat, ?_⟩
  obtain ⟨r, hr⟩ := hend
  obtain ⟨l', rfl, -⟩ := shuffleFor_perm (mt19937_lt _) hr
  have hs : shuffled lib fuel seed.toNat ps.flatten = l' := by
    unfold shuffled
    rw [hr]
  have hgen : ∀ lo hi, Visgraph.generateSeeded lib fuel ps scanner order lo hi seed.toNat =
      some (Visgraph.generateRange ps scanner order (shuffled lib fuel seed.toNat) lo hi) := by
    intro lo hi
    unfold Visgraph.generateSeeded Visgraph.generateRange
    simp only [Visgraph.polygonVertices_eq]
    rw [hr, hs]
    split_ifs <;> rfl
  unfold generateSplitSeeded generateSplit
  cases numVertices ps with
  | error f => rfl
  | ok n =>
    simp only [Res.bind_ok]
    cases splitRange n k i with
    | error f => rfl
    | ok r =>
      simp only [Res.bind_ok]
      cases toSize r.1 with
      | error f => rfl
      | ok lo =>
        simp only [Res.bind_ok]
        cases toSize r.2 with
        | error f => rfl
        | ok hi =>
          simp only [Res.bind_ok]
          unfold toSeed
          rw [if_pos ⟨h0, h1⟩]
          exact hgen lo hi

/-- A triangle: the shuffle ends for every seed tried, and makes different orders. -/
example : (0 : ℤ) ≤ 42 ∧ (42 : ℤ) < 2 ^ 32 ∧
    shuffleFor .upTo10 (mt19937 42) 5 [exTriangle].flatten =
      some (.ok [⟨1000, 0⟩, ⟨0, 0⟩, ⟨0, 1000⟩]) ∧
    shuffleFor .upTo10 (mt19937 7) 5 [exTriangle].flatten =
      some (.ok [⟨0, 1000⟩, ⟨0, 0⟩, ⟨1000, 0⟩]) := by decide +kernel

/-- **C93** Parts made with one seed and one version of the library, by any number of processes, merge to
the graph generated in one go. -/
theorem C93_shards (T : ℕ → Polygon.SumTree) (ps : List (List Coord)) (hp : ps ≠ [])
    (hg : ∀ v ∈ ps.flatten, v.Geo) (hsize : ps.flatten.length < 2 ^ 64)
    (scanner : Coord → Res (List (Coord × Bool))) (hs : Visgraph.IsScanner T ps scanner)
    (order : List Coord → List Coord) (ho : ∀ l, (order l).Perm l) (k : ℕ) (hk : 1 ≤ k)
    (lib : Lib) (fuel : ℕ) (seed : ℤ) (h0 : 0 ≤ seed) (h1 : seed < 2 ^ 32)
    (hend : ∃ r, shuffleFor lib (mt19937 seed.toNat) fuel ps.flatten = some r) :
    ∃ gs g, (List.range k).map (fun (i : ℕ) => generateSplitSeeded lib fuel ps scanner order k i seed)
        = gs.map (fun g => some (.ok g)) ∧
      Visgraph.generate ps scanner order = .ok g ∧
      ∀ (ps' : List (List Coord)) (schedule : List Graph.Op → List Graph.Op),
        Graph.MergeOrder gs ps' → (∀ l, (schedule l).Perm l) →
        ∃ G, Graph.merge ps' schedule gs = .ok G ∧ SameAnswers G g := by
  have hsplit := fun i : ℤ =>
    (C93_split lib fuel ps scanner order k i seed h0 h1 hend).2
  obtain ⟨gs, g, e1, e2, e3⟩ := C53_shards T ps hp hg hsize scanner hs order
    (shuffled lib fuel seed.toNat) ho (shuffled_perm lib fuel seed.toNat) k hk
  refine ⟨gs, g, ?_, e2, e3⟩
  have key : ∀ (l : List ℕ) gs, l.mapM (fun (i : ℕ) =>
      generateSplit ps scanner order (shuffled lib fuel seed.toNat) k i) = .ok gs →
      l.map (fun (i : ℕ) => generateSplitSeeded lib fuel ps scanner order k i seed) =
        gs.map (fun g => some (.ok g)) := by
    intro l
    induction l with
    | nil =>
      intro gs h
      obtain rfl := Except.ok.inj h
      rfl
    | cons a t ih =>
      intro gs h
      rw [List.mapM_cons] at h
      cases h2 : generateSplit ps scanner order (shuffled lib fuel seed.toNat) k a with
      | error f => rw [h2] at h; exact absurd h (by simp [bind, Except.bind])
      | ok g =>
        rw [h2, Res.bind_ok] at h
        cases h3 : t.mapM (fun (i : ℕ) =>
            generateSplit ps scanner order (shuffled lib fuel seed.toNat) k i) with
        | error f => rw [h3] at h; exact absurd h (by simp [bind, Except.bind])
        | ok r =>
          rw [h3, Res.bind_ok] at h
          obtain rfl := Except.ok.inj h
          rw [List.map_cons, List.map_cons, ih r h3, hsplit, h2]
  exact key _ gs e1

example : [exTriangle] ≠ [] ∧ (∀ v ∈ [exTriangle].flatten, v.Geo) ∧
    Visgraph.IsScanner Polygon.SumTree.sequential [exTriangle]
      (exScanner Polygon.SumTree.sequential [exTriangle]) ∧
    ∃ r, shuffleFor .from11 (mt19937 (42 : ℤ).toNat) 5 [exTriangle].flatten = some r :=
  ⟨by decide, by decide, exScanner_ok _ _,
    .ok [⟨1000, 0⟩, ⟨0, 0⟩, ⟨0, 1000⟩], by decide +kernel⟩

/-- **C93** A negative seed, or one of more than 32 bits, raises an error. -/
theorem C93_seed_range (lib : Lib) (fuel : ℕ) (ps : List (List Coord))
    (scanner : Coord → Res (List (Coord × Bool))) (order : List Coord → List Coord) (k i seed : ℤ)
    (h : seed < 0 ∨ 2 ^ 32 ≤ seed) :
    generateSplitSeeded lib fuel ps scanner order k i seed = some (.error .exn) := by
  have hseed : toSeed seed = .error .exn := by
    unfold toSeed
    rw [if_neg (by omega)]
  have hsz : ∀ x, (∃ n, toSize x = .ok n) ∨ toSize x = .error .exn := by
    intro x
    unfold toSize
    split_ifs
    · exact Or.inl ⟨_, rfl⟩
    · exact Or.inr rfl
  have hnum : (∃ n, numVertices ps = .ok n) ∨ numVertices ps = .error .exn := by
    cases ps with
    | nil => exact Or.inr rfl
    | cons p r => exact Or.inl ⟨_, rfl⟩
  have hrange : ∀ n, (∃ r, splitRange n k i = .ok r) ∨ splitRange n k i = .error .exn := by
    intro n
    unfold splitRange
    by_cases hk : k = 0
    · rw [if_pos hk]
      exact Or.inr rfl
    · rw [if_neg hk]
      exact Or.inl ⟨_, rfl⟩
  unfold generateSplitSeeded
  rcases hnum with ⟨n, hn⟩ | hn
  · rw [hn, Res.bind_ok]
    rcases hrange n with ⟨r, hr⟩ | hr
    · rw [hr, Res.bind_ok]
      rcases hsz r.1 with ⟨lo, hlo⟩ | hlo
      · rw [hlo, Res.bind_ok]
        rcases hsz r.2 with ⟨hi, hhi⟩ | hhi
        · rw [hhi, Res.bind_ok, hseed]
          rfl
        · rw [hhi]; rfl
      · rw [hlo]; rfl
    · rw [hr]; rfl
  · rw [hn]; rfl

example : (-1 : ℤ) < 0 ∨ 2 ^ 32 ≤ (-1 : ℤ) := by decide

/-- An island with a southern tip, its second vertex. -/
def exKite : List Coord := [⟨-1000, 0⟩, ⟨0, -1000⟩, ⟨1000, 0⟩, ⟨0, 1000⟩]

theorem exKite_stable : ∀ p ∈ [exKite], Stable Polygon.SumTree.sequential p := by
  intro p hp k hk
  rw [List.mem_singleton] at hp
  subst hp
  rcases hk with rfl | rfl | rfl <;> decide +kernel

/-- Whether the merged graph of two parts lacks an edge of the graph made in one go. -/
def lacks (lib0 lib1 : Lib) (seed0 seed1 : ℤ) (a b : Coord) : Bool :=
  let sc := exScanner Polygon.SumTree.sequential [exKite]
  match generateSplitSeeded lib0 5 [exKite] sc id 2 0 seed0,
    generateSplitSeeded lib1 5 [exKite] sc id 2 1 seed1, Visgraph.generate [exKite] sc id with
  | some (.ok g0), some (.ok g1), .ok g =>
    match Graph.merge [exKite] id [g0, g1] with
    | .ok G => decide (g0.polygons = [exKite] ∧ g1.polygons = [exKite] ∧
        g.hasEdge a b = .ok true ∧ G.hasEdge a b = .ok false)
    | .error _ => false
  | _, _, _ => false

theorem lacks_spec {lib0 lib1 : Lib} {seed0 seed1 : ℤ} {a b : Coord}
    (h : lacks lib0 lib1 seed0 seed1 a b = true) :
    ∃ (T : ℕ → Polygon.SumTree) (ps : List (List Coord)) (scanner : Coord → Res (List (Coord × Bool)))
      (g0 g1 g G : Graph),
      (∀ p ∈ ps, Stable T p) ∧ (∀ v ∈ ps.flatten, v.Geo) ∧ Visgraph.IsScanner T ps scanner ∧
      generateSplitSeeded lib0 5 ps scanner id 2 0 seed0 = some (.ok g0) ∧
      generateSplitSeeded lib1 5 ps scanner id 2 1 seed1 = some (.ok g1) ∧
      Visgraph.generate ps scanner id = .ok g ∧
      Graph.MergeOrder [g0, g1] ps ∧ Graph.merge ps id [g0, g1] = .ok G ∧
      g.hasEdge a b = .ok true ∧ G.hasEdge a b = .ok false := by
  unfold lacks at h
  dsimp only at h
  split at h
  · rename_i g0 g1 g e0 e1 e
    split at h
    · rename_i G eG
      obtain ⟨p0, p1, h1, h2⟩ := of_decide_eq_true h
      refine ⟨Polygon.SumTree.sequential, [exKite], _, g0, g1, g, G, exKite_stable, by decide,
        exScanner_ok _ _, e0, e1, e, ⟨by decide, fun p => ?_⟩, eG, h1, h2⟩
      simp [p0, p1]
    · exact absurd h (by simp)
  · exact absurd h (by simp)

/-- **C93** False: parts made with one seed merge to the whole graph whatever machines they are made on.
If one is made with a program built against libstdc++ 10 and the other with libstdc++ 11, a vertex may
be in neither of the parts, and the merged graph lacks its edges. -/
theorem C93_libraries_false :
    ∃ (seed : ℤ) (a b : Coord) (T : ℕ → Polygon.SumTree) (ps : List (List Coord))
      (scanner : Coord → Res (List (Coord × Bool))) (g0 g1 g G : Graph),
      (∀ p ∈ ps, Stable T p) ∧ (∀ v ∈ ps.flatten, v.Geo) ∧ Visgraph.IsScanner T ps scanner ∧
      generateSplitSeeded .upTo10 5 ps scanner id 2 0 seed = some (.ok g0) ∧
      generateSplitSeeded .from11 5 ps scanner id 2 1 seed = some (.ok g1) ∧
      Visgraph.generate ps scanner id = .ok g ∧
      Graph.MergeOrder [g0, g1] ps ∧ Graph.merge ps id [g0, g1] = .ok G ∧
      g.hasEdge a b = .ok true ∧ G.hasEdge a b = .ok false :=
  ⟨20675268, ⟨0, -1000⟩, ⟨1000, 0⟩, lacks_spec (by decide +kernel)⟩

/-- **C93** False as well if the parts are made with different seeds, on one machine. -/
theorem C93_seeds_false (lib : Lib) :
    ∃ (seed0 seed1 : ℤ) (a b : Coord) (T : ℕ → Polygon.SumTree) (ps : List (List Coord))
      (scanner : Coord → Res (List (Coord × Bool))) (g0 g1 g G : Graph),
      (∀ p ∈ ps, Stable T p) ∧ (∀ v ∈ ps.flatten, v.Geo) ∧ Visgraph.IsScanner T ps scanner ∧
      generateSplitSeeded lib 5 ps scanner id 2 0 seed0 = some (.ok g0) ∧
      generateSplitSeeded lib 5 ps scanner id 2 1 seed1 = some (.ok g1) ∧
      Visgraph.generate ps scanner id = .ok g ∧
      Graph.MergeOrder [g0, g1] ps ∧ Graph.merge ps id [g0, g1] = .ok G ∧
      g.hasEdge a b = .ok true ∧ G.hasEdge a b = .ok false :=
  ⟨7, 42, ⟨0, -1000⟩, ⟨1000, 0⟩, lacks_spec (by cases lib <;> decide +kernel)⟩

/-- With one seed and one library nothing is lacking. -/
example : lacks .upTo10 .upTo10 20675268 20675268 ⟨0, -1000⟩ ⟨1000, 0⟩ = false ∧
    lacks .from11 .from11 20675268 20675268 ⟨0, -1000⟩ ⟨1000, 0⟩ = false := by decide +kernel

end Capi
