import Verif.Props.Charted
import Verif.Spec.Around

/-!
# C92: courses round the globe

The path against courses over the sea that cross the meridian.
-/

namespace Capi

open ShortestPath Vistree Visgraph

section

variable {T : ℕ → Polygon.SumTree} {ps : List (List Coord)}
  {scanner : Coord → Res (List (Coord × Bool))} {order : List Coord → List Coord} {E : Env}
  {s d : Coord}

theorem planeDist_moved (a b : Coord) (i j k : ℤ) :
    planeDist (a.shift i) (b.shift j) k = planeDist a b (i + k - j) := by
  unfold planeDist Coord.shift
  congr 5
  push_cast
  ring

/-- Lines shorter than a turn round the globe lead to a neighbouring copy. -/
theorem near_copy {a b : Coord} (ha : a.Geo) (hb : b.Geo) {m : ℤ}
    (h : planeDist a b m < 360000001 / 1000000) : IsCopy m ∧ (a = b → m = 0) := by
  have h1 : |((a.lon + m * 360000001 - b.lon : ℤ) : ℝ)| < 360000001 := by
    by_contra hc
    push Not at hc
    refine absurd h (not_lt.2 (div_le_div_of_nonneg_right ?_ (by norm_num)))
    refine hc.trans (Real.abs_le_sqrt ?_)
    nlinarith [sq_nonneg ((a.lat - b.lat : ℤ) : ℝ)]
  have h2 : |a.lon + m * 360000001 - b.lon| < 360000001 := by exact_mod_cast h1
  rw [abs_lt] at h2
  unfold Coord.Geo at ha hb
  refine ⟨by unfold IsCopy; omega, ?_⟩
  rintro rfl
  omega

theorem ashore_flip {a b : Coord} {k : ℤ} (h : AtSea (Ashore ps) a.pt (b.shift k).pt) :
    AtSea (Ashore ps) b.pt (a.shift (-k)).pt := by
  have := (ashore_shift (-k)).2 h
  rw [shift_shift, add_neg_cancel, shift_zero] at this
  exact atSea_symm this

/-- A vertex with a line over the sea to it is connected to the endpoint. -/
theorem linked_ashore (h : Charted T ps) (hv : Voyage T ps scanner order E s d) {u x : Coord}
    (hu : u.Geo) (hO : Position ps u) (hun : u ∉ ps.flatten) (hx : x ∈ ps.flatten)
    (hsea : AtSea (Ashore ps) u.pt x.pt) : Linked E u none x := by
  have hne : x ≠ u := fun e => hun (e ▸ hx)
  obtain ⟨hO, hoff⟩ := hO.resolve_left hun
  have hsee : Sees ps u x := (Legible.sees_iff (fun p hp => h.encloses hp) hO hoff h.corners hx
    (fun e => by cases e) hne).2 fun p hp z hz hl => hsea z hz (mem_ashore.2 ⟨p, hp, 0, by rwa [map_shift_zero]⟩)
  refine ⟨?_, hne, sight_reach hv.geo' hv.reach hu ((hv.mem_flatten x).2 hx) hne (hv.sees hsee),
    fun s hs => by cases hs⟩
  rw [← Bool.not_eq_true]
  exact fun hh => hun ((hv.hasVertex u).1 hh)

/-- A line over the sea between copies is a leg of the route, and not shorter than it. -/
theorem around_leg (h : Charted T ps) (hv : Voyage T ps scanner order E s d)
    (hs : Position ps s) (hd : Position ps d) (hblock : ¬ AtSea (Ashore ps) s.pt d.pt)
    (hone : DirectBest ps s d) {a b : Coord} (ha : a = s ∨ a = d ∨ a ∈ ps.flatten)
    (hb : b = s ∨ b = d ∨ b ∈ ps.flatten) (hab : a ≠ b) {k : ℤ} (hk : IsCopy k)
    (hsea : AtSea (Ashore ps) a.pt (b.shift k).pt) :
    RouteEdge E ⟨s, d, none, none⟩ a b ∧ legLength E a b ≤ planeDist b a k := by
  have flip0 : planeDist b a 0 = planeDist a b 0 := by rw [planeDist_symm]; rfl
  have end_leg : ∀ {e v : Coord}, (e = s ∨ e = d) → e ∉ ps.flatten →
      (v = s ∨ v = d ∨ v ∈ ps.flatten) → v ≠ e → ∀ {k : ℤ}, IsCopy k →
      AtSea (Ashore ps) e.pt (v.shift k).pt →
      (e = s ∧ Linked E s none v ∨ e = d ∧ Linked E d none v) ∧
        planeDist e v 0 ≤ planeDist v e k := by
    intro e v he hen hvs hne k hk hsea
    obtain ⟨g1, g2⟩ : AtSea (Ashore ps) e.pt v.pt ∧ planeDist e v 0 ≤ planeDist v e k := by
      rcases hk with rfl | hk
      · rw [shift_zero] at hsea
        refine ⟨hsea, ?_⟩
        rw [planeDist_symm]
        rfl
      · exact hone.ends e he hen v hvs hne k hk hsea
    refine ⟨?_, g2⟩
    have hvm : v ∈ ps.flatten := by
      rcases he with rfl | rfl <;> rcases hvs with rfl | rfl | hm
      · exact absurd rfl hne
      · exact absurd g1 hblock
      · exact hm
      · exact absurd (atSea_symm g1) hblock
      · exact absurd rfl hne
      · exact hm
    rcases he with rfl | rfl
    · exact Or.inl ⟨rfl, linked_ashore h hv hv.src hs hen hvm g1⟩
    · exact Or.inr ⟨rfl, linked_ashore h hv hv.dst hd hen hvm g1⟩
  have plain : ∀ u v, ¬ (u ∈ ps.flatten ∧ v ∈ ps.flatten) → legLength E u v = planeDist u v 0 := by
    intro u v hn
    unfold legLength
    rw [if_neg fun hc => hn (crossing_verts hv hc)]
  by_cases hav : a ∈ ps.flatten
  · by_cases hbv : b ∈ ps.flatten
    · obtain ⟨g, g1, -, g2⟩ := hv.graph
      obtain ⟨g', g3, g4⟩ := C90_graph h scanner hv.scan order hv.perm
      rw [g1] at g3
      cases g3
      obtain ⟨e1, e2⟩ := g4 a b
      have hedge : E.graph.hasEdge a b = .ok true := by
        rw [(g2 a b).1, e1]
        exact ⟨hab, hav, hbv, k, hk, hsea⟩
      refine ⟨Or.inl hedge, ?_⟩
      have hcr : CrossesMeridian E a b ↔ g.isCrossing a b = .ok true := by
        unfold CrossesMeridian
        rw [(g2 a b).2]
      unfold legLength
      rw [hcr, e2]
      split_ifs with hc
      · rw [planeDist_symm b a]
        rcases hk with rfl | rfl | rfl
        · rw [shift_zero] at hsea
          exact absurd hsea hc.2.2.2.1
        · exact min_le_right _ _
        · exact min_le_left _ _
      · rcases hk with rfl | hk
        · rw [flip0]
        · by_cases hp : AtSea (Ashore ps) a.pt b.pt
          · exact (hone.verts a hav b hbv hp k hk hsea).2
          · exact absurd ⟨hab, hav, hbv, hp, k, hk, hsea⟩ hc
    · have hbe : b = s ∨ b = d := by tauto
      have hk' : IsCopy (-k) := by unfold IsCopy at *; omega
      obtain ⟨g1, g2⟩ := end_leg hbe hbv ha hab hk' (ashore_flip hsea)
      refine ⟨?_, ?_⟩
      · rcases g1 with ⟨rfl, g1⟩ | ⟨rfl, g1⟩
        · exact Or.inr (Or.inr (Or.inl ⟨rfl, g1⟩))
        · exact Or.inr (Or.inr (Or.inr (Or.inr ⟨rfl, g1⟩)))
      · rw [plain a b fun hc => hbv hc.2, ← flip0, planeDist_symm b a k]
        exact g2
  · have hae : a = s ∨ a = d := by tauto
    obtain ⟨g1, g2⟩ := end_leg hae hav hb hab.symm hk hsea
    refine ⟨?_, ?_⟩
    · rcases g1 with ⟨rfl, g1⟩ | ⟨rfl, g1⟩
      · exact Or.inr (Or.inl ⟨rfl, g1⟩)
      · exact Or.inr (Or.inr (Or.inr (Or.inl ⟨rfl, g1⟩)))
    · rw [plain a b fun hc => hav hc.1]
      exact g2

theorem walkLength_nonneg (l : List Coord) : 0 ≤ walkLength (fun u v => planeDist u v 0) l := by
  induction l with
  | nil => exact le_refl _
  | cons a r ih =>
    cases r with
    | nil => exact le_refl _
    | cons b t => exact add_nonneg (planeDist_nonneg _ _ _) ih

/-- Every place has its place on the globe. -/
theorem around_chain (h : Charted T ps) (hv : Voyage T ps scanner order E s d)
    (hs : Position ps s) (hd : Position ps d) (hblock : ¬ AtSea (Ashore ps) s.pt d.pt)
    (hone : DirectBest ps s d) : ∀ (l : List Coord) (a b : Coord) (i j : ℤ),
    (a = s ∨ a = d ∨ a ∈ ps.flatten) → (b = s ∨ b = d ∨ b ∈ ps.flatten) →
    (∀ v ∈ l, ∃ w ∈ ps.flatten, ∃ k, v = w.shift k) →
    ((a.shift i :: (l ++ [b.shift j])).IsChain fun x y => x ≠ y ∧ AtSea (Ashore ps) x.pt y.pt) →
    walkLength (fun u v => planeDist u v 0) (a.shift i :: (l ++ [b.shift j])) <
      360000001 / 1000000 →
    ∃ route, IsWalk (RouteEdge E ⟨s, d, none, none⟩) a b route ∧
      walkLength (legLength E) route ≤
        walkLength (fun u v => planeDist u v 0) (a.shift i :: (l ++ [b.shift j])) := by
  have geo : ∀ {a}, (a = s ∨ a = d ∨ a ∈ ps.flatten) → a.Geo := by
    rintro a (rfl | rfl | ha)
    · exact hv.src
    · exact hv.dst
    · exact h.geo a ha
  have leg : ∀ {a b : Coord} {i j : ℤ}, (a = s ∨ a = d ∨ a ∈ ps.flatten) →
      (b = s ∨ b = d ∨ b ∈ ps.flatten) → a.shift i ≠ b.shift j →
      AtSea (Ashore ps) (a.shift i).pt (b.shift j).pt →
      planeDist (a.shift i) (b.shift j) 0 < 360000001 / 1000000 →
      RouteEdge E ⟨s, d, none, none⟩ a b ∧
        legLength E a b ≤ planeDist (a.shift i) (b.shift j) 0 := by
    intro a b i j ha hb hne hsea hlt
    rw [planeDist_moved] at hlt ⊢
    obtain ⟨c1, c2⟩ := near_copy (geo ha) (geo hb) hlt
    have hk : IsCopy (j - i) := by unfold IsCopy at *; omega
    rw [planeDist_symm, show -(i + 0 - j) = j - i by ring]
    refine around_leg h hv hs hd hblock hone ha hb ?_ hk ?_
    · rintro rfl
      have := c2 rfl
      exact hne (by rw [show i = j by omega])
    · rw [← ashore_shift i, shift_shift, sub_add_cancel]
      exact hsea
  intro l
  induction l with
  | nil =>
    intro a b i j ha hb _ hc hlt
    simp only [List.nil_append, List.isChain_cons_cons, List.isChain_singleton, and_true,
      walkLength, add_zero] at hc hlt ⊢
    obtain ⟨l1, l2⟩ := leg ha hb hc.1 hc.2 hlt
    exact ⟨[a, b], ⟨rfl, rfl, by simpa using l1⟩, by simpa [walkLength] using l2⟩
  | cons v r ih =>
    intro a b i j ha hb hl hc hlt
    obtain ⟨w, hw, k, rfl⟩ := hl v List.mem_cons_self
    rw [List.cons_append, List.isChain_cons_cons] at hc
    simp only [List.cons_append, walkLength] at hlt ⊢
    have n1 := walkLength_nonneg (w.shift k :: (r ++ [b.shift j]))
    have n2 := planeDist_nonneg (a.shift i) (w.shift k) 0
    obtain ⟨route, r1, r2⟩ := ih w b k j (Or.inr (Or.inr hw)) hb
      (fun x hx => hl x (List.mem_cons_of_mem _ hx)) hc.2 (by linarith)
    obtain ⟨l1, l2⟩ := leg (j := k) ha (Or.inr (Or.inr hw)) hc.1.1 hc.1.2 (by linarith)
    cases route with
    | nil => cases r1.1
    | cons x t =>
      obtain rfl : x = w := by simpa using r1.1
      refine ⟨a :: x :: t, ⟨rfl, ?_, List.isChain_cons_cons.2 ⟨l1, r1.2.2⟩⟩, ?_⟩
      · rw [List.getLast?_cons_cons]
        exact r1.2.1
      · simp only [walkLength]
        linarith

/-- The polygons with their copies up to `K` times round the globe. -/
def copies (ps : List (List Coord)) (K : ℕ) : List (List Coord) :=
  ps.flatMap fun p => (List.range (2 * K + 1)).map fun i => p.map (Coord.shift ((i : ℤ) - K))

theorem mem_copies {K : ℕ} {q : List Coord} :
    q ∈ copies ps K ↔ ∃ p ∈ ps, ∃ j : ℤ, |j| ≤ K ∧ q = p.map (Coord.shift j) := by
  unfold copies
  simp only [List.mem_flatMap, List.mem_map, List.mem_range]
  refine exists_congr fun p => and_congr_right fun _ => ⟨?_, ?_⟩
  · rintro ⟨i, hi, rfl⟩
    exact ⟨i - K, by rw [abs_le]; omega, rfl⟩
  · rintro ⟨j, hj, rfl⟩
    rw [abs_le] at hj
    exact ⟨(j + K).toNat, by omega, by rw [show (((j + K).toNat : ℤ)) - K = j by omega]⟩

/-- A course round the globe, pulled tight. -/
theorem around_taut (h : Charted T ps) (hs : s.Geo) (hd : d.Geo) (k : ℤ) (hne : s ≠ d.shift k)
    {course : List ℂ} (hc : IsWalk (AtSea (Ashore ps)) s.pt (d.shift k).pt course) :
    ∃ r : List Coord, (∀ v ∈ r, ∃ w ∈ ps.flatten, ∃ j, v = w.shift j) ∧
      ((s :: (r ++ [d.shift k])).IsChain fun a b => a ≠ b ∧ AtSea (Ashore ps) a.pt b.pt) ∧
      walkLength (fun u v => planeDist u v 0) (s :: (r ++ [d.shift k])) ≤
        walkLength lineLength course := by
  obtain ⟨r, r1, r2, r3⟩ := taut (ps := copies ps k.natAbs) (land := Interior) (by
    intro q hq
    obtain ⟨p, hp, j, -, rfl⟩ := mem_copies.1 hq
    exact simple_encloses (simple_shift j (h.simple p hp))
      (by rw [twiceArea_shift]; exact h.left p hp)) hne
    (course := course) ⟨hc.1, hc.2.1, hc.2.2.imp fun u w hl z hz hin => by
      obtain ⟨q, hq, hin⟩ := Set.mem_iUnion₂.1 hin
      obtain ⟨p, hp, j, -, rfl⟩ := mem_copies.1 hq
      exact hl z hz (mem_ashore.2 ⟨p, hp, j, hin⟩)⟩
  have r1' : ∀ v ∈ r, ∃ w ∈ ps.flatten, ∃ j : ℤ, |j| ≤ k.natAbs ∧ v = w.shift j := by
    intro v hv
    obtain ⟨q, hq, hvq⟩ := List.mem_flatten.1 (r1 v hv)
    obtain ⟨p, hp, j, hj, rfl⟩ := mem_copies.1 hq
    obtain ⟨w, hw, rfl⟩ := List.mem_map.1 hvq
    exact ⟨w, mem_flat hp hw, j, hj, rfl⟩
  have lon : ∀ v ∈ s :: (r ++ [d.shift k]), |v.lon| ≤ 180000000 + (k.natAbs : ℤ) * 360000001 := by
    have one : ∀ (w : Coord) (j : ℤ), w.Geo → |j| ≤ k.natAbs →
        |(w.shift j).lon| ≤ 180000000 + (k.natAbs : ℤ) * 360000001 := by
      intro w j hw hj
      unfold Coord.Geo at hw
      simp only [Coord.shift]
      rw [abs_le] at hj ⊢
      omega
    intro v hv
    simp only [List.mem_cons, List.mem_append, List.not_mem_nil, or_false] at hv
    rcases hv with rfl | hv | rfl
    · have := one v 0 hs (by simp)
      rwa [shift_zero] at this
    · obtain ⟨w, hw, j, hj, rfl⟩ := r1' v hv
      exact one w j (h.geo w hw) hj
    · exact one d k hd (by simp)
  refine ⟨r, fun v hv => ?_, ?_, r3⟩
  · obtain ⟨w, hw, j, -, e⟩ := r1' v hv
    exact ⟨w, hw, j, e⟩
  · refine List.IsChain.imp_of_mem_imp (fun a b ha hb hab => ⟨hab.1, ?_⟩) r2
    exact ashore_near (K := k.natAbs) h.simple h.left h.geo (lon a ha) (lon b hb)
      fun p hp j hj => hab.2.1 _ (mem_copies.2 ⟨p, hp, j, hj, rfl⟩)

/-- **C92** Between points at sea in legible positions that are not joined by a straight line over
the sea, whenever there is a course over the sea, in whichever direction round the globe and shorter
than one turn of it, a path is returned; it is the straight line if the index finds nothing in its
way, or keeps to the sea and is, up to rounding and the greediness weighting, at most as long as that
course: if no two vertices see each other both directly and the shorter way across the meridian, and
an endpoint that is not a vertex does not see one across the meridian only. -/
theorem C92_path {A : Arith Dbl} {w : Dbl} (hA : A.DoubleLike w none) (h0 : 0 ≤ w.1)
    (h : Charted T ps) (hv : Voyage T ps scanner order E s d) (hsize : ps.flatten.length ≤ 499998)
    (hdup : E.graph.polygons.flatten.Nodup) (hs : Position ps s)
    (hd : Position ps d) (hne : s ≠ d) (hblock : ¬ AtSea (Ashore ps) s.pt d.pt)
    (hone : DirectBest ps s d) (k : ℤ)
    (course : List ℂ) (hc : IsWalk (AtSea (Ashore ps)) s.pt (d.shift k).pt course)
    (hshort : walkLength lineLength course < 360000001 / 1000000)
    (allow : Bool) (r : Res (List Coord)) (hq : Query A E s d allow r) :
    ∃ path, r = .ok path ∧ (E.crossings ⟨s, d⟩ = [] ∧ path = [s, d] ∨
      IsWalk (LegOver (Ashore ps) E) s d path ∧
      walkLength (legLength E) path ≤ (1 + 1 / 10 ^ 8) *
        (max 1 ((w.1 : ℚ) : ℝ) * walkLength lineLength course)) := by
  have hne' : s ≠ d.shift k := by
    intro e
    have g1 := hv.src
    have g2 := hv.dst
    rw [e] at g1
    simp only [Coord.shift, Coord.Geo] at g1 g2
    obtain rfl : k = 0 := by omega
    exact hne (by rw [e, shift_zero])
  obtain ⟨t, t1, t2, t3⟩ := around_taut h hv.src hv.dst k hne' hc
  obtain ⟨route, r1, r2⟩ := around_chain h hv hs hd hblock hone t s d 0 k (Or.inl rfl)
    (Or.inr (Or.inl rfl)) t1 (by rwa [shift_zero]) (by rw [shift_zero]; linarith)
  rw [shift_zero] at r2
  rcases hv.prepared allow with hp | ⟨N, hp⟩
  · have hr := hq
    unfold Query at hr
    rw [hp] at hr
    subst hr
    exact ⟨_, rfl, Or.inl (by
      rcases C90_path_sea A hA.sound h hv hdup hs hd allow _ hq with h1 | h1
      · exact h1
      · refine ⟨?_, rfl⟩
        by_contra hb
        obtain ⟨N, hN⟩ := hv.searched hb allow
        rw [hp] at hN
        cases hN)⟩
  · obtain ⟨path, rfl⟩ := (C46_failure A hA.sound E hv.made hv.ord s d allow N _ hp).1
      ⟨route, r1, fun _ _ => by rw [hA.over]; rfl⟩ r hq
    refine ⟨path, rfl, ?_⟩
    rcases C90_path_sea A hA.sound h hv hdup hs hd allow path hq with h1 | h1
    · exact Or.inl h1
    · refine Or.inr ⟨h1, ?_⟩
      classical
      have hb := bounded_of hA h0 E hv.made hv.ord s d allow N _ hp hv.ready.2 path hq
        ({s, d} ∪ ps.flatten.toFinset) (by simp) (by
          intro u _ v he
          simp only [Finset.mem_union, Finset.mem_insert, Finset.mem_singleton, List.mem_toFinset]
          have := hv.target he
          tauto) (by
          have a1 := Finset.card_union_le {s, d} ps.flatten.toFinset
          have a2 := List.toFinset_card_le ps.flatten
          have a3 : ({s, d} : Finset Coord).card ≤ 2 := Finset.card_le_two
          omega) route r1 fun _ _ => rfl
      refine hb.trans ?_
      have : walkLength (legLength E) route ≤ walkLength lineLength course := r2.trans t3
      gcongr

theorem line_pt (a b : Coord) : lineLength a.pt b.pt = planeDist a b 0 := by
  have : walkLength lineLength ([a, b].map Coord.pt) =
      walkLength (fun u v => planeDist u v 0) [a, b] := by rw [length_line, length_pt]
  simpa [walkLength] using this

/-- The length of a leg over the sea across the meridian is that of the line over the sea. -/
theorem crossing_length (hv : Voyage T ps scanner order E s d) (hturn : NoTurn ps) {u v : Coord}
    (hc : CrossesMeridian E u v) {k : ℤ} (hk : k = 1 ∨ k = -1)
    (hsea : AtSea (Ashore ps) u.pt (v.shift k).pt) : planeDist u v (-k) = legLength E u v := by
  obtain ⟨hu, hv'⟩ := crossing_verts hv hc
  have huv : u ≠ v := by
    rintro rfl
    unfold CrossesMeridian Graph.isCrossing at hc
    rw [if_pos rfl] at hc
    cases hc
  have hlt := hturn u hu v hv' huv k hk hsea
  unfold legLength
  rw [if_pos hc]
  have mono : ∀ i j : ℤ, |u.lon + i * 360000001 - v.lon| ≤ |u.lon + j * 360000001 - v.lon| →
      planeDist u v i ≤ planeDist u v j := by
    intro i j hij
    unfold planeDist
    refine div_le_div_of_nonneg_right (Real.sqrt_le_sqrt (add_le_add ?_ le_rfl)) (by norm_num)
    rw [← sq_abs, ← sq_abs ((u.lon + j * 360000001 - v.lon : ℤ) : ℝ)]
    exact pow_le_pow_left₀ (abs_nonneg _) (by exact_mod_cast hij) 2
  simp only [Coord.shift] at hlt
  rw [abs_lt] at hlt
  rcases hk with rfl | rfl
  · rw [min_eq_right (mono _ _ (by simp only [abs, max_def]; split_ifs <;> omega))]
  · rw [min_eq_left (mono _ _ (by simp only [abs, max_def]; split_ifs <;> omega))]
    rfl

theorem course_of (hv : Voyage T ps scanner order E s d) (hturn : NoTurn ps) {z : Coord} :
    ∀ (l : List Coord) (a : Coord) (i : ℤ), (a :: l).getLast? = some z →
      (a :: l).IsChain (LegOver (Ashore ps) E) →
      ∃ (k : ℤ) (course : List ℂ), IsWalk (AtSea (Ashore ps)) (a.shift i).pt (z.shift k).pt course ∧
        walkLength lineLength course = walkLength (legLength E) (a :: l) := by
  intro l
  induction l with
  | nil =>
    intro a i hz _
    obtain rfl : a = z := by simpa using hz
    exact ⟨i, [(a.shift i).pt], ⟨rfl, rfl, by simp⟩, rfl⟩
  | cons b r ih =>
    intro a i hz hc
    rw [List.isChain_cons_cons] at hc
    rw [List.getLast?_cons_cons] at hz
    obtain ⟨m, hsea, hlen⟩ : ∃ m : ℤ, AtSea (Ashore ps) (a.shift i).pt (b.shift (i + m)).pt ∧
        planeDist a b (-m) = legLength E a b := by
      rcases hc.1 with ⟨hn, hsea⟩ | ⟨hcr, k, hk, hsea⟩
      · refine ⟨0, by rw [add_zero]; exact (ashore_shift i).2 hsea, ?_⟩
        unfold legLength
        rw [if_neg hn]
        rfl
      · refine ⟨k, ?_, crossing_length hv hturn hcr hk hsea⟩
        have := (ashore_shift i).2 hsea
        rwa [shift_shift, add_comm] at this
    obtain ⟨k, course, h1, h2⟩ := ih b (i + m) hz hc.2
    obtain ⟨c1, c2, c3⟩ := h1
    cases course with
    | nil => cases c1
    | cons x t =>
      obtain rfl : x = (b.shift (i + m)).pt := by simpa using c1
      refine ⟨k, (a.shift i).pt :: (b.shift (i + m)).pt :: t, ⟨rfl, ?_, ?_⟩, ?_⟩
      · rw [List.getLast?_cons_cons]
        exact c2
      · exact List.isChain_cons_cons.2 ⟨hsea, c3⟩
      · simp only [walkLength]
        rw [h2, line_pt, planeDist_moved, ← hlen]
        congr 2
        ring

/-- **C92** If no straight line over the sea goes once round the globe, every path returned is a
course over the sea to the destination or a copy of it, of just the length the search gives it,
unless the index finds nothing in the way of the straight line. -/
theorem C92_course {D : Type} [LinearOrder D] (A : Arith D) (hA : A.Sound) (h : Charted T ps)
    (hv : Voyage T ps scanner order E s d) (hdup : E.graph.polygons.flatten.Nodup)
    (hs : Position ps s) (hd : Position ps d) (hturn : NoTurn ps) (allow : Bool)
    (path : List Coord) (hq : Query A E s d allow (.ok path)) :
    E.crossings ⟨s, d⟩ = [] ∧ path = [s, d] ∨ ∃ (k : ℤ) (course : List ℂ),
      IsWalk (AtSea (Ashore ps)) s.pt (d.shift k).pt course ∧
        walkLength lineLength course = walkLength (legLength E) path := by
  rcases C90_path_sea A hA h hv hdup hs hd allow path hq with h1 | ⟨h1, h2, h3⟩
  · exact Or.inl h1
  · right
    cases path with
    | nil => cases h1
    | cons a l =>
      obtain rfl : a = s := by simpa using h1
      obtain ⟨k, course, k1, k2⟩ := course_of hv hturn l a 0 h2 h3
      rw [shift_zero] at k1
      exact ⟨k, course, k1, k2⟩

/-! ### Two havens -/

/-- Two islands either side of the meridian with bays turned away from it, and a long one between
them the other way round. -/
def exHavens : List (List Coord) :=
  [[⟨172000000, -100000⟩, ⟨169100000, 1900000⟩, ⟨171100000, 260000⟩, ⟨168950000, -1000000⟩],
    [⟨-172100000, -150000⟩, ⟨-168900000, -1100000⟩, ⟨-171000000, 270000⟩, ⟨-169200000, 1950000⟩],
    [⟨-1000000, -20000000⟩, ⟨2000000, -21000000⟩, ⟨500000, 22000000⟩]]

/-- In the bay of the eastern island, and in that of the western one. -/
def exHavenE : Coord := ⟨170300000, 200000⟩
@[inherit_doc exHavenE] def exHavenW : Coord := ⟨-170300000, 200000⟩

/-- What is kept by the sweep from `a` among all copies. -/
def exKept (ps : List (List Coord)) (a : Coord) : List Coord :=
  let qs := polygonsPeriodic Polygon.SumTree.sequential ps
  scanRaw exLook (ofPolygons qs) a (vertices (ofPolygons qs)) (segments (ofPolygons qs)) false

/-- Copies of vertices with a line over the sea to them are kept by the sweep. -/
theorem kept_of_sea (h : Charted Polygon.SumTree.sequential ps) {a b : Coord} (ha : a.Geo)
    (hO : Legible false (polygonsPeriodic Polygon.SumTree.sequential ps) a)
    (hb : b ∈ ps.flatten) {k : ℤ} (hk : IsCopy k) (hne : b.shift k ≠ a)
    (hsea : AtSea (Ashore ps) a.pt (b.shift k).pt) : b.shift k ∈ exKept ps a := by
  have hm := stable_vertex h.stable hb hk
  have hoff : ∀ q ∈ polygonsPeriodic Polygon.SumTree.sequential ps, a.pt ∉ Interior q := by
    intro q hq hin
    obtain ⟨p, hp, j, -, rfl⟩ := h.copy.1 hq
    exact hsea _ (left_mem_segment ℝ _ _) (mem_ashore.2 ⟨p, hp, j, hin⟩)
  have hsee := (Legible.sees_iff (fun q hq => h.encloses' hq) hO hoff h.corners' hm (fun e => by cases e) hne).2
    fun q hq z hz hl => by
      obtain ⟨p, hp, j, -, rfl⟩ := h.copy.1 hq
      exact hsea z hz (mem_ashore.2 ⟨p, hp, j, hl⟩)
  refine clear_kept _ _ _ _ ⟨List.Perm.refl _, List.Perm.refl _, exLook_ok, ?_⟩ a _ ha.per hm hne
    hsee.1 hsee.2 false fun e => by cases e
  intro v hv
  obtain ⟨w, hw, j, hj, rfl⟩ := periodic_vertex hv
  have := h.geo w hw
  unfold Coord.Geo at this
  simp only [Coord.shift, Coord.Per, IsCopy] at *
  omega

theorem exHavens_vertices : ∀ v ∈ exHavens.flatten,
    Legible false (polygonsPeriodic Polygon.SumTree.sequential exHavens) v := by
  have key : ∀ v ∈ exHavens.flatten,
      LegibleBy false (polygonsPeriodic Polygon.SumTree.sequential exHavens) v := by
    decide +kernel
  exact fun v hv => (key v hv).legible

theorem exHavens_charted : Charted Polygon.SumTree.sequential exHavens :=
  ChartedBy.charted (by decide +kernel)

theorem exHavens_legible : ∀ v ∈ [exHavenE, exHavenW],
    Legible false (polygonsPeriodic Polygon.SumTree.sequential exHavens) v ∧ Position exHavens v := by
  have key : ∀ v ∈ [exHavenE, exHavenW],
      LegibleBy false (polygonsPeriodic Polygon.SumTree.sequential exHavens) v ∧ LegibleBy false exHavens v ∧
      ∀ p ∈ exHavens, offB p v = true ∧ passes p v = 0 := by decide +kernel
  intro v hv
  obtain ⟨h1, h2, h3⟩ := key v hv
  exact ⟨h1.legible, Or.inr ⟨h2.legible, fun p hp hin =>
    ((C89_count p v (offB_sound (h3 p hp).1)).2.1 hin) (h3 p hp).2⟩⟩

/-- The havens with their generated graph; the straight line between them is blocked. -/
def exHavensEnv : Env where
  graph := (generate exHavens (exScanner Polygon.SumTree.sequential exHavens) id).toOption.getD
    Graph.empty
  onLand _ := false
  closest _ := .error .exn
  project _ c := .ok c
  crossings _ := [⟨⟨-1000000, -20000000⟩, ⟨500000, 22000000⟩⟩]
  reach e := scanC exLook (ofPolygons exHavens) e (vertices (ofPolygons exHavens))
    (segments (ofPolygons exHavens)) false
  ord l := l

theorem exHavens_graph : generate exHavens (exScanner Polygon.SumTree.sequential exHavens) id =
    .ok exHavensEnv.graph := by
  obtain ⟨g, f, h1, -⟩ := C38_edges Polygon.SumTree.sequential exHavens (by decide) _
    (exScanner_ok _ _) id fun l => List.Perm.refl l
  unfold exHavensEnv
  dsimp only
  rw [h1]
  rfl

theorem exHavens_voyage : Voyage Polygon.SumTree.sequential exHavens
    (exScanner Polygon.SumTree.sequential exHavens) id exHavensEnv exHavenE exHavenW :=
  .direct (by decide) exHavens_charted.stable (exScanner_ok _ _) (fun l => List.Perm.refl l)
    exHavens_graph (fun _ => ⟨_, _, _, List.Perm.refl _, List.Perm.refl _, exLook_ok, rfl⟩)
    (fun l => List.Perm.refl l) (by decide) (by decide) ⟨rfl, rfl⟩

theorem exHavens_nodup : exHavensEnv.graph.polygons.flatten.Nodup := by
  obtain ⟨g, f, h1, -, h2, -⟩ := C38_edges Polygon.SumTree.sequential exHavens (by decide) _
    (exScanner_ok _ _) id fun l => List.Perm.refl l
  rw [exHavens_graph] at h1
  cases h1
  rw [h2]
  decide

/-- A line along a parallel through a point on land. -/
theorem parallel_blocked {a b c : Coord} (hab : a.lat = b.lat) (hac : a.lat = c.lat)
    (h1 : a.lon ≤ c.lon) (h2 : c.lon ≤ b.lon) (h3 : a.lon < b.lon) {p : List Coord} (hp : p ∈ ps)
    (hin : offB p c = true ∧ passes p c ≠ 0) : ¬ AtSea (Ashore ps) a.pt b.pt := by
  intro h
  have g1 : (a.lon : ℝ) ≤ c.lon := by exact_mod_cast h1
  have g2 : (c.lon : ℝ) ≤ b.lon := by exact_mod_cast h2
  have g3 : (a.lon : ℝ) < b.lon := by exact_mod_cast h3
  have g4 : (b.lon - a.lon : ℝ) ≠ 0 := by linarith
  refine h c.pt ⟨(b.lon - c.lon) / (b.lon - a.lon), (c.lon - a.lon) / (b.lon - a.lon),
    div_nonneg (by linarith) (by linarith), div_nonneg (by linarith) (by linarith),
    by field_simp; ring, ?_⟩ ?_
  · apply Complex.ext
    · simp only [Coord.pt, Complex.add_re, Complex.smul_re, smul_eq_mul]
      field_simp
      ring
    · simp only [Coord.pt, Complex.add_im, Complex.smul_im, smul_eq_mul, ← hab, ← hac]
      field_simp
      ring
  · refine mem_ashore.2 ⟨p, hp, 0, ?_⟩
    rw [map_shift_zero]
    exact (C89_count _ _ (offB_sound hin.1)).2.2 hin.2

theorem exHavens_blocked : ¬ AtSea (Ashore exHavens) exHavenE.pt exHavenW.pt := fun h =>
  parallel_blocked (c := ⟨500000, 200000⟩) (p := [⟨-1000000, -20000000⟩, ⟨2000000, -21000000⟩,
    ⟨500000, 22000000⟩]) (by decide) (by decide) (by decide) (by decide) (by decide) (by decide)
    (by decide +kernel) (atSea_symm h)

theorem exHavens_apart {k : ℤ} (hk : k = 1 ∨ k = -1) :
    ¬ AtSea (Ashore exHavens) exHavenE.pt (exHavenW.shift k).pt := by
  rcases hk with rfl | rfl
  · exact parallel_blocked (c := ⟨171300000, 200000⟩) (p := [⟨172000000, -100000⟩,
      ⟨169100000, 1900000⟩, ⟨171100000, 260000⟩, ⟨168950000, -1000000⟩]) (by decide) (by decide)
      (by decide) (by decide) (by decide) (by decide) (by decide +kernel)
  · exact fun h => parallel_blocked (c := ⟨500000, 200000⟩) (p := [⟨-1000000, -20000000⟩,
      ⟨2000000, -21000000⟩, ⟨500000, 22000000⟩]) (by decide) (by decide) (by decide) (by decide)
      (by decide) (by decide) (by decide +kernel) (atSea_symm h)

theorem planeDist_le {a b : Coord} {j k : ℤ} (h : |a.lon + j * 360000001 - b.lon| ≤
    |b.lon + k * 360000001 - a.lon|) : planeDist a b j ≤ planeDist b a k := by
  unfold planeDist
  refine div_le_div_of_nonneg_right (Real.sqrt_le_sqrt (add_le_add ?_ (le_of_eq ?_))) (by norm_num)
  · rw [← sq_abs, ← sq_abs ((b.lon + k * 360000001 - a.lon : ℤ) : ℝ)]
    exact pow_le_pow_left₀ (abs_nonneg _) (by exact_mod_cast h) 2
  · push_cast
    ring

/-- What is kept by the sweeps from the vertices. -/
theorem exHavens_kept : ∀ u ∈ exHavens.flatten, ∀ w ∈ exKept exHavens u,
    (|w.lon| ≤ 180000000 → |w.lon - u.lon| ≤ 180000000) ∧
      (w = u.shift 1 ∨ w = u.shift (-1) ∨ |w.lon - u.lon| < 360000001) := by
  decide +kernel

theorem exHavens_direct : DirectBest exHavens exHavenE exHavenW := by
  have hC := exHavens_charted
  have ne : ∀ {u v : Coord} {k : ℤ}, u.Geo → v.Geo → (k = 1 ∨ k = -1) → v.shift k ≠ u := by
    intro u v k hu hv hk e
    cases u; cases v
    simp only [Coord.shift, Coord.Geo, Coord.mk.injEq] at *
    omega
  constructor
  · intro u hu v hv h0 k hk hs
    refine ⟨h0, planeDist_le ?_⟩
    by_cases huv : v = u
    · rw [huv]
      rcases hk with rfl | rfl <;> norm_num
    have h0' := kept_of_sea hC (hC.geo u hu) (exHavens_vertices u hu) hv (k := 0) (Or.inl rfl)
      (by rwa [shift_zero]) (by rwa [shift_zero])
    rw [shift_zero] at h0'
    have g := hC.geo v hv
    unfold Coord.Geo at g
    have := (exHavens_kept u hu v h0').1 (by rw [abs_le]; omega)
    rw [abs_le] at this
    rcases hk with rfl | rfl <;> (simp only [abs, max_def]; split_ifs <;> omega)
  · intro e he hen v hvs hve k hk hs
    exfalso
    rcases hvs with rfl | rfl | hvm
    · rcases he with rfl | rfl
      · exact hve rfl
      · exact exHavens_apart (k := -k) (by omega) (ashore_flip hs)
    · rcases he with rfl | rfl
      · exact exHavens_apart hk hs
      · exact hve rfl
    · have hmem : e ∈ [exHavenE, exHavenW] := by simpa using he
      have hg : e.Geo := by rcases he with rfl | rfl <;> decide
      have key : ∀ e ∈ [exHavenE, exHavenW], ∀ w ∈ exKept exHavens e, |w.lon| ≤ 180000000 := by
        decide +kernel
      have g := hC.geo v hvm
      have := key e hmem _ (kept_of_sea hC hg (exHavens_legible e hmem).1 hvm
        (Or.inr hk) (ne hg g hk) hs)
      simp only [Coord.shift, Coord.Geo] at this g
      rw [abs_le] at this
      omega

theorem copy_eq {a b : Coord} (ha : a.Geo) (hb : b.Geo) {i j : ℤ} (h : a.shift i = b.shift j) :
    a = b := by
  cases a; cases b
  simp only [Coord.shift, Coord.Geo, Coord.mk.injEq] at *
  omega

theorem exHavens_noTurn : NoTurn exHavens := by
  have hC := exHavens_charted
  intro u hu v hv huv k hk hs
  have g1 := hC.geo u hu
  have g2 := hC.geo v hv
  rcases (exHavens_kept u hu _ (kept_of_sea hC g1 (exHavens_vertices u hu) hv (Or.inr hk) (by
    intro e
    have e1 := congrArg Coord.lon e
    simp only [Coord.shift, Coord.Geo] at g1 g2 e1
    omega) hs)).2 with e | e | h
  · exact absurd (copy_eq g2 g1 e).symm huv
  · exact absurd (copy_eq g2 g1 e).symm huv
  · exact h

/-- Out of the one bay, round the north of the island and across the meridian, and into the other. -/
def exHavensCourse : List Coord := [exHavenE, ⟨168500000, 2500000⟩, ⟨192000000, 2500000⟩,
  exHavenW.shift 1]

theorem exHavens_course : IsWalk (AtSea (Ashore exHavens)) exHavenE.pt (exHavenW.shift 1).pt
    (exHavensCourse.map Coord.pt) := by
  have hC := exHavens_charted
  have hleg : ∀ a b : Coord, |a.lon| ≤ 180000000 + 1 * 360000001 →
      |b.lon| ≤ 180000000 + 1 * 360000001 → (∀ p ∈ exHavens, ∀ j ∈ [0, 1, -1],
      (∀ i < (p.map (Coord.shift j)).length,
        EdgesApart a b (ringAt (p.map (Coord.shift j)) i) (ringAt (p.map (Coord.shift j)) (i + 1))) ∧
      offB (p.map (Coord.shift j)) b = true ∧ passes (p.map (Coord.shift j)) b = 0) →
      AtSea (Ashore exHavens) a.pt b.pt := by
    intro a b ha hb h
    refine ashore_near (K := 1) hC.simple hC.left hC.geo ha hb fun p hp j hj => ?_
    obtain ⟨h1, h2, h3⟩ := h p hp j (by
      rw [abs_le] at hj
      simp only [List.mem_cons, List.not_mem_nil, or_false]
      omega)
    have hb := offB_sound h2
    exact outside_line (simple_noRepeat (simple_shift j (hC.simple p hp))) h1 hb
      (fun k => ((C89_count _ _ hb).2.1 k) h3)
  refine ⟨rfl, rfl, ?_⟩
  simp only [exHavensCourse, List.map_cons, List.map_nil, List.isChain_cons_cons,
    List.isChain_singleton, and_true]
  refine ⟨hleg _ _ ?_ ?_ ?_, hleg _ _ ?_ ?_ ?_, hleg _ _ ?_ ?_ ?_⟩ <;> decide +kernel

theorem planeDist_lt {a b : Coord} {k n : ℤ} (hn : 0 < n)
    (h : (a.lon + k * 360000001 - b.lon) ^ 2 + (a.lat - b.lat) ^ 2 < n ^ 2) :
    planeDist a b k < n / 1000000 := by
  unfold planeDist
  refine div_lt_div_of_pos_right ?_ (by norm_num)
  rw [Real.sqrt_lt' (by exact_mod_cast hn)]
  exact_mod_cast h

theorem exHavens_length : walkLength lineLength (exHavensCourse.map Coord.pt) < 32 := by
  simp only [exHavensCourse, List.map_cons, List.map_nil, walkLength, line_pt]
  have h1 := planeDist_lt (a := exHavenE) (b := ⟨168500000, 2500000⟩) (k := 0) (n := 3000000)
    (by norm_num) (by decide)
  have h2 := planeDist_lt (a := ⟨168500000, 2500000⟩) (b := ⟨192000000, 2500000⟩) (k := 0)
    (n := 24000000) (by norm_num) (by decide)
  have h3 := planeDist_lt (a := ⟨192000000, 2500000⟩) (b := exHavenW.shift 1) (k := 0)
    (n := 4000000) (by norm_num) (by decide)
  norm_num at h1 h2 h3
  linarith

/-- Non-vacuity of `C92_path` and `C92_course`: between the havens a path over the sea across the
meridian of less than 33 degrees is returned, where the other way it is more than 300. -/
example (sq : ℚ → Dbl) (hsq : SqrtOk fun q => (sq q).1) (hsq0 : ∀ x, 0 ≤ (sq x).1) (w : Dbl)
    (hw : w.1 = 1) :
    ∃ path, Query (doubleArith sq w none) exHavensEnv exHavenE exHavenW false (.ok path) ∧
    IsWalk (LegOver (Ashore exHavens) exHavensEnv) exHavenE exHavenW path ∧
    walkLength (legLength exHavensEnv) path < 33 ∧
    ∃ (k : ℤ) (course : List ℂ),
      IsWalk (AtSea (Ashore exHavens)) exHavenE.pt (exHavenW.shift k).pt course ∧
        walkLength lineLength course = walkLength (legLength exHavensEnv) path := by
  have hV := exHavens_voyage
  have h0 : 0 ≤ w.1 := by rw [hw]; norm_num
  have hl := double_like sq hsq hsq0 w h0 none
  obtain ⟨⟨r, hq⟩, -⟩ := C43_outcome _ hl.sound exHavensEnv hV.made hV.ord exHavenE exHavenW false
  have p1 := (exHavens_legible exHavenE (by simp)).2
  have p2 := (exHavens_legible exHavenW (by simp)).2
  have hlen := exHavens_length
  obtain ⟨path, rfl, ⟨hp, -⟩ | ⟨hp1, hp2⟩⟩ := C92_path hl h0 exHavens_charted hV (by decide)
    exHavens_nodup p1 p2 (by decide) exHavens_blocked exHavens_direct 1 _ exHavens_course
    (by linarith) false r hq
  · cases hp
  · refine ⟨path, hq, hp1, ?_, ?_⟩
    · rw [hw] at hp2
      norm_num at hp2
      linarith
    · rcases C92_course _ hl.sound exHavens_charted hV exHavens_nodup p1 p2 exHavens_noTurn false path
        hq with ⟨h, -⟩ | h
      · cases h
      · exact h

/-! ### A line round the globe -/

/-- Three islands: from the tip of the first the second is hidden by the third, and the line to it
across the meridian to the west starts overland, but that to the east goes clear round the globe. -/
def exTurn : List (List Coord) :=
  [[⟨-3000000, -1000000⟩, ⟨0, 0⟩, ⟨-3100000, 2000000⟩],
    [⟨10000001, 40000400⟩, ⟨13000000, 39000000⟩, ⟨13100000, 41700000⟩],
    [⟨3500000, 17500000⟩, ⟨7000000, 18400000⟩, ⟨4200000, 19800000⟩]]

theorem exTurn_charted : Charted Polygon.SumTree.sequential exTurn :=
  ChartedBy.charted (by decide +kernel)

/-- **C92** The length the search gives a leg across the meridian need not be that of a line over the
sea: two vertices that see each other only by a line once round the globe are joined, at the distance
of the other way, which is overland. -/
theorem C92_turn_false : ¬ ∀ (T : ℕ → Polygon.SumTree) (ps : List (List Coord)), Charted T ps →
    ∀ scanner order, IsScanner T ps scanner → (∀ l, (order l).Perm l) →
    ∀ g, generate ps scanner order = .ok g → ∀ a b, g.isCrossing a b = .ok true →
    ∃ k, (k = 1 ∨ k = -1) ∧ AtSea (Ashore ps) a.pt (b.shift k).pt ∧
      planeDist b a k = min (planeDist a b 1) (planeDist a b (-1)) := by
  intro hall
  obtain ⟨g, hg, hiff⟩ := C90_graph exTurn_charted _ (exScanner_ok _ _) id
    fun l => List.Perm.refl l
  have hset : Setup (polygonsPeriodic Polygon.SumTree.sequential exTurn)
      (ofPolygons (polygonsPeriodic Polygon.SumTree.sequential exTurn))
      (segments (ofPolygons (polygonsPeriodic Polygon.SumTree.sequential exTurn))) exLook :=
    ⟨List.Perm.refl _, List.Perm.refl _, exLook_ok, by decide +kernel⟩
  obtain ⟨-, -, j, hj, hj0, hseen⟩ := (exTurn_charted.scan_iff hset (a := ⟨0, 0⟩)
    (b := ⟨10000001, 40000400⟩) (by decide) (by decide) true).1 (by decide +kernel)
  have hcr : g.isCrossing ⟨0, 0⟩ ⟨10000001, 40000400⟩ = .ok true := by
    refine (hiff _ _).2.2 ⟨by decide, by decide, by decide, fun h => ?_, j,
      hj.resolve_left (hj0.1 rfl), hseen⟩
    refine h (⟨4545455, 18182000⟩ : Coord).pt ⟨6 / 11, 5 / 11, by norm_num, by norm_num,
      by norm_num, ?_⟩ (mem_ashore.2 ⟨[⟨3500000, 17500000⟩, ⟨7000000, 18400000⟩,
        ⟨4200000, 19800000⟩], by decide, 0, ?_⟩)
    · apply Complex.ext <;> simp [Coord.pt] <;> norm_num
    · rw [map_shift_zero]
      exact (C89_count _ _ (offB_sound (by decide +kernel))).2.2 (by decide +kernel)
  obtain ⟨k, hk, hsea, hlen⟩ := hall _ _ exTurn_charted _ _ (exScanner_ok _ _)
    (fun l => List.Perm.refl l) g hg ⟨0, 0⟩ ⟨10000001, 40000400⟩ hcr
  rcases hk with rfl | rfl
  · have h1 : planeDist (⟨0, 0⟩ : Coord) ⟨10000001, 40000400⟩ 1 <
        planeDist ⟨10000001, 40000400⟩ (⟨0, 0⟩ : Coord) 1 := by
      unfold planeDist
      refine div_lt_div_of_pos_right (Real.sqrt_lt_sqrt (by positivity) ?_) (by norm_num)
      norm_num
    exact absurd hlen (ne_of_gt ((min_le_left _ _).trans_lt h1))
  · refine hsea (⟨-1750000, 200002⟩ : Coord).pt ⟨199 / 200, 1 / 200, by norm_num, by norm_num,
      by norm_num, ?_⟩ (mem_ashore.2 ⟨_, List.mem_cons_self, 0, ?_⟩)
    · apply Complex.ext <;> simp [Coord.shift, Coord.pt] <;> norm_num
    · rw [map_shift_zero]
      exact (C89_count _ _ (offB_sound (by decide +kernel))).2.2 (by decide +kernel)

end

end Capi
