import Verif.Model.Disk
import Verif.Props.Frontend
import Verif.Props.Serializer
import Verif.Props.Merge

/-!
# C60: generating in parts, merging the files and using the result
-/

namespace Capi

open Frontend

variable {N : Type} [DecidableEq N]

theorem put_self (d : Disk N) (n : N) (c : Option Serial.Buf) : d.put n c n = some c := by
  simp [Disk.put]

theorem put_ne (d : Disk N) {n k : N} (h : k ≠ n) (c : Option Serial.Buf) : d.put n c k = d k := by
  simp [Disk.put, h]

theorem job_ok {d : Disk N} {out : N} {make : Disk N → Res Graph} {g : Graph} {b : Serial.Buf}
    (hf : d out = none) (hm : make (d.put out none) = .ok g) (hs : Serial.save g [] = .ok b) :
    d.job out make = (.ok (), d.put out (some b)) := by
  unfold Disk.job Disk.mkdir
  rw [hf]
  dsimp only
  rw [hm, Res.bind_ok]
  unfold Disk.save
  rw [put_self]
  dsimp only [Option.getD_none]
  rw [hs]
  simp only [Res.bind_ok, Res.pure_eq]
  congr 1
  funext k
  unfold Disk.put
  split_ifs <;> rfl

/-- Splits written into fresh, different folders. -/
theorem splits_ok {ι : Type} {name : ι → N} {make : ι → Res Graph} {g : ι → Graph}
    {b : ι → Serial.Buf} (js : List ι) (hn : js.Nodup)
    (hinj : ∀ i ∈ js, ∀ j ∈ js, name i = name j → i = j)
    (hm : ∀ i ∈ js, make i = .ok (g i)) (hs : ∀ i ∈ js, Serial.save (g i) [] = .ok (b i)) :
    ∀ d : Disk N, (∀ i ∈ js, d (name i) = none) →
    ∃ d', runJobs d (js.map fun i d => d.job (name i) fun _ => make i) = (.ok (), d') ∧
      (∀ i ∈ js, d' (name i) = some (some (b i))) ∧
      ∀ n, (∀ i ∈ js, n ≠ name i) → d' n = d n := by
  induction js with
  | nil => intro d _; exact ⟨d, rfl, by simp, fun _ _ => rfl⟩
  | cons i r ih =>
    intro d hf
    rw [List.nodup_cons] at hn
    have hne : ∀ j ∈ r, name j ≠ name i := by
      intro j hj he
      have := hinj j (List.mem_cons_of_mem _ hj) i List.mem_cons_self he
      exact hn.1 (this ▸ hj)
    obtain ⟨d', h1, h2, h3⟩ := ih hn.2
      (fun a ha b hb => hinj a (List.mem_cons_of_mem _ ha) b (List.mem_cons_of_mem _ hb))
      (fun a ha => hm a (List.mem_cons_of_mem _ ha)) (fun a ha => hs a (List.mem_cons_of_mem _ ha))
      (d.put (name i) (some (b i)))
      (fun j hj => by rw [put_ne d (hne j hj)]; exact hf j (List.mem_cons_of_mem _ hj))
    refine ⟨d', ?_, ?_, ?_⟩
    · rw [List.map_cons, runJobs, job_ok (hf i List.mem_cons_self) (hm i List.mem_cons_self)
        (hs i List.mem_cons_self)]
      exact h1
    · intro j hj
      rcases List.mem_cons.1 hj with rfl | hj
      · rw [h3 _ fun k hk => (hne k hk).symm, put_self]
      · exact h2 j hj
    · intro n hnn
      rw [h3 n fun k hk => hnn k (List.mem_cons_of_mem _ hk), put_ne d (hnn i List.mem_cons_self)]

/-- Merging graphs that answer alike gives graphs that answer alike. -/
theorem merge_same {gs gs' : List Graph} {ps ps' : List (List Coord)}
    {sch sch' : List Graph.Op → List Graph.Op} (hg : ∀ g ∈ gs, g.Built) (hg' : ∀ g ∈ gs', g.Built)
    (hp : Graph.MergeOrder gs ps) (hp' : Graph.MergeOrder gs' ps') (hs : ∀ l, (sch l).Perm l)
    (hs' : ∀ l, (sch' l).Perm l)
    (h1 : ∀ g ∈ gs, ∃ g' ∈ gs', SameAnswers g g') (h2 : ∀ g' ∈ gs', ∃ g ∈ gs, SameAnswers g g') :
    ∃ G G', Graph.merge ps sch gs = .ok G ∧ Graph.merge ps' sch' gs' = .ok G' ∧ UserGraph G ∧
      G.polygons = ps ∧ SameAnswers G G' := by
  obtain ⟨G, a1, _, a2, a3⟩ := C24_union gs ps sch hg hp hs
  obtain ⟨G', b1, _, b2, b3⟩ := C24_union gs' ps' sch' hg' hp' hs'
  obtain ⟨_, K, _, k1, kp, u, k2, _⟩ := Graph.merge_ok hg hp hs
  obtain ⟨_, K', _, k1', _, _, k2', _⟩ := Graph.merge_ok hg' hp' hs'
  rw [a1] at k1; obtain rfl := Except.ok.inj k1
  rw [b1] at k1'; obtain rfl := Except.ok.inj k1'
  have ex : ∀ {P Q : Graph → Prop}, (∀ g g', SameAnswers g g' → (P g ↔ Q g')) →
      ((∃ g ∈ gs, P g) ↔ ∃ g ∈ gs', Q g) := by
    intro P Q hPQ
    constructor
    · rintro ⟨g, hgg, hP⟩
      obtain ⟨g', hg'', hsm⟩ := h1 g hgg
      exact ⟨g', hg'', (hPQ g g' hsm).1 hP⟩
    · rintro ⟨g', hgg, hQ⟩
      obtain ⟨g, hg'', hsm⟩ := h2 g' hgg
      exact ⟨g, hg'', (hPQ g g' hsm).2 hQ⟩
  have al : ∀ {P Q : Graph → Prop}, (∀ g g', SameAnswers g g' → (P g ↔ Q g')) →
      ((∀ g ∈ gs, P g) ↔ ∀ g ∈ gs', Q g) := by
    intro P Q hPQ
    constructor
    · intro h g' hgg
      obtain ⟨g, hg'', hsm⟩ := h2 g' hgg
      exact (hPQ g g' hsm).1 (h g hg'')
    · intro h g hgg
      obtain ⟨g', hg'', hsm⟩ := h1 g hgg
      exact (hPQ g g' hsm).2 (h g' hg'')
  refine ⟨G, G', a1, b1, u, kp, same_of_true k2.shape k2'.shape ?_ ?_⟩
  · intro c
    rw [a2, b2]
    exact ex fun g g' h => h.1 c
  · intro a b
    rw [(a3 a b).1, (b3 a b).1, (a3 a b).2, (b3 a b).2]
    have e : (∃ g ∈ gs, g.hasEdge a b = .ok true ∨ g.hasEdge b a = .ok true) ↔
        ∃ g ∈ gs', g.hasEdge a b = .ok true ∨ g.hasEdge b a = .ok true :=
      ex fun g g' h => by rw [(h.2 a b).1, (h.2 b a).1]
    refine ⟨e, and_congr e (al fun g g' h => ?_)⟩
    rw [(h.2 a b).1, (h.2 b a).1, (h.2 a b).2, (h.2 b a).2]

theorem SameAnswers.symm {g h : Graph} (s : SameAnswers g h) : SameAnswers h g :=
  ⟨fun c => (s.1 c).symm, fun a b => ⟨(s.2 a b).1.symm, (s.2 a b).2.symm⟩⟩

theorem SameAnswers.trans {g h k : Graph} (s : SameAnswers g h) (t : SameAnswers h k) :
    SameAnswers g k :=
  ⟨fun c => (s.1 c).trans (t.1 c), fun a b =>
    ⟨(s.2 a b).1.trans (t.2 a b).1, (s.2 a b).2.trans (t.2 a b).2⟩⟩

/-- Different polygons taken from a list have no more vertices than the list. -/
theorem flatten_le {l m : List (List Coord)} (hn : l.Nodup) (h : ∀ p ∈ l, p ∈ m) :
    l.length ≤ m.length ∧ l.flatten.length ≤ m.flatten.length := by
  obtain ⟨l', hp, hs⟩ := hn.subperm h
  exact ⟨hp.length_eq ▸ hs.length_le, hp.flatten.length_eq ▸ hs.flatten.length_le⟩

/-- What a split that was generated looks like. -/
theorem split_graph {T : ℕ → Polygon.SumTree} {ps : List (List Coord)} (hp : ps ≠ [])
    (hg : ∀ v ∈ ps.flatten, v.Geo) {scanner : Coord → Res (List (Coord × Bool))}
    (hs : Visgraph.IsScanner T ps scanner) {order shuffle : List Coord → List Coord}
    (ho : ∀ l, (order l).Perm l) (hsh : ∀ l, (shuffle l).Perm l) {k i : ℤ} {g : Graph}
    (h : generateSplit ps scanner order shuffle k i = .ok g) :
    UserGraph g ∧ g.polygons = ps ∧ g.verts = ps.flatten := by
  unfold generateSplit at h
  rw [numVertices_eq ps hp, Res.bind_ok] at h
  obtain ⟨r, hr, h⟩ := ShortestPath.bind_eq_ok h
  obtain ⟨lo, hlo, h⟩ := ShortestPath.bind_eq_ok h
  obtain ⟨hi, hhi, h⟩ := ShortestPath.bind_eq_ok h
  have hb : ¬ (hi < lo ∨ ps.flatten.length < hi) := by
    intro hb
    rw [(C41_ranges T ps hg scanner hs order shuffle ho hsh lo hi).1 ⟨hp, hb⟩] at h
    cases h
  obtain ⟨f, hf, hon, _⟩ := hs.answers hg
  obtain ⟨x, us, h1, _, h2, h3, h4, _⟩ := Visgraph.generateRange_ok hf hon order shuffle ho hsh lo hi
    (Or.inr (by omega))
  rw [h] at h1
  obtain rfl := Except.ok.inj h1
  exact ⟨h2, h3, h4⟩

/-- Graphs over different polygons taken from `ps` can be stored. -/
theorem storable_of {T : ℕ → Polygon.SumTree} {ps : List (List Coord)}
    (hg : ∀ v ∈ ps.flatten, v.Geo) (hst : ∀ p ∈ ps, Serial.polygonC T p = .ok p)
    (hl : ps.length < 2 ^ 64) (hv : ps.flatten.length < 2 ^ 32) {g : Graph} (hu : UserGraph g)
    (h : ∀ p ∈ g.polygons, p ∈ ps) (h1 : g.polygons.length ≤ ps.length)
    (h2 : g.polygons.flatten.length ≤ ps.flatten.length) : Serial.Storable T g := by
  refine ⟨?_, fun p hp => hst p (h p hp), by omega, ?_⟩
  · intro p hp c hc
    have := hg c (List.mem_flatten.2 ⟨p, h p hp, hc⟩)
    unfold Coord.Geo at this
    unfold Coord.Wf FitsI32
    omega
  · rw [hu.regular.built.verts]; omega

/-- **C60** Generating all parts into fresh folders, in any order, merging the folders, in any order
and even with repetitions, and loading the result gives a graph with the polygons of the input that
answers like the graph generated in one go.  The folders merged and all other folders stay as they
were.  The processes may sum areas in different ways (`T`, `T1`, `T2`). -/
theorem C60_pipeline (T T1 T2 : ℕ → Polygon.SumTree) (ps : List (List Coord)) (hp : ps ≠ [])
    (hg : ∀ v ∈ ps.flatten, v.Geo) (hst1 : ∀ p ∈ ps, Serial.polygonC T1 p = .ok p)
    (hst2 : ∀ p ∈ ps, Serial.polygonC T2 p = .ok p)
    (hl : ps.length < 2 ^ 64) (hv : ps.flatten.length < 2 ^ 32)
    (scanner : Coord → Res (List (Coord × Bool))) (hs : Visgraph.IsScanner T ps scanner)
    (order shuffle : List Coord → List Coord) (ho : ∀ l, (order l).Perm l)
    (hsh : ∀ l, (shuffle l).Perm l) (k : ℕ) (hk : 1 ≤ k)
    (porder : List Graph → List (List Coord)) (hpo : ∀ gs, Graph.MergeOrder gs (porder gs))
    (schedule : List Graph.Op → List Graph.Op) (hsch : ∀ l, (schedule l).Perm l)
    (d : Disk N) (name : ℕ → N) (hinj : ∀ i < k, ∀ j < k, name i = name j → i = j) (out : N)
    (hout : ∀ i < k, name i ≠ out) (hf : ∀ i < k, d (name i) = none) (hfo : d out = none)
    (js ins : List ℕ) (hjs : js.Perm (List.range k)) (hins : ∀ i, i ∈ ins ↔ i < k) :
    ∃ d' d'' G g,
      runJobs d (js.map fun (i : ℕ) => splitJob ps scanner order shuffle k i (name i)) =
        (.ok (), d') ∧
      mergeJob T1 porder schedule (ins.map name) out d' = (.ok (), d'') ∧
      d''.load T2 out = .ok G ∧ Visgraph.generate ps scanner order = .ok g ∧ SameAnswers G g ∧
      UserGraph G ∧ G.polygons.Nodup ∧ (∀ p, p ∈ G.polygons ↔ p ∈ ps) ∧
      (∀ n, n ≠ out → d'' n = d' n) ∧
      ∀ n, n ≠ out → (∀ i < k, n ≠ name i) → d'' n = d n := by
  obtain ⟨gs, g, h1, h2, h3⟩ := C53_shards T ps hp hg (by omega) scanner hs order shuffle ho hsh k hk
  -- each split by its number
  have hmem : ∀ i ∈ js, i < k := fun i hi => List.mem_range.1 (hjs.mem_iff.1 hi)
  have hgen : ∀ i : ℕ, i < k → ∃ x b x', generateSplit ps scanner order shuffle k i = .ok x ∧
      x ∈ gs ∧ UserGraph x ∧ x.polygons = ps ∧ Serial.save x [] = .ok b ∧ Serial.load T1 b = .ok x' ∧
      UserGraph x' ∧ x'.polygons = ps ∧ SameAnswers x' x := by
    intro i hi
    obtain ⟨x, hx, hxm⟩ : ∃ x, generateSplit ps scanner order shuffle k i = .ok x ∧ x ∈ gs := by
      have key : ∀ (l : List ℕ) (r : List Graph),
          l.mapM (fun (i : ℕ) => generateSplit ps scanner order shuffle k i) = .ok r →
          ∀ i ∈ l, ∃ x, generateSplit ps scanner order shuffle k i = .ok x ∧ x ∈ r := by
        intro l
        induction l with
        | nil => intro r _ i hi; cases hi
        | cons a t ih =>
          intro r hr i hi
          rw [List.mapM_cons] at hr
          obtain ⟨x, hx, hr⟩ := ShortestPath.bind_eq_ok hr
          obtain ⟨y, hy, hr⟩ := ShortestPath.bind_eq_ok hr
          obtain rfl := Except.ok.inj hr
          rcases List.mem_cons.1 hi with rfl | hi
          · exact ⟨x, hx, List.mem_cons_self⟩
          · obtain ⟨z, hz, hzm⟩ := ih y hy i hi
            exact ⟨z, hz, List.mem_cons_of_mem _ hzm⟩
      exact key _ _ h1 i (List.mem_range.2 hi)
    obtain ⟨u, hxp, hxv⟩ := split_graph hp hg hs ho hsh hx
    obtain ⟨b, x', s1, s2, s3, s4, _, s5⟩ := C28_roundtrip T1 x u
      (storable_of hg hst1 hl hv u (by rw [hxp]; exact fun _ h => h) (by rw [hxp]) (by rw [hxp]))
    exact ⟨x, b, x', hx, hxm, u, hxp, s1, s2, s3, s4.trans hxp, s5⟩
  have : Nonempty Graph := ⟨g⟩
  choose! x b x' q1 q2 q3 q4 q5 q6 q7 q8 q9 using hgen
  obtain ⟨d', e1, e2, e3⟩ := splits_ok (name := name)
    (make := fun (i : ℕ) => generateSplit ps scanner order shuffle k i) (g := x) (b := b) js
    (hjs.nodup_iff.2 List.nodup_range) (fun i hi j hj => hinj i (hmem i hi) j (hmem j hj))
    (fun i hi => q1 i (hmem i hi)) (fun i hi => q5 i (hmem i hi)) d fun i hi => hf i (hmem i hi)
  have e2' : ∀ i < k, d' (name i) = some (some (b i)) := fun i hi =>
    e2 i (hjs.mem_iff.2 (List.mem_range.2 hi))
  have hd'o : d' out = none := by
    rw [e3 out fun i hi => (hout i (hmem i hi)).symm, hfo]
  -- loading the parts
  have hload : ∀ i < k, (d'.put out none).load T1 (name i) = .ok (x' i) := by
    intro i hi
    unfold Disk.load
    rw [put_ne d' (hout i hi), e2' i hi]
    exact q6 i hi
  obtain ⟨gs', l1, l2⟩ := Visgraph.mapM_ok (F := (d'.put out none).load T1) (ins.map name) (by
    intro n hn
    obtain ⟨i, hi, rfl⟩ := List.mem_map.1 hn
    exact ⟨_, hload i ((hins i).1 hi)⟩)
  have hgs' : ∀ y, y ∈ gs' ↔ ∃ i < k, y = x' i := by
    intro y
    rw [l2]
    constructor
    · rintro ⟨n, hn, he⟩
      obtain ⟨i, hi, rfl⟩ := List.mem_map.1 hn
      have hi := (hins i).1 hi
      rw [hload i hi] at he
      exact ⟨i, hi, (Except.ok.inj he).symm⟩
    · rintro ⟨i, hi, rfl⟩
      exact ⟨_, List.mem_map.2 ⟨i, (hins i).2 hi, rfl⟩, hload i hi⟩
  -- the graphs in memory
  have hgs : ∀ y ∈ gs, ∃ i < k, y = x i := by
    intro y hy
    have key : ∀ (l : List ℕ) (r : List Graph), (∀ i ∈ l, i < k) →
        l.mapM (fun (i : ℕ) => generateSplit ps scanner order shuffle k i) = .ok r →
        ∀ y ∈ r, ∃ i < k, y = x i := by
      intro l
      induction l with
      | nil =>
        intro r _ hr y hy
        obtain rfl := Except.ok.inj hr
        cases hy
      | cons a t ih =>
        intro r hlt hr y hy
        rw [List.mapM_cons, q1 a (hlt a List.mem_cons_self), Res.bind_ok] at hr
        obtain ⟨z, hz, hr⟩ := ShortestPath.bind_eq_ok hr
        obtain rfl := Except.ok.inj hr
        rcases List.mem_cons.1 hy with rfl | hy
        · exact ⟨a, hlt a List.mem_cons_self, rfl⟩
        · exact ih z (fun i hi => hlt i (List.mem_cons_of_mem _ hi)) hz y hy
    exact key _ _ (fun i hi => List.mem_range.1 hi) h1 y hy
  obtain ⟨G, G0, m1, m2, m3, m4, m5⟩ := merge_same (gs := gs') (gs' := gs) (ps := porder gs')
    (ps' := porder gs) (sch := schedule) (sch' := schedule)
    (fun y hy => by
      obtain ⟨i, hi, rfl⟩ := (hgs' y).1 hy
      exact (q7 i hi).regular.built)
    (fun y hy => by
      obtain ⟨i, hi, rfl⟩ := hgs y hy
      exact (q3 i hi).regular.built)
    (hpo _) (hpo _) hsch hsch
    (fun y hy => by
      obtain ⟨i, hi, rfl⟩ := (hgs' y).1 hy
      exact ⟨x i, q2 i hi, q9 i hi⟩)
    (fun y hy => by
      obtain ⟨i, hi, rfl⟩ := hgs y hy
      exact ⟨x' i, (hgs' _).2 ⟨i, hi, rfl⟩, q9 i hi⟩)
  obtain ⟨G1, n1, n2⟩ := h3 (porder gs) schedule (hpo _) hsch
  rw [m2] at n1
  obtain rfl := Except.ok.inj n1
  have hpoly : ∀ p, p ∈ porder gs' ↔ p ∈ ps := by
    intro p
    rw [(hpo gs').2 p]
    constructor
    · rintro ⟨y, hy, hpy⟩
      obtain ⟨i, hi, rfl⟩ := (hgs' y).1 hy
      rwa [q8 i hi] at hpy
    · intro h
      refine ⟨x' 0, (hgs' _).2 ⟨0, by omega, rfl⟩, ?_⟩
      rwa [q8 0 (by omega)]
  obtain ⟨f1, f2⟩ := flatten_le (hpo gs').1 fun p h => (hpoly p).1 h
  obtain ⟨B, G', s1, s2, s3, s4, _, s5⟩ := C28_roundtrip T2 G m3
    (storable_of hg hst2 hl hv m3 (by rw [m4]; exact fun p h => (hpoly p).1 h) (by rwa [m4])
      (by rwa [m4]))
  refine ⟨d', d'.put out (some B), G', g, e1, ?_, ?_, h2, (s5.trans m5).trans n2, s3,
    by rw [s4, m4]; exact (hpo _).1, ?_, ?_, ?_⟩
  · unfold mergeJob
    refine job_ok (g := G) hd'o ?_ s1
    rw [l1, Res.bind_ok, m1]
  · unfold Disk.load
    rw [put_self]
    exact s2
  · intro p
    rw [s4, m4]
    exact hpoly p
  · exact fun n hn => put_ne d' hn _
  · intro n hn hnk
    rw [put_ne d' hn, e3 n fun i hi => hnk i (hmem i hi)]

/-- Position `j` of the shuffled vertices belongs to split `i` and holds `a`. -/
def InSplit (vs : List Coord) (k i : ℕ) (a : Coord) : Prop :=
  ∃ (j : ℕ) (lo hi : ℤ), splitRange vs.length k i = .ok (lo, hi) ∧ lo ≤ j ∧ (j : ℤ) < hi ∧
    vs[j]? = some a

theorem sweepAll_congr {sc sc' : Coord → Res (List (Coord × Bool))} :
    ∀ (l : List Coord) (g : Graph), (∀ a ∈ l, sc a = sc' a) →
      Visgraph.sweepAll sc g l = Visgraph.sweepAll sc' g l
  | [], _, _ => rfl
  | a :: r, g, h => by
    unfold Visgraph.sweepAll
    rw [h a List.mem_cons_self]
    congr 1
    funext vis
    congr 1
    funext g1
    exact sweepAll_congr r g1 fun b hb => h b (List.mem_cons_of_mem _ hb)

/-- A split only asks for the scans of its own vertices. -/
theorem generateSplit_congr {ps : List (List Coord)} (hp : ps ≠ [])
    (hsize : ps.flatten.length < 2 ^ 64) {sc sc' : Coord → Res (List (Coord × Bool))}
    {order shuffle : List Coord → List Coord} (ho : ∀ l, (order l).Perm l)
    (hsh : ∀ l, (shuffle l).Perm l) {k i : ℕ} (hi : i < k)
    (h : ∀ a, InSplit (shuffle ps.flatten) k i a → sc a = sc' a) :
    generateSplit ps sc order shuffle k i = generateSplit ps sc' order shuffle k i := by
  obtain ⟨b, b0, bk, hm, hr⟩ := C53_partition ps.flatten.length k (by omega) (by omega)
  have g1 := hm 0 i (le_refl _) (by omega) (by omega)
  have g2 := hm i (i + 1) (by omega) (by omega) (by omega)
  have g3 := hm (i + 1) k (by omega) (by omega) (le_refl _)
  rw [b0] at g1
  rw [bk] at g3
  have hlen : (shuffle ps.flatten).length = ps.flatten.length := (hsh _).length_eq
  obtain ⟨us, h5, h6⟩ := Visgraph.slice_ok (vs := shuffle ps.flatten) (lo := (b i).toNat)
    (hi := (b (i + 1)).toNat) (by rw [hlen]; omega)
  have key : ∀ a ∈ order us, sc a = sc' a := by
    intro a ha
    obtain ⟨j, j1, j2, j3⟩ := (h6 a).1 ((ho us).mem_iff.1 ha)
    refine h a ⟨j, b i, b (i + 1), ?_, by omega, by omega, j3⟩
    rw [hlen]
    exact hr i (by omega) (by omega)
  have main : ∀ s : Coord → Res (List (Coord × Bool)),
      generateSplit ps s order shuffle k i =
        Visgraph.sweepAll s (Graph.ofPolygons ps) (order us) := by
    intro s
    unfold generateSplit
    rw [numVertices_eq ps hp, Res.bind_ok, hr i (by omega) (by omega), Res.bind_ok]
    dsimp only
    unfold toSize
    rw [if_pos (by omega), Res.bind_ok, if_pos (by omega), Res.bind_ok]
    unfold Visgraph.generateRange
    rw [Visgraph.polygonVertices_eq, if_neg (by simpa using hp), if_neg (by omega), h5]
    rfl
  rw [main, main, sweepAll_congr (order us) _ key]

/-- **C60** The parts may be generated by different processes, in which the scans of the same vertex
may give different results (`C39_segment_order_false`).  If no corner belongs to two polygons, the
merged graph still answers like a graph that could have been generated in one go. -/
theorem C60_separate (T T1 T2 : ℕ → Polygon.SumTree) (ps : List (List Coord)) (hp : ps ≠ [])
    (hnd : ps.flatten.Nodup)
    (hg : ∀ v ∈ ps.flatten, v.Geo) (hst1 : ∀ p ∈ ps, Serial.polygonC T1 p = .ok p)
    (hst2 : ∀ p ∈ ps, Serial.polygonC T2 p = .ok p)
    (hl : ps.length < 2 ^ 64) (hv : ps.flatten.length < 2 ^ 32) (k : ℕ) (hk : 1 ≤ k)
    (sc : ℕ → Coord → Res (List (Coord × Bool))) (hs : ∀ i < k, Visgraph.IsScanner T ps (sc i))
    (order shuffle : List Coord → List Coord) (ho : ∀ l, (order l).Perm l)
    (hsh : ∀ l, (shuffle l).Perm l)
    (porder : List Graph → List (List Coord)) (hpo : ∀ gs, Graph.MergeOrder gs (porder gs))
    (schedule : List Graph.Op → List Graph.Op) (hsch : ∀ l, (schedule l).Perm l)
    (d : Disk N) (name : ℕ → N) (hinj : ∀ i < k, ∀ j < k, name i = name j → i = j) (out : N)
    (hout : ∀ i < k, name i ≠ out) (hf : ∀ i < k, d (name i) = none) (hfo : d out = none)
    (js ins : List ℕ) (hjs : js.Perm (List.range k)) (hins : ∀ i, i ∈ ins ↔ i < k) :
    ∃ scanner, Visgraph.IsScanner T ps scanner ∧ ∃ d' d'' G g,
      runJobs d (js.map fun (i : ℕ) => splitJob ps (sc i) order shuffle k i (name i)) =
        (.ok (), d') ∧
      mergeJob T1 porder schedule (ins.map name) out d' = (.ok (), d'') ∧
      d''.load T2 out = .ok G ∧ Visgraph.generate ps scanner order = .ok g ∧ SameAnswers G g ∧
      UserGraph G ∧ G.polygons.Nodup ∧ (∀ p, p ∈ G.polygons ↔ p ∈ ps) := by
  classical
  set vs := shuffle ps.flatten with hvs
  have hvn : vs.Nodup := (hsh _).nodup_iff.2 hnd
  have uniq : ∀ a i i', i < k → i' < k → InSplit vs k i a → InSplit vs k i' a → i = i' := by
    rintro a i i' hi hi' ⟨j, lo, hi2, h1, h2, h3, h4⟩ ⟨j', lo', hi2', h1', h2', h3', h4'⟩
    have hj : j < vs.length := by
      by_contra hc
      rw [List.getElem?_eq_none (by omega)] at h4
      cases h4
    obtain rfl : j = j' := (List.getElem?_inj hj hvn).1 (h4.trans h4'.symm)
    have := (C53_exactly_one vs.length k (by omega) j (by omega) (by omega)).unique
      ⟨by omega, by omega, lo, hi2, h1, h2, h3⟩ ⟨by omega, by omega, lo', hi2', h1', h2', h3'⟩
    exact_mod_cast this
  let scanner : Coord → Res (List (Coord × Bool)) := fun a =>
    if h : ∃ i, i < k ∧ InSplit vs k i a then sc (Classical.choose h) a else sc 0 a
  have hscan : Visgraph.IsScanner T ps scanner := by
    intro a
    by_cases h : ∃ i, i < k ∧ InSplit vs k i a
    · have e : scanner a = sc (Classical.choose h) a := dif_pos h
      rw [e]
      exact hs _ (Classical.choose_spec h).1 a
    · have e : scanner a = sc 0 a := dif_neg h
      rw [e]
      exact hs 0 hk a
  have hsame : ∀ i, i < k → ∀ a, InSplit vs k i a → sc i a = scanner a := by
    intro i hi a ha
    have h : ∃ i, i < k ∧ InSplit vs k i a := ⟨i, hi, ha⟩
    have e : scanner a = sc (Classical.choose h) a := dif_pos h
    rw [e, uniq a i _ hi (Classical.choose_spec h).1 ha (Classical.choose_spec h).2]
  obtain ⟨d', d'', G, g, h1, h2, h3, h4, h5, h6, h7, h8, -⟩ := C60_pipeline T T1 T2 ps hp hg hst1 hst2 hl hv
    scanner hscan order shuffle ho hsh k hk porder hpo schedule hsch d name hinj out hout hf hfo js ins hjs hins
  refine ⟨scanner, hscan, d', d'', G, g, ?_, h2, h3, h4, h5, h6, h7, h8⟩
  rw [← h1]
  congr 1
  refine List.map_congr_left fun i hi => ?_
  have hi : i < k := List.mem_range.1 (hjs.mem_iff.1 hi)
  unfold splitJob
  rw [generateSplit_congr hp (by omega) ho hsh hi (hsame i hi)]

/-- **C60** The same for a graph generated in one go. -/
theorem C60_single (T : ℕ → Polygon.SumTree) (ps : List (List Coord))
    (hg : ∀ v ∈ ps.flatten, v.Geo) (hst : ∀ p ∈ ps, Serial.polygonC T p = .ok p)
    (hl : ps.length < 2 ^ 64) (hv : ps.flatten.length < 2 ^ 32)
    (scanner : Coord → Res (List (Coord × Bool))) (hs : Visgraph.IsScanner T ps scanner)
    (order : List Coord → List Coord) (ho : ∀ l, (order l).Perm l) (d : Disk N) (out : N)
    (hfo : d out = none) :
    ∃ d' G g, generateJob ps scanner order out d = (.ok (), d') ∧ d'.load T out = .ok G ∧
      Visgraph.generate ps scanner order = .ok g ∧ SameAnswers G g ∧ UserGraph G ∧
      G.polygons = ps := by
  obtain ⟨f, hf, hon, _⟩ := hs.answers hg
  have hmem : ∀ a, a ∈ order ps.flatten ↔ a ∈ ps.flatten := fun a => (ho _).mem_iff
  obtain ⟨g, h1, h2, h3, _, _⟩ := Visgraph.run_opsOf hon (us := order ps.flatten)
    fun a ha => (hmem a).1 ha
  have hgen : Visgraph.generate ps scanner order = .ok g := by
    unfold Visgraph.generate
    rw [Visgraph.polygonVertices_eq, Visgraph.sweepAll_run _ fun a ha => hf a ((hmem a).1 ha), h1]
  obtain ⟨b, x', s1, s2, s3, s4, _, s5⟩ := C28_roundtrip T g h2
    (storable_of hg hst hl hv h2 (by rw [h3]; exact fun _ h => h) (by rw [h3]) (by rw [h3]))
  refine ⟨_, x', g, job_ok hfo hgen s1, ?_, hgen, s5, s3, s4.trans h3⟩
  unfold Disk.load
  rw [put_self]
  exact s2

/-- **C60** An existing output name is refused and nothing is changed. -/
theorem C60_no_overwrite (d : Disk N) (out : N) (make : Disk N → Res Graph) (h : d out ≠ none) :
    d.job out make = (.error .exn, d) := by
  unfold Disk.job Disk.mkdir
  cases hd : d out with
  | none => exact absurd hd h
  | some c => rfl

/-- **C60** (a weakness) A merge that fails, for instance because a part is missing, leaves its
output folder behind, so that the merge cannot be repeated after the part has been supplied. -/
theorem C60_failed_merge_blocks (T : ℕ → Polygon.SumTree) (porder : List Graph → List (List Coord))
    (schedule : List Graph.Op → List Graph.Op) (d : Disk N) (out part : N) (h : d out = none)
    (hp : d part = none) (rest : List N) :
    ∃ d', mergeJob T porder schedule (part :: rest) out d = (.error .exn, d') ∧
      ∀ b : Serial.Buf, part ≠ out →
        mergeJob T porder schedule (part :: rest) out (d'.put part (some b)) =
          (.error .exn, d'.put part (some b)) := by
  have hm : d.mkdir out = .ok (d.put out none) := by
    unfold Disk.mkdir; rw [h]
  have hl : (d.put out none).load T part = .error .exn := by
    unfold Disk.load
    by_cases hpo : part = out
    · subst hpo; rw [put_self]
    · rw [put_ne d hpo, hp]
  refine ⟨d.put out none, ?_, fun b hne => ?_⟩
  · unfold mergeJob Disk.job
    rw [hm]
    dsimp only
    rw [List.mapM_cons, hl]
    rfl
  · refine C60_no_overwrite _ _ _ ?_
    rw [put_ne _ fun h => hne h.symm, put_self]
    simp

/-- Non-vacuity of C60: one triangle, two parts, an empty disk with numbered folders. -/
example : ∃ (d'' : Disk ℕ) (G g : Graph), d''.load Polygon.SumTree.sequential 2 = .ok G ∧
    Visgraph.generate [exTriangle] (exScanner Polygon.SumTree.sequential [exTriangle]) id = .ok g ∧
    SameAnswers G g := by
  obtain ⟨_, d'', G, g, _, _, h1, h2, h3, _⟩ := C60_pipeline Polygon.SumTree.sequential
    Polygon.SumTree.sequential Polygon.SumTree.sequential [exTriangle]
    (by decide) (by decide) (by decide +kernel) (by decide +kernel) (by decide) (by decide) _ (exScanner_ok _ _) id id
    (fun _ => .refl _) (fun _ => .refl _) 2 (by decide)
    (fun gs => (gs.flatMap Graph.polygons).dedup)
    (fun gs => ⟨List.nodup_dedup _, fun p => by rw [List.mem_dedup, List.mem_flatMap]⟩) id
    (fun _ => .refl _) (fun _ => none) id (fun _ _ _ _ h => h) 2 (by decide) (by simp) rfl
    [1, 0] [0, 1] (by decide) (by intro i; simp; omega)
  exact ⟨d'', G, g, h1, h2, h3⟩

end Capi
