import Verif.Model.Batch
import Verif.Model.Frontend
import Verif.Model.Merge

/-!
# Texts: `__repr__`, error messages and warnings

The texts of coordinates, polygons and of the errors of queries, and the Python loop that turns
the errors of a batch into warnings.  `fmtD` is `fmt::format("{}", double)`, see `Graph.FmtOk`.
The text of an exception thrown outside shortest_path_computer.cpp and
spatial_segment_index.cpp is a parameter `other`.
-/

namespace Capi

/-- coordinate.cpp:155-157 `to_string_representation`, `__repr__` in Python (bindings.cpp:33). -/
def Coord.text (fmtD : ℚ → List Char) (c : Coord) : List Char :=
  '(' :: (fmtD c.lonDeg ++ ',' :: (fmtD c.latDeg ++ [')']))

/-- polygon.cpp:124-130: the loop at index `i` of `n`; `n - 1` is computed in `size_t`. -/
def Polygon.textLoop (fmtD : ℚ → List Char) (n : ℕ) : ℕ → List Coord → List Char
  | _, [] => []
  | i, c :: r =>
    c.text fmtD ++ ((if i < (n + (2 ^ 64 - 1)) % 2 ^ 64 then [',', ' '] else []) ++
      Polygon.textLoop fmtD n (i + 1) r)

/-- polygon.cpp:120-134 `to_string_representation` of a polygon with the stored vertices `vs`. -/
def Polygon.text (fmtD : ℚ → List Char) (vs : List Coord) : List Char :=
  "Polygon (".toList ++ (Polygon.textLoop fmtD vs.length 0 vs ++ [')'])

/-- An operation failed: undefined behaviour, or an exception with what `what()` returns. -/
inductive Failure where
  | ub
  | exn (what : List Char)
  deriving DecidableEq

/-- Forget the text. -/
def Failure.fault : Failure → Fault
  | .ub => .ub
  | .exn _ => .exn

/-- Attach the text `t` to an exception. -/
def Res.say {α : Type} (t : List Char) : Res α → Except Failure α
  | .ok a => .ok a
  | .error .ub => .error .ub
  | .error .exn => .error (.exn t)

/-- Forget the text. -/
def Res.hush {α : Type} : Except Failure α → Res α
  | .ok a => .ok a
  | .error f => .error f.fault

namespace ShortestPath

/-- shortest_path_computer.cpp:181-185. -/
def landText (fmtD : ℚ → List Char) (s d : Coord) : List Char :=
  "Either the source or the destination are on land. Source: ".toList ++ (s.text fmtD ++
    (". Destination: ".toList ++ (d.text fmtD ++ ".".toList)))

/-- shortest_path_computer.cpp:106-117. -/
def stuckText (fmtD : ℚ → List Char) (at_ s d cs cd : Coord) : List Char :=
  "Could not find a shortest path. Got stuck on ".toList ++ (at_.text fmtD ++
    (". Source: ".toList ++ (s.text fmtD ++ (". Destination: ".toList ++ (d.text fmtD ++
      (". Corrected Source: ".toList ++ (cs.text fmtD ++
        (". Corrected Destination: ".toList ++ (cd.text fmtD ++ ". ".toList)))))))))

/-- spatial_segment_index.cpp:51. -/
def closestText : List Char := "No results found in closest_segment_to_point".toList

/-- shortest_path_computer.cpp:190-194, 195-199: one endpoint. -/
def correctOneT (other : List Char) (E : Env) (v : Coord) :
    Except Failure (Coord × Option Seg) :=
  if E.onLand v then do
    let s ← Res.say closestText (E.closest v)
    let c ← Res.say other (E.project s v)
    return (c, some s)
  else .ok (v, none)

/-- shortest_path_computer.cpp:174-209 `handle_land_collisions`. -/
def correctT (fmtD : ℚ → List Char) (other : List Char) (E : Env) (s d : Coord) (allow : Bool) :
    Except Failure Correction :=
  if !allow && (E.onLand s || E.onLand d) then .error (.exn (landText fmtD s d))
  else do
    let a ← correctOneT other E s
    let b ← correctOneT other E d
    return ⟨a.1, b.1, a.2, b.2⟩

/-- shortest_path_computer.cpp:29-50: what happens before the search. -/
def prepareT (fmtD : ℚ → List Char) (other : List Char) (E : Env) (s d : Coord) (allow : Bool) :
    Except Failure (List Coord ⊕ (Net × Correction)) := do
  let ns ← Res.say other (normalizeC s)
  let nd ← Res.say other (normalizeC d)
  let c ← correctT fmtD other E ns nd allow
  if (blocking E c).length = 0 then return .inl [c.src, c.dst]
  let N ← Res.say other (net E c)
  return .inr (N, c)

/-- shortest_path_computer.cpp:102-121: following the predecessors; the error is the node that has
none, `curr_node`. -/
def followT {V : Type} [DecidableEq V] (src : V) (prev : V → Option V) :
    ℕ → V → Option (Except V (List V))
  | 0, _ => none
  | k + 1, c =>
    if c = src then some (.ok [src])
    else match prev c with
      | none => some (.error c)
      | some d => (followT src prev k d).map fun r => r.map (c :: ·)

variable {D : Type} [LinearOrder D]

/-- shortest_path_computer.cpp:25-126 `shortest_path` with the texts of its errors.  Note that the
endpoints named by `stuckText` are those given and those named by `landText` the normalised ones. -/
def QueryT (fmtD : ℚ → List Char) (other : List Char) (A : Arith D) (E : Env) (s d : Coord)
    (allow : Bool) (r : Except Failure (List Coord)) : Prop :=
  match prepareT fmtD other E s d allow with
  | .error f => r = .error f
  | .ok (.inl p) => r = .ok p
  | .ok (.inr (N, c)) =>
    ∃ st k r', AStar.Ends (problem A E.ord N c.src c.dst) st ∧
      followT c.src st.prev k c.dst = some r' ∧
      r = match r' with
        | .ok p => .ok p.reverse
        | .error v => .error (.exn (stuckText fmtD v s d c.src c.dst))

/-- shortest_path_computer.hpp:20-23 `BatchInterpolateResult`. -/
structure BatchResultT where
  path : Option (List Coord)
  error : Option (List Char)
  deriving DecidableEq

/-- shortest_path_computer.cpp:138-155. -/
def slotT : Except Failure (List Coord) → Res BatchResultT
  | .ok p => .ok ⟨some p, none⟩
  | .error (.exn t) => .ok ⟨none, some t⟩
  | .error .ub => .error .ub

/-- shortest_path_computer.cpp:137-156: the iterations in the given order. -/
def runBatchT (outs : ℕ → Except Failure (List Coord)) :
    List ℕ → List BatchResultT → Res (List BatchResultT)
  | [], acc => .ok acc
  | i :: r, acc => do
    let b ← slotT (outs i)
    runBatchT outs r (acc.set i b)

/-- shortest_path_computer.cpp:128-159 `shortest_paths` with the texts of the errors. -/
def BatchT (fmtD : ℚ → List Char) (other : List Char) (A : Arith D) (E : Env)
    (qs : List (Coord × Coord)) (allow : Bool) (r : Res (List BatchResultT)) : Prop :=
  ∃ (order : List ℕ) (outs : ℕ → Except Failure (List Coord)),
    order.Perm (List.range qs.length) ∧
    (∀ i q, qs[i]? = some q → QueryT fmtD other A E q.1 q.2 allow (outs i)) ∧
    r = runBatchT outs order (List.replicate qs.length ⟨none, none⟩)

end ShortestPath

namespace Frontend

open ShortestPath

/-- The `__warningregistry__` of path_interpolator.py and what was shown so far.  Under Python's
default filters a `UserWarning` is shown unless one with the same text was shown for the same
line before. -/
structure Warned where
  registry : List (List Char)
  shown : List (List Char)
  deriving DecidableEq

/-- `warnings.warn(text)`. -/
def Warned.warn (w : Warned) (t : List Char) : Warned :=
  if t ∈ w.registry then w else ⟨t :: w.registry, w.shown ++ [t]⟩

/-- path_interpolator.py:93: the text of a warning. -/
def warningText (t : List Char) : List Char := "CAPI Batch Interpolate: ".toList ++ t

/-- path_interpolator.py:90-98: the loop over the results, with its warnings. -/
def reportResults : List BatchResultT → Warned → Res (List (Option (List (ℚ × ℚ))) × Warned)
  | [], w => .ok ([], w)
  | b :: r, w =>
    match b.error with
    | some t => do
      let (rest, w') ← reportResults r (w.warn (warningText t))
      return (none :: rest, w')
    | none =>
      match b.path with
      | none => .error .exn
      | some p => do
        let (rest, w') ← reportResults r w
        return (some (toDegrees p) :: rest, w')

variable {D : Type} [LinearOrder D]

/-- path_interpolator.py:43-60, 79-98 `batch_interpolate` with its warnings; `w` is what was shown
before. -/
def BatchInterpolateT (fmtD : ℚ → List Char) (other : List Char) (A : Arith D) (E : Env)
    (qs : List ((ℚ × ℚ) × (ℚ × ℚ))) (allow : Bool) (w : Warned)
    (r : Res (List (Option (List (ℚ × ℚ))) × Warned)) : Prop :=
  match (qs.mapM fun q => (do
    let a ← Coord.ofDegreesC q.1.1 q.1.2
    let b ← Coord.ofDegreesC q.2.1 q.2.2
    return (a, b) : Res (Coord × Coord))) with
  | .error f => r = .error f
  | .ok cs => ∃ x, BatchT fmtD other A E cs allow x ∧ r = x >>= fun bs => reportResults bs w

end Frontend

end Capi
