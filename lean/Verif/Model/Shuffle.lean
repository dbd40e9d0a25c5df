import Verif.Model.Disk

/-!
# `std::mt19937` and `std::shuffle` (code/visgraph/visgraph_generator.cpp:84-85)

`generate_with_shuffled_range` shuffles the vertices with a seeded generator.  The generator is fixed
by the C++ standard, the shuffle is not; what follows is libstdc++'s (bits/random.tcc,
bits/stl_algo.h, bits/uniform_int_dist.h), whose version 11 changed how numbers are scaled down.  The
engine is the sequence of its outputs with the number of outputs used.  The loops that draw again
are run for a given number of rounds, `none` standing for more.  Lists of `2 ^ 32` and more elements
are left out, and so are other standard libraries.
-/

namespace Capi

namespace Shuffle

/-! ### `std::mt19937` -/

/-- random.tcc:326-343 `seed`: the word with a given index. -/
def word (seed : ℕ) : ℕ → ℕ
  | 0 => seed % 2 ^ 32
  | i + 1 => ((word seed i ^^^ word seed i >>> 30) * 1812433253 + (i + 1)) % 2 ^ 32

/-- random.tcc:401-405: what two neighbouring words contribute. -/
def mix (u v : ℕ) : ℕ :=
  let y := (u &&& 0x80000000) ||| (v &&& 0x7fffffff)
  (y >>> 1) ^^^ (if y &&& 1 = 1 then 0x9908b0df else 0)

/-- random.tcc:399-405: the first loop, `k < 227`. -/
def low (x : ℕ → ℕ) (k : ℕ) : ℕ := x (k + 397) ^^^ mix (x k) (x (k + 1))

/-- random.tcc:407-413: the second loop while it reads what the first one wrote, `k < 454`. -/
def mid (x : ℕ → ℕ) (k : ℕ) : ℕ := low x (k - 227) ^^^ mix (x k) (x (k + 1))

/-- random.tcc:407-413: the rest of the second loop, `k < 623`. -/
def high (x : ℕ → ℕ) (k : ℕ) : ℕ := mid x (k - 227) ^^^ mix (x k) (x (k + 1))

/-- random.tcc:393-420 `_M_gen_rand`: all words replaced. -/
def twist (x : ℕ → ℕ) (k : ℕ) : ℕ :=
  if k < 227 then low x k
  else if k < 454 then mid x k
  else if k < 623 then high x k
  else mid x 396 ^^^ mix (x 623) (low x 0)

/-- random.tcc:456-460: the scrambling of a word. -/
def temper (z : ℕ) : ℕ :=
  let z := z ^^^ z >>> 11
  let z := z ^^^ (z <<< 7 &&& 0x9d2c5680)
  let z := z ^^^ (z <<< 15 &&& 0xefc60000)
  z ^^^ z >>> 18

/-- The words after the state has been renewed `b` times. -/
def words (seed : ℕ) : ℕ → ℕ → ℕ
  | 0 => word seed
  | b + 1 => twist (words seed b)

/-- random.tcc:447-463 `operator()`: output number `i`. -/
def mt19937 (seed i : ℕ) : ℕ := temper (words seed (i / 624 + 1) (i % 624))

/-! ### `std::uniform_int_distribution` -/

/-- How numbers are scaled down: up to version 10 of libstdc++ and from version 11 on. -/
inductive Lib
  | upTo10
  | from11
  deriving DecidableEq, Repr

/-- The number below `e` made of an output `r`, unless another one is needed.  Version 10 and before:
uniform_int_dist.h, "fallback case", with ranges of 32 bits, too.  From version 11: `_S_nd`
(uniform_int_dist.h:255-279) with products of 64 bits. -/
def scale : Lib → ℕ → ℕ → Option ℕ
  | .upTo10, e, r =>
    let scaling := (2 ^ 32 - 1) / e
    if r < e * scaling then some (r / scaling) else none
  | .from11, e, r =>
    let product := r * e
    if product % 2 ^ 32 < e ∧ product % 2 ^ 32 < (2 ^ 32 - e) % e then none
    else some (product / 2 ^ 32)

/-- uniform_int_dist.h:281-340 `operator()`: a number below `e` from the outputs `g` from number `i` on,
and the number of outputs used.  Only the branch for ranges below that of the generator. -/
def pick (lib : Lib) (g : ℕ → ℕ) (e : ℕ) : ℕ → ℕ → Option (ℕ × ℕ)
  | 0, _ => none
  | fuel + 1, i =>
    if e < 2 ^ 32 then
      match scale lib e (g i) with
      | some v => some (v, i + 1)
      | none => pick lib g e fuel (i + 1)
    else none

/-! ### `std::shuffle` -/

/-- `std::iter_swap`; a position outside is undefined. -/
def swap {α : Type} (l : List α) (i j : ℕ) : Res (List α) :=
  match l[i]?, l[j]? with
  | some a, some b => .ok ((l.set i b).set j a)
  | _, _ => .error .ub

/-- stl_algo.h:3787-3796: `m` rounds of the loop over pairs, from position `p` on; `i` outputs are used
up. -/
def pairs {α : Type} (lib : Lib) (g : ℕ → ℕ) (fuel : ℕ) :
    ℕ → ℕ → ℕ → List α → Option (Res (List α))
  | 0, _, _, l => some (.ok l)
  | m + 1, p, i, l =>
    match pick lib g ((p + 1) * (p + 2)) fuel i with
    | none => none
    | some (x, i') =>
      match swap l p (x / (p + 2)) >>= fun l => swap l (p + 1) (x % (p + 2)) with
      | .error f => some (.error f)
      | .ok l' => pairs lib g fuel m (p + 2) i' l'

/-- stl_algo.h:3803-3804: `m` rounds of the loop over single elements. -/
def singles {α : Type} (lib : Lib) (g : ℕ → ℕ) (fuel : ℕ) :
    ℕ → ℕ → ℕ → List α → Option (Res (List α))
  | 0, _, _, l => some (.ok l)
  | m + 1, p, i, l =>
    match pick lib g (p + 1) fuel i with
    | none => none
    | some (x, i') =>
      match swap l p x with
      | .error f => some (.error f)
      | .ok l' => singles lib g fuel m (p + 1) i' l'

/-- stl_algo.h:3742-3805 `std::shuffle`. -/
def shuffleFor {α : Type} (lib : Lib) (g : ℕ → ℕ) (fuel : ℕ) (l : List α) :
    Option (Res (List α)) :=
  let n := l.length
  if n = 0 then some (.ok l)
  else if n ≤ (2 ^ 32 - 1) / n then
    if n % 2 = 0 then
      match pick lib g 2 fuel 0 with
      | none => none
      | some (x, i) =>
        match swap l 1 x with
        | .error f => some (.error f)
        | .ok l' => pairs lib g fuel ((n - 2) / 2) 2 i l'
    else pairs lib g fuel ((n - 1) / 2) 1 0 l
  else singles lib g fuel (n - 1) 1 0 l

end Shuffle

/-! ### The callers -/

namespace Visgraph

/-- visgraph_generator.cpp:71-96 `generate_with_shuffled_range` with the shuffle as it is. -/
def generateSeeded (lib : Shuffle.Lib) (fuel : ℕ) (ps : List (List Coord))
    (scanner : Coord → Res (List (Coord × Bool))) (order : List Coord → List Coord)
    (lo hi seed : ℕ) : Option (Res Graph) :=
  let vs := polygonVertices ps
  let g := Graph.ofPolygons ps
  if ps.isEmpty then some (.ok g)
  else if hi > vs.length ∨ lo > hi then some (.error .exn)
  else
    match Shuffle.shuffleFor lib (Shuffle.mt19937 seed) fuel vs with
    | none => none
    | some r => some do
      let us ← r
      let chosen ← slice us lo hi
      sweepAll scanner g (order chosen)

end Visgraph

namespace Frontend

/-- pybind11 converts an `int` to `unsigned int`; a negative or too large one raises. -/
def toSeed (x : ℤ) : Res ℕ := if 0 ≤ x ∧ x < 2 ^ 32 then .ok x.toNat else .error .exn

/-- graph_generator.py:34-51 `generate_for_vertex_range` without files, with a seed. -/
def generateSplitSeeded (lib : Shuffle.Lib) (fuel : ℕ) (ps : List (List Coord))
    (scanner : Coord → Res (List (Coord × Bool))) (order : List Coord → List Coord)
    (k i seed : ℤ) : Option (Res Graph) :=
  match (do
    let n ← numVertices ps
    let r ← splitRange n k i
    let lo ← toSize r.1
    let hi ← toSize r.2
    let s ← toSeed seed
    return (lo, hi, s) : Res (ℕ × ℕ × ℕ)) with
  | .error f => some (.error f)
  | .ok (lo, hi, s) => Visgraph.generateSeeded lib fuel ps scanner order lo hi s

end Frontend

end Capi
