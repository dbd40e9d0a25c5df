import Verif.Model.Coordinate
import Mathlib.Algebra.BigOperators.Group.List.Basic
import Mathlib.Algebra.BigOperators.Intervals

/-!
# The format of graph files

A file begins with the number of rings and the rings, each as the number of its corners followed by
their longitudes and latitudes.  Behind them there is a row of bits for every vertex, and then a
number followed by as many numbers of edges.
-/

namespace Capi

namespace File

/-- The `k` bytes of a number, the lowest first. -/
def bytesOf (k x : ℕ) : List (BitVec 8) := (List.range k).map fun i => BitVec.ofNat 8 (x / 256 ^ i)

/-- A signed number in two's complement. -/
def bytesOfInt (x : ℤ) : List (BitVec 8) := bytesOf 4 (x % 2 ^ 32).toNat

def ringBytes (r : List Coord) : List (BitVec 8) :=
  bytesOf 8 r.length ++ r.flatMap fun c => bytesOfInt c.lon ++ bytesOfInt c.lat

def headBytes (rs : List (List Coord)) : List (BitVec 8) :=
  bytesOf 8 rs.length ++ rs.flatMap ringBytes

/-- Bytes taken by the rows of `n` vertices: one bit for every earlier vertex. -/
def rowBytes (n : ℕ) : ℕ := ∑ i ∈ Finset.range n, (i + 7) / 8

/-- The file begins with the rings `rs`, and behind the rows of `n` vertices it has room for as many
numbers as it announces there. -/
structure Layout (b : List (BitVec 8)) (rs : List (List Coord)) (n : ℕ) : Prop where
  rings : headBytes rs <+: b
  numbers : ∃ count < 2 ^ 64,
    bytesOf 8 count <+: b.drop ((headBytes rs).length + rowBytes n) ∧
    (headBytes rs).length + rowBytes n + 8 + 8 * count ≤ b.length

/-- Rings that can be written into a file. -/
def Writable (rs : List (List Coord)) : Prop :=
  rs.length < 2 ^ 64 ∧ ∀ r ∈ rs, r.length < 2 ^ 64 ∧ ∀ c ∈ r, c.Wf

/-- From `a` to `b` there is a difference that fits an `int32_t`, and so does `-a`. -/
def StepFits (a b : Coord) : Prop :=
  FitsI32 (-a.lon) ∧ FitsI32 (-a.lat) ∧ FitsI32 (b.lon - a.lon) ∧ FitsI32 (b.lat - a.lat)

/-- So it is for every corner and the next one. -/
def RingFits (r : List Coord) : Prop :=
  ∀ i < r.length, StepFits (r.getD i default) (r.getD ((i + 1) % r.length) default)

instance (a b : Coord) : Decidable (StepFits a b) := by unfold StepFits; infer_instance

instance (r : List Coord) : Decidable (RingFits r) := by unfold RingFits; infer_instance

end File

end Capi
