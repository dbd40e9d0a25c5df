import Verif.Model.Binary64
import Verif.Model.Visgraph

/-!
# The progress bar of the generation

`cpp_libs/indicators/include/indicators/progress_bar.hpp` (cited as `bar`) and
`details/stream_helper.hpp` (cited as `helper`), with the options set in visgraph_generator.cpp:27-41:
width 50, `=`, `>` and blank as cells, elapsed and remaining time shown.  Only the thread with number
0 uses the bar.  Simplifications: of a line printed only the 50 cells and whether it ends the line are
kept; the cells have display width 1; colours, padding to the width of the terminal and the digits of
the times are left out; the counter does not wrap round.
-/

namespace Capi

/-- Rounding to 24 digits with last place at least `2 ^ -149`. -/
def round32 (q : ℚ) : ℚ :=
  if q = 0 then 0
  else
    let u : ℚ := 2 ^ (max (Int.log 2 |q| - 23) (-149))
    rne (q / u) * u

/-- Rounding to binary32 (`float`): infinite from `2^128` on, after rounding. -/
def fl32 (q : ℚ) : F64 :=
  if 2 ^ 128 ≤ |round32 q| then .inf (decide (round32 q < 0)) else .fin (round32 q)

namespace F64

/-- Conversion to `float`. -/
def toFloat : F64 → F64
  | fin q => fl32 q
  | x => x

/-- `x * y` for floats. -/
def mulFloat : F64 → F64 → F64
  | fin a, fin b => fl32 (a * b)
  | x, y => x.mul y

/-- `x / y` for floats. -/
def divFloat : F64 → F64 → F64
  | fin a, fin b => if b = 0 then (F64.div (fin a) (fin b)) else fl32 (a / b)
  | x, y => x.div y

/-- `static_cast<size_t>(x)`: truncation, undefined outside the range. -/
def toSize : F64 → Res ℕ
  | fin q => if -1 < q ∧ q < 2 ^ 64 then .ok (truncZ q).toNat else .error .ub
  | _ => .error .ub

/-- `static_cast<long long>(std::ceil(x))` -/
def ceilLong : F64 → Res ℤ
  | fin q => chk64 ⌈q⌉
  | _ => .error .ub

end F64

namespace Progress

/-- helper 110-131, first part: `static_cast<size_t>(progress * bar_width / 100.0)` for
`double(progress_) / double(max_progress) * 100.0f` (bar 325) passed as a `float`. -/
def pos (progress max : ℕ) : Res ℕ :=
  let percent := (((fl64 progress).div (fl64 max)).mul (.fin 100)).toFloat
  ((percent.mulFloat (.fin 50)).div (.fin 100)).toSize

/-- helper 141-167: the cells written for a position. -/
def cells (pos : ℕ) : List Char :=
  (List.range 50).map fun i => if i < pos then '=' else if i = pos then '>' else ' '

/-- bar 258-264: the time remaining, from the time elapsed in nanoseconds. -/
def remaining (progress max : ℕ) (elapsed : ℤ) : Res ℤ := do
  let eta ← if 0 < progress then
      (((fl32 elapsed).mulFloat (fl32 max)).divFloat (fl32 progress)).ceilLong
    else pure 0
  chk64 (if eta > elapsed then eta - elapsed else elapsed - eta)

/-- bar 194-200, as far as it matters here.  `elapsed_` has no initial value. -/
structure Bar where
  progress : ℕ
  max : ℕ
  started : Bool
  elapsed : Option ℤ
  completed : Bool

/-- A line printed: the cells, and whether it ends with a line break. -/
structure Frame where
  cells : List Char
  newline : Bool
  deriving DecidableEq

/-- bar 283-355 `print_progress`; `now` is the time since the start, in nanoseconds. -/
def print (b : Bar) (now : ℤ) : Res (Bar × Frame) := do
  let b1 := if b.completed then b else { b with elapsed := some now }
  let k ← pos b1.progress b1.max
  if b1.started then
    match b1.elapsed with
    | some e => let _ ← remaining b1.progress b1.max e
    | none => .error .ub
  let done := b1.completed || decide (b1.max ≤ b1.progress)
  return ({ b1 with completed := done }, ⟨cells k, done⟩)

/-- bar 154-165 `tick`, with `save_start_time` (bar 206-217). -/
def tick (b : Bar) (now : ℤ) : Res (Bar × Frame) :=
  print { b with progress := b.progress + 1, started := true } now

/-- bar 178-181 `mark_as_completed`. -/
def finish (b : Bar) (now : ℤ) : Res (Bar × Frame) := print { b with completed := true } now

/-- The ticks of one thread, at the given times. -/
def ticks (b : Bar) : List ℤ → Res (Bar × List Frame)
  | [] => .ok (b, [])
  | t :: r => do
    let (b1, f) ← tick b t
    let (b2, fs) ← ticks b1 r
    return (b2, f :: fs)

/-- visgraph_generator.cpp:26-66: the bar during the generation for `n` vertices by `threads` threads,
of which the one with number 0 handles as many vertices as there are times given. -/
def run (n threads : ℕ) (times : List ℤ) (last : ℤ) : Res (List Frame) := do
  let (b, fs) ← ticks ⟨0, n / threads, false, none, false⟩ times
  let (_, f) ← finish b last
  return fs ++ [f]

/-- visgraph_generator.cpp:19-69 `generate` with its bar. -/
def generate (ps : List (List Coord)) (scanner : Coord → Res (List (Coord × Bool)))
    (order : List Coord → List Coord) (threads : ℕ) (times : List ℤ) (last : ℤ) :
    Res (Graph × List Frame) := do
  let g ← Visgraph.generate ps scanner order
  let fs ← run (Visgraph.polygonVertices ps).length threads times last
  return (g, fs)

end Progress

end Capi
