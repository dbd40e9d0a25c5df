import Verif.Model.Frontend
import Verif.Model.Project

/-!
# Doubles with their range

The rest of the model rounds with `fl`, which knows no overflow, subnormals, infinities or NaN.  Here
are the expressions of the code on full IEEE-754 binary64 values.  Simplification: the two zeros are
one value, so that a division by zero has the sign of the numerator.
-/

namespace Capi

/-- A binary64 value. -/
inductive F64 where
  | nan
  /-- an infinity; `true` for the negative one -/
  | inf (neg : Bool)
  | fin (q : ℚ)
  deriving DecidableEq

/-- Rounding to binary64: subnormals have the exponent `-1074`, and from `2^1024` on (after
rounding) the result is infinite. -/
def fl64 (q : ℚ) : F64 :=
  if q = 0 then .fin 0
  else
    let u : ℚ := 2 ^ (max (Int.log 2 |q| - 52) (-1074))
    let r := rne (q / u) * u
    if 2 ^ 1024 ≤ |r| then .inf (decide (r < 0)) else .fin r

namespace F64

/-- `-x` -/
def neg : F64 → F64
  | nan => nan
  | inf s => inf (!s)
  | fin q => fin (-q)

/-- `x + y` -/
def add : F64 → F64 → F64
  | nan, _ => nan
  | _, nan => nan
  | inf s, inf t => if s = t then inf s else nan
  | inf s, fin _ => inf s
  | fin _, inf t => inf t
  | fin a, fin b => fl64 (a + b)

/-- `x - y` -/
def sub (x y : F64) : F64 := x.add y.neg

/-- Infinity times a finite number. -/
def infMul (s : Bool) (q : ℚ) : F64 := if q = 0 then nan else inf (s ^^ decide (q < 0))

/-- `x * y` -/
def mul : F64 → F64 → F64
  | nan, _ => nan
  | _, nan => nan
  | inf s, inf t => inf (s ^^ t)
  | inf s, fin q => infMul s q
  | fin q, inf s => infMul s q
  | fin a, fin b => fl64 (a * b)

/-- `x / y` -/
def div : F64 → F64 → F64
  | nan, _ => nan
  | _, nan => nan
  | inf _, inf _ => nan
  | inf s, fin q => inf (s ^^ decide (q < 0))
  | fin _, inf _ => fin 0
  | fin a, fin b => if b = 0 then (if a = 0 then nan else inf (decide (a < 0))) else fl64 (a / b)

/-- `x < y` -/
def lt : F64 → F64 → Bool
  | nan, _ => false
  | _, nan => false
  | inf s, inf t => s && !t
  | inf s, fin _ => s
  | fin _, inf t => !t
  | fin a, fin b => decide (a < b)

/-- `static_cast<int32_t>(x)` -/
def toInt : F64 → Res ℤ
  | fin q => chk32 (truncZ q)
  | _ => .error .ub

/-- `static_cast<int32_t>(std::round(x))` -/
def roundInt : F64 → Res ℤ
  | fin q => chk32 (roundHalfAway q)
  | _ => .error .ub

/-- Python's `x % m` for a positive double `m`: `fmod`, which is exact and not a number for
infinities, and a rounded addition of `m` to a negative result. -/
def pyMod (x : F64) (m : ℚ) : F64 :=
  match x with
  | fin q => if q - m * truncZ (q / m) < 0 then add (fin (q - m * truncZ (q / m))) (fin m)
    else fin (q - m * truncZ (q / m))
  | _ => nan

end F64

namespace Coord

/-- The literal `0.000001` (coordinate.cpp:14, constants.hpp:8). -/
def micro64 : F64 := fl64 (1 / 1000000)

/-- coordinate.cpp:14 `MICRODEGREES_TO_DEGREES`. -/
def deg64 (k : ℤ) : F64 := micro64.mul (.fin k)

/-- coordinate.cpp:31-33 `get_longitude`. -/
def lon64 (c : Coord) : F64 := deg64 c.lon
/-- coordinate.cpp:31-33 `get_latitude`. -/
def lat64 (c : Coord) : F64 := deg64 c.lat

/-- coordinate.cpp:13 `DEGREES_TO_MICRODEGREES`. -/
def micros64 (x : F64) : Res ℤ := (F64.mul (.fin 1000000) x).toInt

/-- coordinate.cpp:17-19 constructor from degrees. -/
def ofDegrees64 (lon lat : F64) : Res Coord := do
  let x ← micros64 lon
  let y ← micros64 lat
  return ⟨x, y⟩

/-- coordinate.cpp:59-62 `operator*`. -/
def scale64 (a : Coord) (s : F64) : Res Coord := do
  let x ← (F64.mul (.fin a.lon) s).roundInt
  let y ← (F64.mul (.fin a.lat) s).roundInt
  return ⟨x, y⟩

/-- coordinate.cpp:64 `operator/`. -/
def div64 (a : Coord) (s : F64) : Res Coord := a.scale64 (F64.div (.fin 1) s)

/-- coordinate.cpp:66-73 `dot_product`. -/
def dot64 (a b : Coord) : F64 := (a.lon64.mul b.lon64).add (a.lat64.mul b.lat64)

/-- coordinate.cpp:84-91 `cross_product_magnitude`. -/
def cross64 (a b : Coord) : F64 := (a.lon64.mul b.lat64).sub (b.lon64.mul a.lat64)

/-- coordinate.cpp:98-103 `magnitude_squared`. -/
def magSq64 (a : Coord) : F64 := (a.lon64.mul a.lon64).add (a.lat64.mul a.lat64)

/-- coordinate.cpp:130-142 `scalar_multiple_factor`. -/
def multiple64 (a b : Coord) : Option F64 :=
  if !a.parallel b then none
  else if a.lon = 0 ∧ a.lat = 0 then some (.fin 0)
  else if a.lon = 0 then some (F64.div (.fin b.lat) (.fin a.lat))
  else some (F64.div (.fin b.lon) (.fin a.lon))

end Coord

namespace Polygon

/-- polygon.cpp:68-69: the i-th summand. -/
def windingTerm64 (vs : List Coord) (i : ℕ) : F64 :=
  ((ringAt vs (i + 1)).lon64.sub (ringAt vs i).lon64).mul
    ((ringAt vs (i + 1)).lat64.add (ringAt vs i).lat64)

/-- Adding along a tree. -/
def SumTree.eval64 (f : ℕ → F64) : SumTree → F64
  | .zero => .fin 0
  | .leaf i => f i
  | .node l r => (l.eval64 f).add (r.eval64 f)

/-- polygon.cpp:62-79 `get_orientation_of_vertices`. -/
def windingOrient64 (T : SumTree) (vs : List Coord) : Orientation :=
  if (T.eval64 (windingTerm64 vs)).lt (.fin 0) then .counterClockwise
  else if (F64.fin 0).lt (T.eval64 (windingTerm64 vs)) then .clockwise
  else .collinear

end Polygon

namespace Polyline

/-- three_vertex_polyline.cpp:39-47 `is_reflex`. -/
def isReflex64 (v1 v2 v3 : Coord) : Bool :=
  F64.lt (((v2.sub v1).lon64.mul (v3.sub v2).lat64).sub
    ((v2.sub v1).lat64.mul (v3.sub v2).lon64)) (.fin 0)

end Polyline

namespace Seg

/-- line_segment.cpp:66: `t = double(Qx) / double(D)`. -/
def param64 (D X : ℤ) : F64 := F64.div (fl64 X) (fl64 D)

end Seg

/-- `std::sqrt`; `sq` says what it returns for finite numbers. -/
def F64.sqrt (sq : ℚ → ℚ) : F64 → F64
  | .nan => .nan
  | .inf s => if s then .nan else .inf false
  | .fin q => if q < 0 then .nan else .fin (sq q)

/-- line_segment.cpp:107-125 `project`; the `float` margin converts exactly. -/
def project64 (sq : ℚ → ℚ) (near point : Coord) (margin : F64) : Res Coord := do
  let diff ← near.subC point
  let m := F64.sqrt sq diff.magSq64
  if Coord.micro64.lt m then do
    let unit ← diff.div64 m
    let shift ← unit.scale64 margin
    near.addC shift
  else return near

namespace Frontend

/-- coordinate.py:13-17 `construct_coord_in_lat_lon_range`: latitude and longitude. -/
def wrapLatLon64 (lat lon : F64) : F64 × F64 :=
  (((lat.add (.fin 90)).pyMod 180).sub (.fin 90), ((lon.add (.fin 180)).pyMod 360).sub (.fin 180))

end Frontend

end Capi
