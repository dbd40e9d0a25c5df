import Verif.Model.Basic
import Verif.Model.Float64

/-!
# `Coordinate` (code/types/coordinate/coordinate.cpp)

A coordinate holds an `int32_t` longitude and latitude in microdegrees.  `Coord` holds
mathematical integers; `Coord.Wf` says both fit in `int32_t`.  Each arithmetic operation
comes in a checked form (suffix `C`), where signed overflow is `Fault.ub`, and a plain form
on mathematical integers.  `Verif/Props/Arithmetic.lean` proves they agree on the
coordinates the program works with.
-/

namespace Capi

/-- `class Coordinate` (coordinate.cpp:16-23): longitude and latitude in microdegrees. -/
structure Coord where
  lon : ℤ
  lat : ℤ
  deriving DecidableEq, Repr, Inhabited

namespace Coord

/-- Both components fit the `int32_t` fields. -/
def Wf (c : Coord) : Prop := FitsI32 c.lon ∧ FitsI32 c.lat

instance (c : Coord) : Decidable c.Wf := by unfold Wf; infer_instance

/-! ### Plain integer versions -/

/-- coordinate.cpp:50-53 `operator+`, ignoring overflow. -/
def add (a b : Coord) : Coord := ⟨a.lon + b.lon, a.lat + b.lat⟩
/-- coordinate.cpp:55 unary `operator-`, ignoring overflow. -/
def neg (a : Coord) : Coord := ⟨-a.lon, -a.lat⟩
/-- coordinate.cpp:57 `operator-` as `a + (-b)`, ignoring overflow. -/
def sub (a b : Coord) : Coord := a.add b.neg

/-- coordinate.cpp:75-82 `dot_product_microdegrees`, ignoring overflow. -/
def dot (a b : Coord) : ℤ := a.lon * b.lon + a.lat * b.lat
/-- coordinate.cpp:93-96 `cross_product_magnitude_microdegrees`, ignoring overflow. -/
def cross (a b : Coord) : ℤ := a.lon * b.lat - b.lon * a.lat
/-- coordinate.cpp:105-110 `magnitude_squared_microdegrees`, ignoring overflow. -/
def magSq (a : Coord) : ℤ := a.lon * a.lon + a.lat * a.lat

/-- coordinate.cpp:114-124: the branches on the sign of the cross product. -/
def orientOfSign (x : ℤ) : Orientation :=
  if x < 0 then .clockwise else if 0 < x then .counterClockwise else .collinear

/-- coordinate.cpp:114-124 `vector_orientation`. -/
def orient (a b : Coord) : Orientation := orientOfSign (a.cross b)

/-- coordinate.cpp:126-128 `parallel`. -/
def parallel (a b : Coord) : Bool := a.orient b == .collinear

/-! ### Checked versions -/

/-- coordinate.cpp:50-53 `operator+` on `int32_t`. -/
def addC (a b : Coord) : Res Coord := do
  let x ← chk32 (a.lon + b.lon)
  let y ← chk32 (a.lat + b.lat)
  return ⟨x, y⟩
/-- coordinate.cpp:55 unary `operator-` on `int32_t`. -/
def negC (a : Coord) : Res Coord := do
  let x ← chk32 (-a.lon)
  let y ← chk32 (-a.lat)
  return ⟨x, y⟩
/-- coordinate.cpp:57 `operator-`. -/
def subC (a b : Coord) : Res Coord := do
  let n ← b.negC
  a.addC n
/-- coordinate.cpp:75-82 `dot_product_microdegrees` on `int64_t`. -/
def dotC (a b : Coord) : Res ℤ := do
  let x ← chk64 (a.lon * b.lon)
  let y ← chk64 (a.lat * b.lat)
  chk64 (x + y)
/-- coordinate.cpp:93-96 `cross_product_magnitude_microdegrees` on `int64_t`. -/
def crossC (a b : Coord) : Res ℤ := do
  let x ← chk64 (a.lon * b.lat)
  let y ← chk64 (b.lon * a.lat)
  chk64 (x - y)
/-- coordinate.cpp:105-110 `magnitude_squared_microdegrees` on `int64_t`. -/
def magSqC (a : Coord) : Res ℤ := do
  let x ← chk64 (a.lon * a.lon)
  let y ← chk64 (a.lat * a.lat)
  chk64 (x + y)
/-- coordinate.cpp:114-124 `vector_orientation`. -/
def orientC (a b : Coord) : Res Orientation := do
  let x ← a.crossC b
  return orientOfSign x

/-! ### Degrees and doubles -/

/-- coordinate.cpp:14 `MICRODEGREES_TO_DEGREES(x)`: `1e-6 * x`; the literal is the double
nearest to 10⁻⁶ and the `int32_t` converts exactly. -/
def degOfMicro (k : ℤ) : ℚ := fl (fl (1 / 1000000) * k)

/-- coordinate.cpp:31-33 `get_longitude`. -/
def lonDeg (c : Coord) : ℚ := degOfMicro c.lon
/-- coordinate.cpp:31-33 `get_latitude`. -/
def latDeg (c : Coord) : ℚ := degOfMicro c.lat

/-- coordinate.cpp:13 `DEGREES_TO_MICRODEGREES(x)`: `static_cast<int32_t>(1e6 * x)`.
A value outside `int32_t` is undefined behaviour. -/
def microOfDegC (x : ℚ) : Res ℤ := chk32 (truncZ (fl (1000000 * x)))

/-- coordinate.cpp:18-20 constructor from degrees. -/
def ofDegreesC (lon lat : ℚ) : Res Coord := do
  let x ← microOfDegC lon
  let y ← microOfDegC lat
  return ⟨x, y⟩

/-- coordinate.cpp:59-62 `operator*`: `static_cast<int32_t>(std::round(k * scalar))`. -/
def scaleC (a : Coord) (s : ℚ) : Res Coord := do
  let x ← chk32 (roundHalfAway (fl (a.lon * s)))
  let y ← chk32 (roundHalfAway (fl (a.lat * s)))
  return ⟨x, y⟩

/-- coordinate.cpp:59-62 `operator*`, ignoring the range of the cast. -/
def scale (a : Coord) (s : ℚ) : Coord :=
  ⟨roundHalfAway (fl (a.lon * s)), roundHalfAway (fl (a.lat * s))⟩

/-- coordinate.cpp:98-103 `magnitude_squared` in double degrees. -/
def magSqDeg (a : Coord) : ℚ := fl (fl (a.lonDeg * a.lonDeg) + fl (a.latDeg * a.latDeg))

/-- coordinate.cpp:130-142 `scalar_multiple_factor`: the factor is a double division of two
exactly converted integers. -/
def scalarMultiple (a b : Coord) : Option ℚ :=
  if !a.parallel b then none
  else if a.lon = 0 ∧ a.lat = 0 then some 0
  else if a.lon = 0 then some (fl ((b.lat : ℚ) / a.lat))
  else some (fl ((b.lon : ℚ) / a.lon))

/-! ### Hash -/

/-- The combining step used by all `std::hash` specialisations of the project
(coordinate.cpp:181, line_segment.cpp:141): `h ^ (x + 0x9e3779b9 + (h << 6) + (h >> 2))` on
64-bit `size_t`. -/
def hashMix (h x : BitVec 64) : BitVec 64 :=
  h ^^^ (x + 0x9e3779b9#64 + (h <<< 6) + (h >>> 2))

/-- coordinate.cpp:175-182 `std::hash<Coordinate>`; `std::hash<int32_t>` of libstdc++ is the
conversion to `size_t` (sign extension). -/
def hash (c : Coord) : BitVec 64 := hashMix (BitVec.ofInt 64 c.lat) (BitVec.ofInt 64 c.lon)

end Coord

/-! ### Ranges (code/constants/constants.hpp:8-21) -/

/-- `MAX_LONGITUDE_MICRODEGREES` (constants.hpp:12). -/
def maxLon : ℤ := 180000000
/-- `MIN_LONGITUDE_MICRODEGREES` (constants.hpp:14). -/
def minLon : ℤ := -180000000
/-- `LONGITUDE_PERIOD_MICRODEGREES` (constants.hpp:16). -/
def period : ℤ := 360000001
/-- `MAX_PERIODIC_LONGITUDE_MICRODEGREES` (constants.hpp:18-19). -/
def maxPeriodicLon : ℤ := maxLon + period

/-- Geographic coordinates: longitude within ±180°, latitude within ±90°. -/
def Coord.Geo (c : Coord) : Prop :=
  -180000000 ≤ c.lon ∧ c.lon ≤ 180000000 ∧ -90000000 ≤ c.lat ∧ c.lat ≤ 90000000

/-- Coordinates of obstacles after adding their periodic copies: longitude within
±540.000001°, latitude within ±90°. -/
def Coord.Per (c : Coord) : Prop :=
  -540000001 ≤ c.lon ∧ c.lon ≤ 540000001 ∧ -90000000 ≤ c.lat ∧ c.lat ≤ 90000000

instance (c : Coord) : Decidable c.Geo := by unfold Coord.Geo; infer_instance
instance (c : Coord) : Decidable c.Per := by unfold Coord.Per; infer_instance

end Capi
