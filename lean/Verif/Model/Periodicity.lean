import Verif.Model.Segment

/-!
# Longitude periodicity (code/coordinate_periodicity/coordinate_periodicity.cpp)
-/

namespace Capi

/-- coordinate_periodicity.cpp:12-20 `periodic_coordinates_from_coordinate`, ignoring
overflow. -/
def periodicCopies (c : Coord) : List Coord :=
  [c, ⟨c.lon + period, c.lat⟩, ⟨c.lon - period, c.lat⟩]

/-- coordinate_periodicity.cpp:12-20 with `int32_t` checks. -/
def periodicCopiesC (c : Coord) : Res (List Coord) := do
  let x ← chk32 (c.lon + period)
  let y ← chk32 (c.lon - period)
  return [c, ⟨x, c.lat⟩, ⟨y, c.lat⟩]

/-- coordinate_periodicity.cpp:22-25 `is_coordinate_over_meridian`. -/
def overMeridian (c : Coord) : Bool := decide (c.lon < minLon) || decide (maxLon < c.lon)

/-- coordinate_periodicity.cpp:29-31: `while (x > MAX) x -= PERIOD`, with `int32_t` checks. -/
def wrapDownC (x : ℤ) : Res ℤ :=
  if _h : maxLon < x then
    if FitsI32 (x - period) then wrapDownC (x - period) else .error .ub
  else .ok x
termination_by (x - maxLon).toNat
decreasing_by simp only [maxLon, period] at *; omega

/-- coordinate_periodicity.cpp:32-34: `while (x < MIN) x += PERIOD`, with `int32_t` checks. -/
def wrapUpC (x : ℤ) : Res ℤ :=
  if _h : x < minLon then
    if FitsI32 (x + period) then wrapUpC (x + period) else .error .ub
  else .ok x
termination_by (minLon - x).toNat
decreasing_by simp only [minLon, period] at *; omega

/-- coordinate_periodicity.cpp:27-37 `coordinate_from_periodic_coordinate`. -/
def normalizeC (c : Coord) : Res Coord := do
  let x ← wrapDownC c.lon
  let y ← wrapUpC x
  return ⟨y, c.lat⟩

/-- Closed form of `normalizeC` (proved equal in `Verif/Props/Periodicity.lean`); used where
the loops would only get in the way. -/
def normalize (c : Coord) : Coord := ⟨(c.lon - minLon) % period + minLon, c.lat⟩

/-- coordinate_periodicity.cpp:68-79 `make_coordinates_periodic`. -/
def coordsPeriodic (cs : List Coord) : List Coord := cs.flatMap periodicCopies

/-- coordinate_periodicity.cpp:81-95 `make_segments_periodic`: the i-th copies of both
endpoints are joined. -/
def segsPeriodic (ss : List Seg) : List Seg :=
  ss.flatMap fun s => List.zipWith Seg.mk (periodicCopies s.p) (periodicCopies s.q)

end Capi
