import Verif.Model.Sphere

/-!
# Distances on the sphere (code/types/coordinate/coordinate.cpp)

`S2LatLng::GetDistance` is not part of the repository.  Its formula is written down here from the
source of S2: `dlat = sin(0.5 * (lat2 - lat1))`, `dlng = sin(0.5 * (lng2 - lng1))`,
`x = dlat * dlat + dlng * dlng * cos(lat1) * cos(lat2)` and `2 * asin(sqrt(min(1.0, x)))`.
-/

namespace Capi.Sphere

/-- The number under the root in `S2LatLng::GetDistance`, as used in coordinate.cpp:171-173. -/
def haversine (L : Libm) (a b : Coord) : ℚ :=
  let dlat := L.sin (fl (1 / 2 * fl (radians b.lat - radians a.lat)))
  let dlng := L.sin (fl (1 / 2 * fl (radians b.lon - radians a.lon)))
  fl (fl (dlat * dlat) +
    fl (fl (fl (dlng * dlng) * L.cos (radians a.lat)) * L.cos (radians b.lat)))

/-- coordinate.cpp:171-173 `spherical_distance`; `asin` is that of the C library. -/
def distance (L : Libm) (asin : ℚ → ℚ) (a b : Coord) : ℚ :=
  fl (2 * asin (L.sqrt (min 1 (haversine L a b))))

end Capi.Sphere
