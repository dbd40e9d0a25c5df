import Verif.Model.ShortestPath
import Verif.Spec.Geometry
import Verif.Spec.History
import Verif.Spec.Walk
import Mathlib.Analysis.SpecialFunctions.Sqrt

/-!
# Specification vocabulary for routes
-/

namespace Capi

open ShortestPath

/-- The endpoint `e`, moved onto `edge` if that is given, is connected to `x`: the endpoint is not
itself a vertex of the graph, `x` is reported visible from it, and `x` is not strictly to the left
of the edge. -/
def Linked (E : Env) (e : Coord) (edge : Option Seg) (x : Coord) : Prop :=
  E.graph.hasVertex e = false ∧ x ≠ e ∧ (∃ vis m, E.reach e = .ok vis ∧ (x, m) ∈ vis) ∧
    ∀ s, edge = some s → area2 s.p s.q x ≤ 0

/-- The legs a route may use: edges of the stored graph, and connections of the two endpoints in
either direction. -/
def RouteEdge (E : Env) (c : Correction) (u v : Coord) : Prop :=
  E.graph.hasEdge u v = .ok true ∨
    (u = c.src ∧ Linked E c.src c.srcEdge v) ∨ (v = c.src ∧ Linked E c.src c.srcEdge u) ∨
    (u = c.dst ∧ Linked E c.dst c.dstEdge v) ∨ (v = c.dst ∧ Linked E c.dst c.dstEdge u)

/-- The leg is an edge of the stored graph that crosses the meridian. -/
def CrossesMeridian (E : Env) (u v : Coord) : Prop := E.graph.isCrossing u v = .ok true

/-- The plane distance in degrees between `a`, moved east by `k` periods of longitude, and `b`. -/
noncomputable def planeDist (a b : Coord) (k : ℤ) : ℝ :=
  Real.sqrt (((a.lon + k * 360000001 - b.lon : ℤ) : ℝ) ^ 2 + ((a.lat - b.lat : ℤ) : ℝ) ^ 2) / 1000000

/-- The distance with at most one passage across the meridian. -/
noncomputable def wrapDist (a b : Coord) : ℝ :=
  min (planeDist a b 0) (min (planeDist a b 1) (planeDist a b (-1)))

open Classical in
/-- The true length of a leg: the plane distance, or for a leg across the meridian the shorter of
the distances to the copies to the east and west. -/
noncomputable def legLength (E : Env) (u v : Coord) : ℝ :=
  if CrossesMeridian E u v then min (planeDist u v 1) (planeDist u v (-1)) else planeDist u v 0

end Capi
