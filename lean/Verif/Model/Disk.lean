import Verif.Model.Frontend
import Verif.Model.Merge
import Verif.Model.Serializer

/-!
# Folders of graphs (graph_generator.py, graph_merger.py, path_interpolator.py)

A disk maps folder names to folders; a folder contains its file `default` or nothing
(graph_file_paths.py:10-12).  Other causes of failure (permissions, space) are in `Model/Os` for a single file, but not
here, nor is what a fault inside `save_graph_to_file` leaves behind: `C29_save_inside` excludes such faults for
the graphs concerned.
-/

namespace Capi

namespace Frontend

/-- Folders by name; `some none` is a folder without its graph file. -/
def Disk (N : Type) : Type := N → Option (Option Serial.Buf)

variable {N : Type} [DecidableEq N]

/-- Replace one folder. -/
def Disk.put (d : Disk N) (n : N) (c : Option Serial.Buf) : Disk N :=
  fun k => if k = n then some c else d k

/-- `os.mkdir`: raises when the name exists. -/
def Disk.mkdir (d : Disk N) (n : N) : Res (Disk N) :=
  match d n with
  | some _ => .error .exn
  | none => .ok (d.put n none)

/-- `load_graph_from_file` (graph_serializer.cpp:59-64: mapping a missing file fails). -/
def Disk.load (T : ℕ → Polygon.SumTree) (d : Disk N) (n : N) : Res Graph :=
  match d n with
  | some (some b) => Serial.load T b
  | _ => .error .exn

/-- `save_graph_to_file` (graph_serializer.cpp:32-57); the file is created if missing. -/
def Disk.save (d : Disk N) (n : N) (g : Graph) : Res (Disk N) :=
  match d n with
  | none => .error .exn
  | some c => do
    let b ← Serial.save g (c.getD [])
    return d.put n (some b)

/-- A job that first creates its output folder: graph_generator.py:24-31, 34-51,
graph_merger.py:10-24.  After an exception the folder stays. -/
def Disk.job (d : Disk N) (out : N) (make : Disk N → Res Graph) : Res Unit × Disk N :=
  match d.mkdir out with
  | .error e => (.error e, d)
  | .ok d1 =>
    match (do let g ← make d1; d1.save out g : Res (Disk N)) with
    | .error e => (.error e, d1)
    | .ok d2 => (.ok (), d2)

/-- graph_generator.py:23-32 `generate`, the polygons being read already. -/
def generateJob (ps : List (List Coord)) (scanner : Coord → Res (List (Coord × Bool)))
    (order : List Coord → List Coord) (out : N) (d : Disk N) : Res Unit × Disk N :=
  d.job out fun _ => Visgraph.generate ps scanner order

/-- graph_generator.py:34-51 `generate_for_vertex_range`. -/
def splitJob (ps : List (List Coord)) (scanner : Coord → Res (List (Coord × Bool)))
    (order shuffle : List Coord → List Coord) (k i : ℤ) (out : N) (d : Disk N) :
    Res Unit × Disk N :=
  d.job out fun _ => generateSplit ps scanner order shuffle k i

/-- graph_merger.py:9-24 `merge`; `porder` is the iteration order of the set of polygons. -/
def mergeJob (T : ℕ → Polygon.SumTree) (porder : List Graph → List (List Coord))
    (schedule : List Graph.Op → List Graph.Op) (ins : List N) (out : N) (d : Disk N) :
    Res Unit × Disk N :=
  d.job out fun d1 => do
    let gs ← ins.mapM (d1.load T)
    Graph.merge (porder gs) schedule gs

/-- Jobs one after the other, stopping at the first exception. -/
def runJobs (d : Disk N) : List (Disk N → Res Unit × Disk N) → Res Unit × Disk N
  | [] => (.ok (), d)
  | j :: r =>
    match j d with
    | (.error e, d1) => (.error e, d1)
    | (.ok _, d1) => runJobs d1 r

end Frontend

end Capi
