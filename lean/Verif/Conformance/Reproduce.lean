import Verif.Conformance.Support
import Verif.Model.Frontend
import Verif.Model.Merge
import Verif.Model.Serializer
import Verif.Model.Shuffle
import Verif.Props.Charted

/-!
# Running the model on the project's test files

capi/test/test_files contains a shapefile, `smaller.shp`, and three graph files the real program
made from it: the whole graph and its two halves.  The program below runs the model on them.  It is
not part of any theorem (`lake build` only compiles it); run it in the folder of the lakefile with

    lake env lean --run Verif/Conformance/Reproduce.lean /repo/capi/test/test_files

The evaluation is by the interpreter and, unlike the theorems, trusts it.  The scans are done with
`Vistree.scan`, which `C37_safe` equates with the checked form.  The map is also found to meet
the hypotheses of C90 (`ChartedBy.charted`).
-/

namespace Capi.Conformance

open Vistree Visgraph

/-- The bytes of a file. -/
def readBuf (path : String) : IO Serial.Buf := do
  let b ← IO.FS.readBinFile path
  return b.toList.map fun x => BitVec.ofNat 8 x.toNat

/-- The finite double stored in little-endian order at an offset (the `shapefile` package reads
the points of a record so). -/
def doubleAt (b : ByteArray) (off : ℕ) : ℚ :=
  let v : ℕ := (List.range 8).foldr (fun i acc => acc * 256 + (b.get! (off + i)).toNat) 0
  let e : ℕ := v / 2 ^ 52 % 2048
  let f : ℕ := v % 2 ^ 52
  let q : ℚ := (2 ^ 52 + f : ℕ) * (2 : ℚ) ^ ((e : ℤ) - 1075)
  if v / 2 ^ 63 = 1 then -q else q

/-- The points of the only record of a shapefile, a polygon with one part. -/
def onlyRecord (b : ByteArray) : List (ℚ × ℚ) :=
  let n := (b.get! 148).toNat + 256 * (b.get! 149).toNat
  (List.range n).map fun i => (doubleAt b (156 + 16 * i), doubleAt b (156 + 16 * i + 8))

/-- The linked pairs of indices and whether the link crosses the meridian. -/
def links (g : Graph) : List (ℕ × ℕ × Bool) :=
  (List.range g.verts.length).flatMap fun i => (List.range i).filterMap fun j =>
    match g.verts[i]?, g.verts[j]? with
    | some a, some b =>
      match g.hasEdge a b, g.isCrossing a b with
      | .ok true, .ok c => some (i, j, c)
      | _, _ => none
    | _, _ => none

/-- Print one comparison. -/
def check (what : String) (ok : Bool) : IO Unit :=
  IO.println s!"{if ok then "agrees" else "DIFFERS"}: {what}"

/-- All comparisons. -/
def compare (dir : String) : IO Unit := do
  let shp ← IO.FS.readBinFile s!"{dir}/smaller.shp"
  let whole ← readBuf s!"{dir}/smaller_graph/default"
  let half1 ← readBuf s!"{dir}/smaller_graph_range_1/default"
  let half2 ← readBuf s!"{dir}/smaller_graph_range_2/default"
  let T := Polygon.SumTree.sequential
  let polys := (Frontend.readShapes [⟨true, onlyRecord shp, [0]⟩] >>= Frontend.toPolygons T)
  match polys, Serial.load T whole, Serial.load T half1, Serial.load T half2 with
  | .ok ps, .ok w, .ok g1, .ok g2 =>
    IO.println s!"{w.verts.length} vertices, {(links w).length} links, \
      {((links w).filter (·.2.2)).length} of them across the meridian"
    check "the polygons read from the shapefile are those of the graph file" (ps == w.polygons)
    check "the map meets the hypotheses of C90" (decide (ChartedBy T ps))
    let m := ofPolygons (polygonsPeriodic T ps)
    let scanner := fun obs => scan exLook m obs (vertices m) (segments m) true
    match generate ps (fun obs => .ok (scanner obs)) id with
    | .error _ => check "generating the graph" false
    | .ok g =>
      check "the generated graph has the links of the graph file" (links g == links w)
      match Serial.save g [] with
      | .error _ => check "saving the graph" false
      | .ok b => check "the saved graph is the graph file, byte for byte" (b == whole)
    match Graph.merge ps id [g1, g2] with
    | .error _ => check "merging the halves" false
    | .ok g =>
      check "the merged halves have the links of the graph file" (links g == links w)
      match Serial.save g [] with
      | .error _ => check "saving the merged graph" false
      | .ok b => check "the saved merged graph is the graph file, byte for byte" (b == whole)
    for (lib, since) in [(Shuffle.Lib.upTo10, "up to version 10"), (.from11, "from version 11 on")] do
      for (i, half) in [((0 : ℤ), half1), (1, half2)] do
        let what := s!"part {i} of 2 with seed 42, libstdc++ {since}"
        match Frontend.generateSplitSeeded lib 100 ps (fun obs => .ok (scanner obs)) id 2 i 42 with
        | some (.ok g) =>
          match Serial.save g [] with
          | .ok b => check s!"{what}, is its graph file, byte for byte" (b == half)
          | .error _ => check s!"{what}: saving" false
        | _ => check what false
  | _, _, _, _ => check "reading the files" false

end Capi.Conformance

def main (args : List String) : IO Unit :=
  match args with
  | dir :: _ => Capi.Conformance.compare dir
  | [] => IO.println "the folder of the test files is missing"
