# Formal model of capi (visibility graphs and path interpolation): design

The subject is the C++ core under `/repo/capi/src/implementation/visibility_graphs/code`
(abbreviated `code/` below) and the small Python layer around it.  The model is in Lean 4,
under `lean/Verif/`; `properties.jsonl` states the properties, `MANIFEST.json` maps each
property to the theorems that carry it, `seeded/LOG.jsonl` logs the mutation tests.

## Conventions

* `Verif/Model/*.lean` follows the code function by function.  Each definition cites
  file and lines and lists simplifications.
* `Verif/Spec/*.lean` holds the small independent specifications the properties are stated in.
* `Verif/Lemmas/*.lean` are helper lemmas.
* `Verif/Props/*.lean` holds the property theorems (`C01_...`), each followed by an
  `example` meeting its hypotheses.  `_partial` marks theorems proving less than the
  property says; `_false`/`_witness` marks refutations by concrete witness.
* `Verif/Conformance/*.lean` evaluates the model on the project's own unit tests and test files (see
  the trusted base).  These are tests of the model, not proofs, and no property rests on them.
* Undefined behaviour and exceptions are outcomes: `Res α` is `ok a`, `throw`, or `ub`.

## How machine features are modelled

* **int32/int64**: mathematical integers plus range checks; an out-of-range signed result
  is `ub`.  For coordinates in the periodic geographic range the checked versions are
  proved equal to plain integer arithmetic (C03); the larger algorithms are then modelled
  with the plain version.
* **double**: where rounding decides the outcome, `fl : ℚ → ℚ` is a concrete model
  of IEEE-754 binary64 round-to-nearest-even (`C68_nearest`) with unbounded exponent range (no overflow,
  no subnormals, no NaN, no signed zero).  `F64` has overflow, subnormals, infinities and NaN (but
  one zero); C68 and C69 prove that on it the coordinate operations, reflex tests, winding sums,
  intersection parameters, wrapping, `project` and path lengths have the values computed with `fl`.
  For the S2 conversions this is an informal argument.  `std::sqrt` and `std::atan2` are
  parameters with an accuracy assumption that is stated in the theorems using it.
  Where only the sign matters and exact arithmetic has been substituted this is
  said at the definition.
* **unordered containers**: iteration order is universally quantified (any permutation).
* **priority_queue**: any element of least priority may be popped.
* **OpenMP / shared_mutex**: labelled transition system with one lock per vertex index;
  every interleaving is considered.
* **mmap**: list of bytes; access outside the list is `ub`.
* **S2**: an oracle parameter (containment, closest segment, crossings, projection) about
  which nothing is assumed, except in C63, where the crossings are those of exact great circles,
  in C67, where it answers with edges it was given, in C81, C99 and C101, where loops of one vertex,
  triangles and convex loops contain what the documentation says, and in C100 and C101, where crossings are
  decided by the signs of triple products of the computed points.  The formulas of the conversions between
  coordinates and points are those of the S2 sources (`s1angle.h`, `s2latlng.h`), which are not
  part of the repository; they are trusted to be as written in `Model/Sphere.lean`.  So is the formula
  of `S2LatLng::GetDistance` in `Model/Haversine.lean` (C86).
* **The C library** (C67): `sin` and `cos` have a relative error of at most 2^-50 and `atan2` an
  absolute error of at most 2^-48, `sqrt` is accurate and rounding is to a nearest integer.
  For C86 `sqrt` and `asin` are as in `AsinOk` (`Spec/Haversine.lean`).

## Trusted base

* **Lean kernel** 4.33.0 and the Mathlib modules imported (all checked by the same kernel).  Several
  finite witnesses use `decide +kernel`, which is kernel evaluation; `native_decide`, `bv_decide` and
  other compiler-trusting tactics are not used, nor are `sorry`, own axioms, `implemented_by`,
  `unsafe` or `partial`.
* **Axioms**: every property theorem depends on a subset of `propext`, `Classical.choice`,
  `Quot.sound`.  `axioms.txt` lists the set for each theorem.
* **The model**: that `Verif/Model/*.lean` says what the C++ and Python text says.  This was done by
  reading; nothing was extracted from the program, and the program was not run.  Each definition cites
  file and lines.  As a check on the reading, `Verif/Conformance/` evaluates the model in the kernel on
  the expectations of the C++ unit tests of coordinates, segments, polygons, corners, the angle sorter,
  the scan (all 23 expectations), graphs, graph generation, merging, graph files and the path computer
  (`Paths.lean`, with S2's answers supplied): it meets them all.
  `Verif/Conformance/Reproduce.lean` is a program (compiled but not run by `lake build`) that runs the
  model on `capi/test/test_files/smaller.shp`.  The graph file the model saves, for 169 vertices and
  1699 links, is the file `smaller_graph/default` made by the real program, byte for byte; so is the
  one it saves after loading and merging the two halves `smaller_graph_range_1` and `_2`, and so are the
  two halves themselves, generated with seed 42 by the model of `std::mt19937` and `std::shuffle`.
* **The meaning of C++ features** as described above: IEEE double evaluation without extended
  precision, rounding after every operation except in C72 (which lets any product be fused into the
  addition that uses it), `std::shared_mutex` as documented, the containers as documented, libstdc++'s
  identity hash of integers (C09, C25 only) and its shuffle (C93 only; read in the headers of version 13,
  the scaling of versions before 11 from its fallback case), little-endian 64-bit platform for the file format.
* **The statements**: `properties.jsonl`, the definitions in `Verif/Spec/` and the theorem
  statements in `Verif/Props/`.

## What is modelled

Paths are below `code/`; those ending in `.py` are below `capi/src/implementation/`.

| Source | Model | Left out |
|--------|-------|----------|
| types/coordinate/coordinate.cpp | Coordinate, Vector, Binary64, Sphere (conversions), Haversine, Text | how fmt formats a double (`FmtOk`) |
| constants/constants.hpp | Coordinate, Periodicity, Project | |
| coordinate_periodicity/ | Periodicity | |
| types/line_segment/line_segment.cpp | Segment, Project, Sphere | the S2 projection inside `project` is an input |
| types/polygon/polygon.cpp | Polygon, Sphere (loops), Text | what S2 makes of a loop; the reduction order of the winding sum is any summation tree |
| types/polyline/three_vertex_polyline.cpp | Polygon, Vistree | |
| geom/angle_sorter/ | AngleSorter, Angle64 | elsewhere angles are compared exactly; C71 says when the computed angles give the same scans |
| datastructures/graph/graph.cpp | Graph, Merge, Concurrency | |
| datastructures/modified_graph/ | ModifiedGraph (over a `Graph`), Overlay (over any base, with the state left by calls that raise) | a base changed by others meanwhile |
| serialization/graph_serializer.cpp, cpp_libs/mio/mio.hpp | Serializer, Loading, Os | power loss; errors while reading a mapped file; `bad_alloc` except for the vectors of C88 |
| datastructures/open_edges/, visgraph/ | OpenEdges, Vistree, Visgraph, Parallel | the OpenMP pragma is a schedule; what exceptions do inside of it is in Parallel (C94), after GCC and Clang, since OpenMP does not define it |
| libstdc++'s `std::mt19937` and `std::shuffle` | Shuffle | lists of 2^32 and more; other standard libraries |
| cpp_libs/indicators progress_bar.hpp, details/stream_helper.hpp | Progress | texts, colours, padding, digits of the times; other kinds of bars |
| shortest_path/shortest_path_computer.cpp | AStar, ShortestPath, Distance, Search64, Batch, Text | |
| datastructures/spatial_segment_index/ | Sphere; otherwise oracle in `ShortestPath.Env` | the S2 queries themselves, on points |
| graph_generator.py, graph_merger.py, datastructures/graph_file_paths.py | Frontend, Disk | errors of the operating system |
| shapefiles/shapefile_reader.py, datastructures/polygon.py | Frontend, Objects | the decoding done by pyshp |
| dtos/coordinate.py, path_interpolator.py | Frontend, Text, Objects (sharing, equality and hashes, as Python's data model and the `dataclasses` of 3.12 and 3.13 have them) | filters for warnings other than Python's default |
| bindings.cpp | Binary64, Search64 (any double as argument), Session (objects shared by several calls; `None` becomes a null pointer, lists are copied, the interpreter lock is held), otherwise as identity; conversion of `int` to `size_t` in Frontend | all other type conversions of pybind11 |
| hypothesis_strategies/polygon.py | Objects | how Hypothesis draws |
| tests | evaluated on the model in `Conformance/` | those of S2, `project`, angles and distances; the property-based Python tests |
| example.cpp, benchmarks | | everything |

## What turned out to be false

Each entry is a theorem of the property named (`_false`, or `C19_predecessors`,
`C26_vertices_repeated`, `C53_unchecked`, `C54_other_parts`, `C60_failed_merge_blocks`).

* Degrees do not survive the round trip: 15 microdegrees come back as 14 (C04).
* Overlapping collinear segments are reported as not intersecting (C08).
* Equal segments with exchanged endpoints hash differently (C09).
* Places next to each other share a hash (`C09_collision`, `C09_injective_false`); those of one latitude do
  not.
* The angle comparator says `observer < observer` (C11).
* Doubles cannot separate all directions between points of the map. For every `atan2` that returns
  doubles within 2^-49 of the angle there are two points in different directions that the
  comparator calls equivalent (`C11_tie_false`). If doubling a vector keeps its computed angle, the
  comparator is not even a strict weak order, which `std::sort` requires (`C11_weak_order_false`).
  Both need vectors longer than 16.7 degrees (`C11_short_vectors`).  For the angles the code
  computes this is `C71_all_maps_false`; C71 says on which maps the trouble cannot occur.
* Sliver polygons can be stored clockwise (C12), a corner given twice in a row is lost (C14),
  rebuilding a polygon from its own vertices can drop further ones or turn a sliver round (C15), a thin corner is misjudged (C16).
* `get_neighbors` lists predecessors of directed edges (C19); `add_vertex` corrupts the matrix of a
  graph with edges (C21); an undirected addition is not atomic for concurrent readers (C23);
  colliding vertex hashes break graph equality (C25).
* Overlay: a crossing edge added again after removal becomes plain; a crossing edge at a new vertex
  throws; neighbours and vertices can be listed twice (C26, C27).
* Files: unstable polygons break save and load (C28); a graph with an added vertex makes the loader
  read outside the file (C29); stale bytes of an overwritten file turn plain edges into crossing ones
  (C30); a crash leaves a file that loads without an error, as an empty graph, with
  torn polygon corners, or with crossing flags lost; over an existing file, loading what a crash leaves
  can read outside the file until the number of crossing edges is written (C31). Saving again repairs
  all of this (`C31_retry`).
* Loading does not compare sizes: a file that lost its end is read beyond its end instead of being
  refused (C65).
* Visibility scan: hidden vertices are reported, for four independent reasons (order by opening
  distance, equal opening distances, shared vertices, rounding), and the result depends on
  pointer-dependent hash order (C35, C39). `C39_deterministic` gives a condition under which it does
  not: edges east of a vertex cross its latitude more than a microdegree apart.
* Search: a greediness above 1 can return longer paths (C45, within the proved factor); the answer
  for an unobstructed direct line ignores the search limit (C47);
  new endpoints are never joined to each other or across the meridian (C62).
* Whether the direct line is free is decided with great circles, everything else with lines in the
  plane: direct answers can cross an island from coast to coast, and free lines can be refused so
  that every answer is a detour (C63).
* Vertices that see each other both ways round the world are joined by an edge with the length of the
  way not crossing the meridian, even if the other way is much shorter (C61).
* Python can pass NaN, infinities and zero: such degrees, factors and divisors are undefined behaviour
  (conversion to `int32_t`), and `cross_product_magnitude` is neither zero for all parallel vectors
  nor for them only (C68).  A weighting that is NaN or infinite makes the queue unordered (C69).
* A path can lead straight through a single convex island although the index finds the line
  blocked, if two corners are equally far from the start (`C75_start_false`).
* With fewer vertices than threads, or no polygons, the progress bar of the generation divides by zero
  and converts the result to `size_t`, which is undefined (`C77_undefined_false`).
* Saving with failing system calls: after an exception the file can hold a graph without polygons that
  loads without an error (`C78_left_false`), or the whole graph; a full disk kills the process instead of
  raising an exception (`C78_full_disk_false`); merging does not notice such a part (`C78_merge_false`).
  Failed mappings lose a file descriptor, so enough attempts to load an empty file stop a process from
  loading or saving anything (`C78_leak_false`).
* With a greediness above 1 the search may put a vertex into the queue again and again.  On a graph
  of 76 vertices and 99 edges it needs 67 million iterations (`C79_exponential`, `C79_greedy_false`).
* Python shows a warning once per text, so the second batch with the same failing pair returns `None`
  for it in silence (`C80_silent_false`).  For endpoints beyond 180 degrees the text about land does
  not name the endpoints asked for (`C80_outside_false`).
* C81: the land of S2 is the left of the edges on the sphere, while rings are cleaned and oriented in
  the plane.  Islands across the meridian of 180 degrees, islands with long flat sides and rings of
  the south left with one corner turn the sea into land (`C81_land_false`, `C81_astride`,
  `C81_flat`, `C81_one_corner`); proven for triangles that go around counter-clockwise on the sphere
  (`C81_triangle_partial`).
* C82: new endpoints are joined without periodic copies, so a ship just west of the meridian does not
  get across it directly: its path goes to the nearest coast on its own side first (`C82_hop_false`,
  lower bounds `C82_first`, `C82_last`, `C82_both`).
* C93: parts of a graph made with one seed by programs built against libstdc++ 10 and libstdc++ 11 need not
  cover all vertices, and the merged graph lacks edges (`C93_libraries_false`); likewise with different
  seeds (`C93_seeds_false`).
* C94: generating a graph for an island drawn across the meridian in one piece (175 to 185 degrees), or with
  longitudes beyond 180 degrees, ends the process: the scans report normalised coordinates, which are no
  vertices of the graph, and the exception is raised inside an OpenMP loop (`C94_across_false`). Merging a
  graph with an added and linked vertex does the same (`C94_grown_false`).  So does a shapefile whose
  longitudes come within half a unit of the last place of 180.000001 degrees (`C94_shapefile_false`,
  `C94_degrees`).
* C95: a path computer does not keep the graph it was made from: `add_edge` on the graph changes its answers,
  and a connection added through an island is used (`C95_snapshot_false`).
* C96: a Python `Polygon` can lose vertices through the list it hands out (`C96_three_false`), and is moved
  by setting attributes of coordinates, which are not frozen: `class Config` means nothing to a plain
  dataclass (`C96_frozen_false`).  For the same reason they have no hash, so `polygon_strategy` always
  raises (`C96_strategy_false`).  Equality depends on the first vertex (`C96_ring_false`) and, with NaN, on
  the version of Python (`C96_version_false`).
* C97: more land can make a path much shorter: only vertices are joined across the meridian, so a rock
  beside a ship opens a way that was there all along (`C97_land_false`).
* C98: an overlay upon an overlay is not the overlay with all the operations: an edge removed below and
  added above as crossing is crossing, in one overlay it stays plain (`C98_stack_false`).  A raising
  `add_edge` can leave one direction behind (`C98_half_false`); neighbours are listed once per level
  that adds them (`C98_once_false`).
* C99: a place strictly inside a convex island on the map may be water, since sides are great circles on
  the sphere (`C99_margin_false`); true with a margin of third order in the size (`C99_ashore`,
  `C99_afloat`).
* C100: a short course may cross a coast on the map and not on the sphere (`C100_margin_false`); true
  with a margin (`C100_clear`, `C100_athwart`).
* C92: the search takes the nearer of the two copies for a leg across the meridian, but the graph may
  have joined the vertices by a line to the farther one, once round the globe (`C92_turn_false`).
* C83: a generator built from segments instead of polygons leaves, in every order of the segments, a
  corner of every polygon without its check (`C83_unguarded_false`, `C83_through_false`), and reads
  past the end of a vector at the end of a wall (`C83_end_false`).
* C84: for every pair of vertices a file has a bit whose inversion silently adds or removes just their
  edge (`C84_silent_false`), and a byte that makes loading read outside the file
  (`C84_undefined_false`).
* C88: no damage to a file is recognised: the only exceptions are for the empty file and for lack of
  memory (`C88_refused`).  Stray bits at the end of a row count (`C88_result`).
* C85: dividing undoes multiplying for factors beyond 1 only (`C85_undo_false`), the sign of
  `cross_product_magnitude` can be wrong for vectors of a map (`C85_turn_false`), a difference in range
  can be undefined (`C85_minus_false`), and so is the unit vector of zero (`C85_zero_false`).
* C86: the two names of a place on the meridian of 180 degrees, and the many names of a pole, have a
  positive `spherical_distance` (`C86_place_false`); lengths in the plane exceed those on the sphere by
  no bounded factor (`C86_plane_false`).
* C87: what is shortest on the map is not shortest on the globe: near a pole the path returned can be
  five million times as long as another route (`C87_globe_false`).
* The wrap-around period is 360.000001 degrees (C56).
* Python: an empty polygon list makes split generation raise although one-go generation accepts it,
  split numbers beyond the last are accepted (C53); only the first ring of a record is kept (C54);
  latitudes wrap like longitudes, so 91 becomes -89 (C55), and rounding can produce exactly 90 (C55);
  a failed merge leaves its output folder and so blocks a retry (C60).

Noticed while reading, not stated as theorems:

* The default margin of `LineSegment::project` is 0, so the land correction adds none.
* The files of saved graphs are larger than their contents.

## Mutation testing

`seeded/LOG.jsonl` has one line per attempt: a definition of the model is changed in a copy outside
this repository, the modules with the theorems of the claim it should break are rebuilt, every
declaration that no longer checks is replaced by `sorry`, and the property theorems that then depend
on `sorry` are listed (`failed`).  `first_failures` are the declarations replaced.  An attempt is
`caught` when a theorem of the named claim is among them.  That a proof no longer checks does not by
itself show that its theorem is false of the changed definition.  Survivors either led to new or
stronger theorems (`tightened`), most of which were run again, or have a `note` saying why they were
left: the change is not reachable, it touches only a check or an instance used in examples, or nothing
is claimed about it.  Attempts at which the harness stopped, because a changed definition or statement
did not compile, are kept and marked inconclusive.  One batch was begun twice, and of one further
attempt made twice only one run was kept; of these repetitions only one line each is in the log.

## How each property is approached

| Id | What is modelled | How it is proved |
|----|------------------|------------------|
| C01 | the two while loops with int32 checks | well-founded recursion, uniqueness of representative mod 360000001 |
| C02 | periodic copies of coordinates/segments | arithmetic, list induction |
| C03 | checked arithmetic of Coordinate and LineSegment | bounds on products |
| C04 | ctor from double, getters with `fl` | relative error bound; witness for drift |
| C05 | scalar_multiple_factor with `fl` | monotonicity/sign of `fl` |
| C06 | orientation predicates | ring identities |
| C07, C08 | intersection_with_segment with `fl` | rational geometry and error bound; witness for overlap |
| C09 | the hash functions on BitVec 64 | congruence; witness for reversed segments; cancelling exclusive or; the last bit of a sum |
| C10 | on_segment | monotone `fl` is strictly monotone on int32 multiples of 1e-6 |
| C11 | comparator, sorting | strict total order from half-plane and cross product; uniqueness of sorted permutation |
| C12–C15 | Polygon preprocessing | shoelace sum, list lemmas; witness for non-idempotence |
| C16 | ThreeVertexPolyline | sign analysis |
| C17–C21 | Graph | history refinement; witness for add_vertex and the exact shift it causes (GraphGrow) |
| C22, C23 | lock protocol | lock-order argument; commutation of OR; invariants over all executions |
| C24, C25 | merge, == | fold lemmas |
| C26, C27 | ModifiedGraph | refinement; witnesses |
| C28–C32 | serializer on byte lists | layout arithmetic, codec round trip; witnesses for stale and zero files |
| C33–C37 | vistree scan | invariants over the scan; witnesses for unsoundness |
| C38–C41 | visgraph generation | fold over vistree results; merge lemma |
| C42–C47 | A* with nondeterministic pop | invariants over all executions, well-founded termination, optimality |
| C48, C49, C51 | shortest_path wrapper | case analysis over oracle answers |
| C50, C52 | distances over ℝ | triangle inequality in the plane |
| C53–C55 | Python layer | arithmetic and list lemmas |
| C56 | the period constant | counting wraps; witness |
| C57, C58 | Python path interpolator over the query model | composition of C01, C04, C42–C51 |
| C59 | `project` with rounding and a square root of given accuracy | error bounds, comparison with `Real.sqrt` |
| C61, C62 | generation, endpoint scans and search together | composition of C34, C38, C42–C46; witness of two islands |
| C63 | the direct line on the sphere against lines in the plane | exact unit vectors; two islands as witnesses; the equator |
| C64 | A* over rounded doubles | relative errors carried through the frontier argument of C44 |
| C65 | loading of cut and extended files | the loader on a prefix gives the same or leaves the file |
| C66 | shapefile, parts, files, loading and query together, in doubles | composition of C54, C38, C60, C61, C64 |
| C67 | S2 points and back; edges of the index | error analysis against real sine, cosine and argument |
| C68 | arithmetic on full doubles | grid and size of every intermediate value; `fl` and `fl64` are characterised by `Rounds`, the nearest-even rule of IEEE 754 |
| C69 | any weighting and limit, NaN and infinities included | order-preserving image of the priorities; instances of C42, C43, C46 |
| C70 | convex obstacles and obstacles in front hide what is behind | C35 with every nearer open edge crossed; affine areas along the ray |
| C71 | scans with computed angles | error analysis of `angle_to_horizontal`; C11; divisibility of cross products on lattices |
| C72 | fused multiply-add | the error bounds of C04, C05, C11, C59 and C64 with each product rounded or not |
| C73 | everything from shapefile to path in computed arithmetic | C72 at every scan, then C60 and the voyage bound of C72; lattice bound for corners |
| C74 | paths against all courses over the sea | a shortest walk over the finitely many vertices and turning points is pulled tight at every free turning point; what is left turns at vertices only and is a chain of sight lines; then C61 and C73 |
| C75 | scan, graph and path on maps of convex islands | the open edges are ordered by a separating line or by distance for each pair of islands, so orderly positions are legible; the rest from C90. `OrderlyBy` is a criterion that can be evaluated for a given map |
| C76 | shapefile of convex islands to path over the sea | the stages of C73, after which the query runs like one on a graph made in one go with exact scans (`whole_voyage`), to which C75 applies; a special case of `C90_end_to_end` |
| C77 | progress bar of the generation | invariant over the ticks; positions by monotone rounding in two precisions (`Rounds 24`, `Rounds 53`); the remaining time stays in range under `ClockOk` |
| C78 | failing system calls while saving and loading | case analysis over the calls; what is left is a crashed save of C31 |
| C79 | effort of the search | invariant: every insertion belongs to a different leg, priorities taken out never fall; the family of graphs by induction over the stages from the end, carried from whole numbers to real distances |
| C80 | texts of coordinates, polygons, errors and warnings | a coordinate's text is a prefix code, so texts are read off from left to right; the stuck node by the invariants of C43; forgetting the texts gives the model of C42–C57 |
| C81 | loops of S2 | triple products of the computed points against exact ones on the sphere; the interior of one-vertex loops and triangles as documented by S2 (`LoopRules`) |
| C82 | endpoints near the meridian | the legs of C62 bounded from below by distances on the map; witness by a computed scan |
| C83 | generator from segments | the map computed by induction on the list; two edges per corner of a ring, in either order; witness by a computed scan |
| C84 | damaged files | loading any bytes behind an intact head; bits of the rows placed by a sum; a count above the file length |
| C88 | arbitrary files | inverting every step of loading; codes of fixed length are prefix-free; the checked constructor of polygons compared with the plain one |
| C89 | what a ring goes round | the sum of the angles under which the edges are seen is constant off the ring, jumps by a full turn across each edge, and is the same all along one side; its sign from the area, which is its integral; additive quantities are unchanged when vertices in line are dropped |
| C90 | scan, graph and path on maps of polygons of any form; the whole program | a hidden vertex is rejected if all open edges up to one met at a distance of its own cross its line of sight (`Legible`); edges crossed and interior angles entered are then the same as points enclosed (C89), copies included; paths from C42 and C74. `LegibleBy` is a criterion that can be evaluated for a given map |
| C91 | scan and graph, exactly | the table of open edges holds just the edges between whose ends the direction is, except second edges beginning at a vertex, whose key is taken (`World.entries`, `World.listed_entry`), so its first entry is the edge met nearest; `RankedBy` and `RoomyBy` are criteria that can be evaluated for a given map |
| C92 | paths round the globe | the polygons and their copies up to the destination's are one map, on which the course is pulled tight (`taut`, from C74); each line of what is left is shorter than a turn, so moved by whole periods it leads to a neighbouring copy and is an edge (C90); conversely each leg is laid beside the last one; `C92_end_to_end` has it for the whole program from the shapefile on, as C90 |
| C93 | the shuffle behind parts | every exchange stays inside; counting multiples in an interval for the scaling; the last choice is determined by where the last position went; composition with C53; witnesses by computing the generator in the kernel |
| C94 | fate of exceptions in parallel loops | each loop succeeds or meets an unknown vertex, by induction; the first vertex of a sweep is reported when nothing is open; the bound in degrees by exactness of doubles of this size |
| C95 | sessions of calls | invariant of all reachable sessions (graphs are in order, tools fit the polygons, which no call changes) |
| C96 | Python objects | invariant of the memory: every polygon has a list of its own; reading only adds objects |
| C97 | relations between answers | an answer is a course (C92, course), courses can be reversed, joined and sailed where there is less land, and a course bounds the answer (C92, path) |
| C98 | overlays over any base | the entry of a pair is a fold over the changes of that pair; exact closed form of the fold; stacks by induction on the depth |
| C99 | convex islands | triple products in coordinates of the tangent plane with explicit error terms; cones over corners; fan of triangles; the interior of convex loops as documented by S2 (`ConvexRules`) |
| C100 | short courses and coasts | signs of triple products with the error terms of C99; ends of touching arcs are close by scalar products; `GetCrossingEdges` as documented by S2 (`CrossRules`) |
| C101 | voyages among small islands | C99 and C100 joined with the chart theorems of C90; a line that goes deep into a convex loop crosses one of its sides on the sphere, found where it enters, or goes through a corner, which is excluded |
| C85 | arithmetic with coordinates | error bounds of single roundings; the unit vector over the reals |
| C86 | distances on the sphere | rounding errors of the haversine formula of S2; difference of angles from the difference of the squares of their sines; lengths in the plane by cutting the line into many short ones |
| C87 | routes on the globe | sines of half angles from below by chords; a hook-shaped island at the pole with computed scans |
| C60 | disk of folders, generation, merging, loading | composition of C24, C28, C53 |

## Limits

* C74 takes the land as a set with the properties `Encloses` (open, bounded by the edges, on the left
  of each edge and inside each corner), which `convex_encloses` establishes for strictly convex
  polygons and C89 for all polygons that do not touch themselves. It leaves out endpoints that see each other (then the code asks S2 whether the line is
  free) and courses that cross the meridian.
* C90 asks that every vertex, seen from every other not farther north, is legible: if an edge is in the
  way, or another vertex exactly in front, then an edge is in the way and so are all open edges which the
  sweep met nearer than it. This is about the order in which the sweep meets edges; the criterion
  `LegibleBy` decides it for a given map (`ChartedBy` all the hypotheses on a map), but not all maps meet
  it. The map of the project's own test files, 169 vertices of the coast of Australia, does
  (`Verif/Conformance/Reproduce.lean`).
* C92 leaves out courses of 360 degrees and more, and asks that where two vertices see each other
  directly the way across the meridian is not shorter (C61), and that new endpoints see nothing across
  the meridian only (C82).
* C91 shows that this cannot be weakened much: where no two edges are met at the same distance, the scan
  is right just if every hidden vertex is behind the edge met nearest. Edges met at the same distance,
  vertices in line and edges within rounding of a vertex are outside C91.
* C75 asks that any two islands, seen from any vertex, are in different directions or at different
  distances, and excludes places exactly in line with two vertices. C35 and C39 show maps outside
  this class on which the scan reports a hidden vertex.
* Partial properties are marked in `MANIFEST.json` with a note of what is missing.
* Properties of the S2 index (that the closest segment is the closest one, that containment is
  right) live in a library that is not part of the repository; the theorems hold for all its answers.
