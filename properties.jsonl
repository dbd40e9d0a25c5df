{"id": "C01", "title": "Longitude normalisation lands in range and is canonical", "statement": "Normalising a coordinate always terminates, returns a longitude in [-180,180] degrees with the latitude unchanged, shifts the longitude by a whole number of periods, leaves in-range coordinates alone, and maps two coordinates to the same result exactly when they differ by whole periods. No int32 overflow happens on the way.", "quantifier": "every int32 longitude and every int32 latitude", "why_tests_cant": "2^32 longitudes; termination and absence of overflow of two data-dependent loops is a statement about all of them", "anchors": ["capi/src/implementation/visibility_graphs/code/coordinate_periodicity/coordinate_periodicity.cpp:coordinate_from_periodic_coordinate", "capi/src/implementation/visibility_graphs/code/constants/constants.hpp"]}
{"id": "C02", "title": "Periodic copies round-trip", "statement": "For an in-range coordinate the three periodic copies are pairwise different, share its latitude, normalise back to it, and the last two (and only those) are reported as being over the meridian. The same holds element-wise for lists of coordinates and segments.", "quantifier": "every coordinate with longitude in [-180,180] degrees, every list of coordinates or segments", "why_tests_cant": "holds for all 360000001 longitudes and all list lengths", "anchors": ["capi/src/implementation/visibility_graphs/code/coordinate_periodicity/coordinate_periodicity.cpp:periodic_coordinates_from_coordinate", "capi/src/implementation/visibility_graphs/code/coordinate_periodicity/coordinate_periodicity.cpp:is_coordinate_over_meridian", "capi/src/implementation/visibility_graphs/code/coordinate_periodicity/coordinate_periodicity.cpp:make_coordinates_periodic", "capi/src/implementation/visibility_graphs/code/coordinate_periodicity/coordinate_periodicity.cpp:make_segments_periodic"]}
{"id": "C03", "title": "Integer geometry never overflows on periodic geographic input", "statement": "Adding, subtracting, cross/dot products, squared magnitude, orientation, on-segment and segment intersection of coordinates whose longitude is within 540.000001 degrees and latitude within 90 degrees perform no signed overflow and no out-of-range float-to-int conversion, so the 32/64-bit results equal the mathematical ones. Outside that range overflow is possible (witness).", "quantifier": "all coordinates in the periodic geographic range", "why_tests_cant": "absence of undefined behaviour must hold for every one of ~10^34 argument tuples", "anchors": ["capi/src/implementation/visibility_graphs/code/types/coordinate/coordinate.cpp", "capi/src/implementation/visibility_graphs/code/types/line_segment/line_segment.cpp:intersection_with_segment", "capi/src/implementation/visibility_graphs/code/types/line_segment/line_segment.cpp:orientation_of_point_to_segment"]}
{"id": "C04", "title": "Degrees to microdegrees round trip", "statement": "Constructing a coordinate from the degrees another coordinate reports reproduces that coordinate (claimed by the API shape; false: truncation can lose one microdegree); it is always within one microdegree, never moves away from zero and is exact on degree multiples of 1.", "quantifier": "every coordinate in the geographic range and every result of IEEE-754 round-to-nearest multiplication", "why_tests_cant": "needs all 3.6e8 values, and the rounding error analysis is not visible in sampled values", "anchors": ["capi/src/implementation/visibility_graphs/code/types/coordinate/coordinate.cpp:Coordinate::Coordinate", "capi/src/implementation/visibility_graphs/code/types/coordinate/coordinate.cpp:get_longitude"]}
{"id": "C05", "title": "Scalar multiple factor is sound and complete", "statement": "scalar_multiple_factor is empty exactly when the two vectors are not parallel; when present for a non-zero vector its sign is the sign of the exact ratio k with other = k*this and its value is the correctly rounded k.", "quantifier": "all pairs of int32 vectors in range", "why_tests_cant": "all pairs of integer vectors; floating-point division", "anchors": ["capi/src/implementation/visibility_graphs/code/types/coordinate/coordinate.cpp:scalar_multiple_factor", "capi/src/implementation/visibility_graphs/code/types/coordinate/coordinate.cpp:parallel"]}
{"id": "C06", "title": "Orientation predicates are exact", "statement": "orientation_of_point_to_segment and vector_orientation return counter-clockwise / clockwise / collinear exactly according to the sign of the exact determinant; swapping the endpoints flips the answer; cyclic rotation of the three points keeps it; translation keeps it.", "quantifier": "all triples of coordinates in range", "why_tests_cant": "exactness (no epsilon) must hold for every near-degenerate triple", "anchors": ["capi/src/implementation/visibility_graphs/code/types/line_segment/line_segment.cpp:orientation_of_point_to_segment", "capi/src/implementation/visibility_graphs/code/types/coordinate/coordinate.cpp:vector_orientation"]}
{"id": "C07", "title": "Segment intersection decides exactly and lands within one microdegree", "statement": "For non-parallel segments intersection_with_segment returns a point iff the two closed segments really meet over the rationals, the answer does not depend on argument order or endpoint order (as to existence), and the returned coordinate is within one microdegree per axis of the true meeting point.", "quantifier": "all pairs of non-parallel segments in range", "why_tests_cant": "all near-touching configurations; double rounding of the parameter", "anchors": ["capi/src/implementation/visibility_graphs/code/types/line_segment/line_segment.cpp:intersection_with_segment"]}
{"id": "C08", "title": "Parallel segments intersect only in shared endpoints", "statement": "For parallel segments the result is a shared endpoint if there is one and empty otherwise; in particular collinear overlapping segments without a shared endpoint are reported as not intersecting (witness), so existence is not exact there.", "quantifier": "all pairs of parallel segments", "why_tests_cant": "the claim covers every parallel pair, including overlaps", "anchors": ["capi/src/implementation/visibility_graphs/code/types/line_segment/line_segment.cpp:intersection_with_segment"]}
{"id": "C09", "title": "Equal objects hash equally", "statement": "Objects that compare equal have equal std::hash values. True for coordinates and polygons; false for line segments (a segment equals its reverse, but their hashes differ: witness). A hash-table lookup therefore may miss an equal segment. Coordinates of one latitude never share a hash (spread), but every place on the equator shares one with a place a microdegree north and 63 or 65 west of it (collision), so hashes alone do not tell places apart (injective_false).", "quantifier": "all pairs of equal coordinates / polygons / segments", "why_tests_cant": "quantifies over all pairs; hash behaviour of a reversed segment is not covered by tests", "anchors": ["capi/src/implementation/visibility_graphs/code/types/coordinate/coordinate.cpp:std::hash<Coordinate>", "capi/src/implementation/visibility_graphs/code/types/line_segment/line_segment.cpp:std::hash<LineSegment>", "capi/src/implementation/visibility_graphs/code/types/line_segment/line_segment.cpp:operator==", "capi/src/implementation/visibility_graphs/code/types/polygon/polygon.cpp:std::hash<Polygon>"]}
{"id": "C10", "title": "on_segment is exact", "statement": "on_segment holds iff the point is a convex combination of the endpoints, although the range test compares degrees in floating point.", "quantifier": "all segments and points with int32 microdegrees", "why_tests_cant": "floating comparison must agree with integer comparison for every value", "anchors": ["capi/src/implementation/visibility_graphs/code/types/line_segment/line_segment.cpp:on_segment"]}
{"id": "C11", "title": "Angular sweep order", "statement": "Sorting vertices around an observer puts the observer first, then all other vertices by counter-clockwise angle from east, nearer first on the same ray; the comparison is a strict total order on distinct non-observer points, so the result is the same for every input order. (Angles are compared exactly in the model; for which vectors a rounded atan2 agrees is a separate theorem.)", "quantifier": "every observer, every duplicate-free vertex list and every permutation of it", "why_tests_cant": "all permutations and all angle configurations", "anchors": ["capi/src/implementation/visibility_graphs/code/geom/angle_sorter/angle_sorter.cpp:sort_counter_clockwise_around_observer"]}
{"id": "C12", "title": "Polygon normalisation gives counter-clockwise rings", "statement": "After constructing a polygon the stored ring has non-negative signed area in exact arithmetic, it contains the same vertices as the cleaned input ring, and for a ring of at least three vertices with non-zero area it is counter-clockwise. False for slivers whose area drowns in the rounding of the winding sum (witness: stored clockwise); true as soon as twice the area exceeds an explicit rounding bound.", "quantifier": "every vertex list", "why_tests_cant": "all rings of every length", "anchors": ["capi/src/implementation/visibility_graphs/code/types/polygon/polygon.cpp:normalize_vertex_orientation_to_counter_clockwise", "capi/src/implementation/visibility_graphs/code/types/polygon/polygon.cpp:get_orientation_of_vertices"]}
{"id": "C13", "title": "Polygon construction does not depend on drawing direction", "statement": "Building a polygon from a ring and from the reversed ring yields the same stored vertices up to nothing more than the choice for zero-area rings.", "quantifier": "every vertex list with non-zero signed area", "why_tests_cant": "all rings of every length", "anchors": ["capi/src/implementation/visibility_graphs/code/types/polygon/polygon.cpp:preprocess_vertices"]}
{"id": "C14", "title": "Removing redundant vertices keeps the ring's point set and area", "statement": "Construction drops exactly the vertices lying straight on the way from predecessor to successor (or equal to a neighbour); every corner and every spike is kept; kept vertices keep their order. A corner given twice in a row is lost altogether (witness). With no equal neighbours, the signed area and the covered boundary point set are unchanged.", "quantifier": "every vertex list without equal cyclic neighbours", "why_tests_cant": "all rings of every length", "anchors": ["capi/src/implementation/visibility_graphs/code/types/polygon/polygon.cpp:remove_collinear_vertices"]}
{"id": "C15", "title": "Polygon construction is idempotent", "statement": "Constructing a polygon from the vertices of a constructed polygon gives the same polygon (needed by save/load and by the periodic copies). False when the input has equal neighbouring vertices (witness), and for slivers whose winding sum rounds positive in both directions, which every rebuild turns round (witness). Without equal neighbours this is the only way to fail, and it cannot happen once the area exceeds the rounding error.", "quantifier": "every vertex list", "why_tests_cant": "all rings of every length", "anchors": ["capi/src/implementation/visibility_graphs/code/types/polygon/polygon.cpp:preprocess_vertices", "capi/src/implementation/visibility_graphs/code/serialization/graph_serializer.cpp:deserialize_polygon_vertices_from_mmap"]}
{"id": "C16", "title": "The observer's own corner blocks exactly its interior wedge", "statement": "For an observer that is a corner of a counter-clockwise polygon, a point strictly inside the interior angle of that corner is never visible and a point strictly outside it is never blocked by the corner test. False for very thin corners with long edges, where the rounded reflex test errs (witness); true for edges up to 22 degrees or a determinant of at least 300.", "quantifier": "every corner and every point in range", "why_tests_cant": "all triples of directions, reflex and convex", "anchors": ["capi/src/implementation/visibility_graphs/code/types/polyline/three_vertex_polyline.cpp:point_visible", "capi/src/implementation/visibility_graphs/code/types/polyline/three_vertex_polyline.cpp:is_reflex"]}
{"id": "C17", "title": "Graph answers reflect the history of updates", "statement": "After any sequence of add_edge/remove_edge (directed or not) on a graph built from polygons with distinct vertices, has_edge(a,b) holds iff some addition of a->b came after the last removal of a->b, and is_edge_meridian_crossing(a,b) holds iff moreover all those additions were meridian-crossing.", "quantifier": "all finite update sequences and all vertex pairs", "why_tests_cant": "unbounded histories", "anchors": ["capi/src/implementation/visibility_graphs/code/datastructures/graph/graph.cpp:add_directed_edge", "capi/src/implementation/visibility_graphs/code/datastructures/graph/graph.cpp:remove_directed_edge", "capi/src/implementation/visibility_graphs/code/datastructures/graph/graph.cpp:has_edge", "capi/src/implementation/visibility_graphs/code/datastructures/graph/graph.cpp:is_edge_meridian_crossing"]}
{"id": "C18", "title": "Graph updates touch nothing else and never create self edges", "statement": "An update of a->b changes the answers for no other ordered pair; the undirected operations keep the graph symmetric; has_edge(a,a) is always false.", "quantifier": "all graphs reachable by updates", "why_tests_cant": "unbounded histories, all pairs", "anchors": ["capi/src/implementation/visibility_graphs/code/datastructures/graph/graph.cpp"]}
{"id": "C19", "title": "get_neighbors agrees with has_edge", "statement": "On a graph only updated through undirected operations, get_neighbors(v) lists without repetition exactly the vertices w with has_edge(v,w). With directed edges it lists the predecessors instead (witness).", "quantifier": "all graphs over distinct vertices and all undirected update histories", "why_tests_cant": "unbounded histories", "anchors": ["capi/src/implementation/visibility_graphs/code/datastructures/graph/graph.cpp:get_neighbors"]}
{"id": "C20", "title": "Unknown coordinates are rejected, not misread", "statement": "Every edge operation naming a coordinate that is not a vertex raises an error and leaves the graph unchanged (except that the self-edge query is answered false without looking); operations on known vertices never access the matrix out of bounds, and take no lock twice. The sizes are needed (short, row, locks, relock): with a shorter matrix, fewer locks or one index for two vertices, exactly the operations that use what is missing are undefined.", "quantifier": "all graphs and all coordinates", "why_tests_cant": "memory safety for every index computation", "anchors": ["capi/src/implementation/visibility_graphs/code/datastructures/graph/graph.cpp:coordinate_to_index"]}
{"id": "C21", "title": "add_vertex keeps the existing edges", "statement": "Adding a vertex leaves the answers for all existing vertex pairs unchanged. False: the matrix is resized without being re-laid out (witness); true for graphs without edges. In general the byte of the pair i, j (column-major place k = i + (n+1)j) is the one that used to belong to the pair k mod n, k div n, and edges into the first vertex are kept.", "quantifier": "all graphs and all new vertices", "why_tests_cant": "must hold for all graph states", "anchors": ["capi/src/implementation/visibility_graphs/code/datastructures/graph/graph.cpp:add_vertex"]}
{"id": "C22", "title": "Concurrent graph access cannot deadlock", "statement": "Any number of threads running any finite programs of graph operations can always make a step until all are finished.", "quantifier": "all numbers of threads, all programs, all schedules", "why_tests_cant": "schedules are unbounded and not controllable in tests", "anchors": ["capi/src/implementation/visibility_graphs/code/datastructures/graph/graph.cpp:add_directed_edge", "capi/src/implementation/visibility_graphs/code/datastructures/graph/graph.cpp:has_edge"]}
{"id": "C23", "title": "Concurrent additions are not lost and the result is schedule independent", "statement": "When any number of threads add edges concurrently, the final graph is the one obtained by performing all additions in any sequential order; no update is lost; no cell is accessed by two threads at once if one writes.", "quantifier": "all numbers of threads, all programs of additions, all schedules", "why_tests_cant": "data races are schedule dependent", "anchors": ["capi/src/implementation/visibility_graphs/code/datastructures/graph/graph.cpp:add_directed_edge", "capi/src/implementation/visibility_graphs/code/visgraph/visgraph_generator.cpp:generate", "capi/src/implementation/visibility_graphs/code/datastructures/graph/graph.cpp:merge_graphs"]}
{"id": "C24", "title": "Merging graphs is union", "statement": "The merged graph has exactly the vertices of the inputs' polygons, has_edge iff one of the inputs (in either direction) has the edge, and an edge is meridian-crossing iff it is crossing in every input having it; hence independent of order, grouping and repetition of inputs.", "quantifier": "all lists of graphs with symmetric edges and distinct vertices, all hash orders, all schedules", "why_tests_cant": "all lists of graphs", "anchors": ["capi/src/implementation/visibility_graphs/code/datastructures/graph/graph.cpp:merge_graphs"]}
{"id": "C25", "title": "Graph equality is observational", "statement": "Two graphs with distinct vertices of pairwise different hash and identical vertex sets and edge answers compare equal irrespective of vertex order; the polygons are ignored, and graphs differing in an answer compare unequal.", "quantifier": "all pairs of graphs", "why_tests_cant": "all graphs and vertex orders", "anchors": ["capi/src/implementation/visibility_graphs/code/datastructures/graph/graph.cpp:operator==", "capi/src/implementation/visibility_graphs/code/datastructures/graph/graph.cpp:to_string_representation"]}
{"id": "C26", "title": "Overlay graphs never change the base graph and read through it", "statement": "A query on an overlay about an ordered pair never updated through it answers like the base graph; updates change only the named pair; the base graph is never modified.", "quantifier": "all base graphs and all overlay histories", "why_tests_cant": "unbounded histories", "anchors": ["capi/src/implementation/visibility_graphs/code/datastructures/modified_graph/modified_graph.cpp"]}
{"id": "C27", "title": "Overlay graphs behave like ordinary graphs", "statement": "After the same updates the overlay answers like the updated base graph. False for a crossing re-addition after removal, for crossing additions from new vertices (raises), and for neighbour multiplicity (witnesses); true for histories without removals over base vertices.", "quantifier": "all base graphs and update histories over base vertices", "why_tests_cant": "unbounded histories", "anchors": ["capi/src/implementation/visibility_graphs/code/datastructures/modified_graph/modified_graph.cpp:add_directed_edge"]}
{"id": "C28", "title": "Save then load gives back the same graph", "statement": "Loading a file freshly written from a graph gives the same polygons, vertices, has_edge and is_edge_meridian_crossing answers, provided the polygons are stable under construction, vertices are distinct and edges symmetric.", "quantifier": "all graphs with any number of polygons, vertices and edges below 2^64", "why_tests_cant": "all graphs; bit-level layout for every size", "anchors": ["capi/src/implementation/visibility_graphs/code/serialization/graph_serializer.cpp:serialize_to_file", "capi/src/implementation/visibility_graphs/code/serialization/graph_serializer.cpp:deserialize_from_file"]}
{"id": "C29", "title": "Saving stays inside the file and loading a saved file stays inside it", "statement": "Every byte written when saving, and every byte read when loading the result, lies inside the allocated file; the header, polygon, matrix and meridian regions do not overlap.", "quantifier": "all graphs", "why_tests_cant": "memory safety for every graph size", "anchors": ["capi/src/implementation/visibility_graphs/code/serialization/graph_serializer.cpp:calculate_number_of_bytes_for_graph", "capi/src/implementation/visibility_graphs/code/serialization/graph_serializer.cpp:serialize_adjacency_matrix_to_mmap"]}
{"id": "C30", "title": "Overwriting an existing file gives the same result as a fresh file", "statement": "The graph loaded after saving does not depend on what the file contained before. False: unwritten slots keep stale bytes which turn plain edges into meridian-crossing ones (witness); has_edge and polygons are unaffected, and it holds for graphs without crossing edges. (exact) For graphs with different vertices it holds exactly if none of the words of the old file at the places never written is the number of an edge that does not cross; (short) so it holds over files not longer than what is written.", "quantifier": "all previous file contents and all graphs", "why_tests_cant": "all previous contents", "anchors": ["capi/src/implementation/visibility_graphs/code/serialization/graph_serializer.cpp:allocate_file", "capi/src/implementation/visibility_graphs/code/serialization/graph_serializer.cpp:calculate_number_of_meridian_spanning_edges_for_graph"]}
{"id": "C31", "title": "An interrupted save is not silently loaded as a different graph", "statement": "A file left behind by a crash during saving is not loaded as a wrong graph. False: after allocation the zero-filled file loads as an empty graph without error (witness); a crash point analysis states what each prefix of the writes loads as. (twice, retry, retry_load) Interrupted saves leave no trace after a complete one: however often and wherever saving a graph was interrupted, saving it again leaves the same bytes as if it had not been. (overwritten) Over an existing file an interrupted save is loaded with the right polygons, vertices and edges once the number of crossing edges is written; before that not even safe loading is certain (overwritten_false, for every graph).", "quantifier": "all crash points of the write sequence", "why_tests_cant": "crash points are not reachable by tests", "anchors": ["capi/src/implementation/visibility_graphs/code/serialization/graph_serializer.cpp:serialize_to_file", "capi/src/implementation/visibility_graphs/code/serialization/graph_serializer.cpp:allocate_file"]}
{"id": "C32", "title": "Integer codec round trip", "statement": "Every uint64, uint32 and int32 written at an offset is read back unchanged, little-endian, and writes to disjoint ranges do not disturb each other.", "quantifier": "all values, all offsets, all buffers", "why_tests_cant": "2^64 values", "anchors": ["capi/src/implementation/visibility_graphs/code/serialization/graph_serializer.cpp:serialize_to_mmap", "capi/src/implementation/visibility_graphs/code/serialization/graph_serializer.cpp:deserialize_8_bytes_from_mmap"]}
{"id": "C33", "title": "Visible vertices are normalised known vertices", "statement": "Every reported visible vertex is the normalised form of an obstacle vertex different from the observer, its longitude is in range, and it carries the crossing flag iff the obstacle vertex was out of range; each obstacle vertex is reported at most once.", "quantifier": "all obstacle sets, observers and hash orders", "why_tests_cant": "all obstacle sets", "anchors": ["capi/src/implementation/visibility_graphs/code/visgraph/vistree_generator.cpp:get_visible_vertices"]}
{"id": "C34", "title": "Nothing that is clearly visible is missed", "statement": "A vertex whose sight line from the observer meets no obstacle edge not incident to the observer except at the vertex itself, and which lies outside the observer's own corner, is reported visible.", "quantifier": "all obstacle sets, observers, hash orders", "why_tests_cant": "all geometric configurations", "anchors": ["capi/src/implementation/visibility_graphs/code/visgraph/vistree_generator.cpp:get_visible_vertices_from_candidate_segments_and_vertices", "capi/src/implementation/visibility_graphs/code/visgraph/vistree_generator.cpp:is_vertex_visible"]}
{"id": "C35", "title": "Nothing hidden is reported visible", "statement": "A vertex whose sight line properly crosses an obstacle edge is not reported. False: open edges are ordered by the distance at insertion and edges inserted at equal distance are dropped, corners shared by polygons confuse it and crossings are rounded (witnesses); true when the crossed edge was met at a distance of its own and every edge met nearer and still open is crossed a microdegree or more before the vertex too.", "quantifier": "all obstacle sets and observers", "why_tests_cant": "all geometric configurations", "anchors": ["capi/src/implementation/visibility_graphs/code/visgraph/vistree_generator.cpp:is_vertex_visible", "capi/src/implementation/visibility_graphs/code/datastructures/open_edges/open_edges.cpp"]}
{"id": "C36", "title": "The half scan is the upper part of the full scan", "statement": "Scanning only the half turn gives exactly the visible vertices of the full scan that are not below the observer's latitude, in the same order.", "quantifier": "all obstacle sets and observers strictly west of the scan limit", "why_tests_cant": "all geometric configurations", "anchors": ["capi/src/implementation/visibility_graphs/code/visgraph/vistree_generator.cpp:get_visible_vertices"]}
{"id": "C37", "title": "The visibility scan raises no error and has no undefined behaviour", "statement": "For obstacles given as polygons in range with distinct vertices of at least three corners, scanning from any in-range observer never throws, never reads an empty container and never overflows. Outside these conditions it may: sorting is undefined if a vertex is too far from the observer (too_far), and so is looking from a vertex with fewer than two incident edges (lone).", "quantifier": "all obstacle sets, observers, hash orders", "why_tests_cant": "all geometric configurations", "anchors": ["capi/src/implementation/visibility_graphs/code/visgraph/vistree_generator.cpp"]}
{"id": "C38", "title": "Generated graphs contain every clear sight line", "statement": "generate links two vertices whenever the sight line between some periodic copies of them is clear; edges are symmetric and connect polygon vertices only.", "quantifier": "all polygon lists in range", "why_tests_cant": "all geometric configurations", "anchors": ["capi/src/implementation/visibility_graphs/code/visgraph/visgraph_generator.cpp:generate"]}
{"id": "C39", "title": "Graph generation is deterministic", "statement": "The generated graph's answers do not depend on thread count, schedule or on the order in which vertices are processed. They do depend on the address-dependent order of segments when two edges cross the initial scanline within a microdegree of each other (witness); on a map where this does not happen and no polygon goes along an edge both ways, they do not depend on the order of any container, on hash look-ups or on how the compiler orders additions.", "quantifier": "all schedules, processing orders, container orders and hash look-ups", "why_tests_cant": "schedules", "anchors": ["capi/src/implementation/visibility_graphs/code/visgraph/visgraph_generator.cpp:generate"]}
{"id": "C40", "title": "Sharded generation merges to the full graph", "statement": "Generating over ranges that together cover all vertex positions with one common shuffle and merging the parts gives the same has_edge and crossing answers as generating in one go; on maps as in C39 even if every part is computed by another process with its own container orders.", "quantifier": "all polygon lists, all permutations, all covers by ranges", "why_tests_cant": "all splits, permutations", "anchors": ["capi/src/implementation/visibility_graphs/code/visgraph/visgraph_generator.cpp:generate_with_shuffled_range", "capi/src/implementation/visibility_graphs/code/datastructures/graph/graph.cpp:merge_graphs", "capi/src/implementation/graph_merger.py"]}
{"id": "C41", "title": "Improper ranges are rejected", "statement": "A range is rejected exactly when it is reversed or exceeds the number of vertices (unless there are no polygons at all); accepted ranges never read outside the vertex list; an empty range gives the empty graph.", "quantifier": "all ranges and polygon lists", "why_tests_cant": "all ranges", "anchors": ["capi/src/implementation/visibility_graphs/code/visgraph/visgraph_generator.cpp:generate_with_shuffled_range"]}
{"id": "C42", "title": "Returned paths are real paths", "statement": "A returned path starts at the (corrected) source, ends at the (corrected) destination, and each leg is an edge of the search graph (or the path is the direct line).", "quantifier": "all graphs, endpoints, weights, limits, queue tie-breaks, also with rounded arithmetic", "why_tests_cant": "all graphs and tie-breaks", "anchors": ["capi/src/implementation/visibility_graphs/code/shortest_path/shortest_path_computer.cpp:shortest_path"]}
{"id": "C43", "title": "Searches terminate and return simple paths", "statement": "The search terminates on finite graphs and the returned path visits no vertex twice; following predecessors never loops.", "quantifier": "all graphs, weights, limits and tie-breaks; path reconstruction for any strictly increasing rounded addition", "why_tests_cant": "termination", "anchors": ["capi/src/implementation/visibility_graphs/code/shortest_path/shortest_path_computer.cpp:shortest_path"]}
{"id": "C44", "title": "Paths are shortest for greediness at most one", "statement": "With unlimited search distance and weighting in [0,1] the returned path's length (exact arithmetic) is minimal among all paths in the search graph.", "quantifier": "all finite graphs with the code's edge lengths", "why_tests_cant": "optimality quantifies over all paths", "anchors": ["capi/src/implementation/visibility_graphs/code/shortest_path/shortest_path_computer.cpp:shortest_path"]}
{"id": "C45", "title": "Greedy paths are bounded", "statement": "With weighting w > 1 the returned path is at most w times as long as the shortest; bound is not 1 (witness).", "quantifier": "all finite graphs and w >= 1", "why_tests_cant": "optimality quantifies over all paths", "anchors": ["capi/src/implementation/visibility_graphs/code/shortest_path/shortest_path_computer.cpp:shortest_path"]}
{"id": "C46", "title": "Failure is reported exactly when there is no route", "statement": "Without a distance limit, the search raises the could-not-find error iff the destination is not reachable from the source in the search graph.", "quantifier": "all finite graphs", "why_tests_cant": "reachability", "anchors": ["capi/src/implementation/visibility_graphs/code/shortest_path/shortest_path_computer.cpp:shortest_path"]}
{"id": "C47", "title": "The search limit is respected", "statement": "Every vertex on a returned path other than the source is within the maximum distance of the source, and the path is shortest among paths staying within it.", "quantifier": "all finite graphs and limits", "why_tests_cant": "all paths", "anchors": ["capi/src/implementation/visibility_graphs/code/shortest_path/shortest_path_computer.cpp:shortest_path"]}
{"id": "C48", "title": "Land endpoints are rejected or corrected as requested", "statement": "Without correction, an endpoint on land always raises an error and otherwise endpoints are the normalised inputs; with correction only endpoints on land are moved.", "quantifier": "all inputs and all answers of the spatial index", "why_tests_cant": "all oracle behaviours", "anchors": ["capi/src/implementation/visibility_graphs/code/shortest_path/shortest_path_computer.cpp:handle_land_collisions"]}
{"id": "C49", "title": "Batch search equals single searches", "statement": "The i-th batch result is the path of the i-th query, or its error message if and only if the single query raises; results never mix between positions; exactly one of path and error is present.", "quantifier": "all query lists and schedules", "why_tests_cant": "schedules", "anchors": ["capi/src/implementation/visibility_graphs/code/shortest_path/shortest_path_computer.cpp:shortest_paths", "capi/src/implementation/path_interpolator.py"]}
{"id": "C50", "title": "Travel cost is symmetric", "statement": "The length of an edge is the same in both directions, direct or meridian-crossing, so shortest distances are symmetric.", "quantifier": "all coordinate pairs and all symmetric graphs", "why_tests_cant": "all pairs", "anchors": ["capi/src/implementation/visibility_graphs/code/shortest_path/shortest_path_computer.cpp:distance_measurement"]}
{"id": "C51", "title": "Unobstructed queries return the straight line", "statement": "If the spatial index reports no blocking edge between the corrected endpoints, the path consists of exactly the two endpoints and no search happens.", "quantifier": "all inputs", "why_tests_cant": "all oracle behaviours", "anchors": ["capi/src/implementation/visibility_graphs/code/shortest_path/shortest_path_computer.cpp:shortest_path"]}
{"id": "C52", "title": "The search heuristic never overestimates", "statement": "For in-range coordinates the heuristic obeys the triangle inequality against every edge length (direct and crossing), hence never exceeds the remaining path length.", "quantifier": "all in-range coordinate triples", "why_tests_cant": "real inequality over all triples", "anchors": ["capi/src/implementation/visibility_graphs/code/shortest_path/shortest_path_computer.cpp:heuristic_distance_measurement"]}
{"id": "C53", "title": "Vertex splits partition the vertices", "statement": "For every number of splits >= 1 the ranges of splits 0..k-1 are consecutive, disjoint and cover all vertices, also when there are fewer vertices than splits; all are accepted by range generation. (rejected) A split with a negative number, or one that would begin behind the last vertex, raises an error.", "quantifier": "all vertex counts and split counts", "why_tests_cant": "all pairs of naturals", "anchors": ["capi/src/implementation/graph_generator.py:generate_for_vertex_range"]}
{"id": "C54", "title": "Shapefile rings are read completely", "statement": "Each polygon record with a first ring of at least four points yields the points of its first ring without the closing repetition, other records are skipped, order kept; only the outer first part is used.", "quantifier": "all shape lists", "why_tests_cant": "all shape lists", "anchors": ["capi/src/implementation/shapefiles/shapefile_reader.py:read", "capi/src/implementation/datastructures/polygon.py"]}
{"id": "C55", "title": "Wrapping latitude and longitude into range", "statement": "construct_coord_in_lat_lon_range maps into latitude [-90,90) and longitude [-180,180), is idempotent, invariant under whole turns, and the identity on the half-open range; latitude 90 maps to -90 (witness).", "quantifier": "all rational latitudes and longitudes (exact arithmetic)", "why_tests_cant": "all values", "anchors": ["capi/src/implementation/dtos/coordinate.py:construct_coord_in_lat_lon_range"]}
{"id": "C56", "title": "Normalisation respects full turns", "statement": "Two longitudes exactly 360 degrees apart denote the same meridian, so they should normalise to the same coordinate. False: the code wraps by 360.000001 degrees (witness); each wrap shifts the result by one microdegree against the true meridian.", "quantifier": "all int32 longitudes", "why_tests_cant": "all longitudes and all numbers of turns", "anchors": ["capi/src/implementation/visibility_graphs/code/coordinate_periodicity/coordinate_periodicity.cpp:coordinate_from_periodic_coordinate", "capi/src/implementation/visibility_graphs/code/constants/constants.hpp:LONGITUDE_PERIOD_MICRODEGREES"]}
{"id": "C57", "title": "Python batches agree with single calls", "statement": "batch_interpolate returns one entry per pair, in order: None where interpolate can raise for that pair, otherwise a path interpolate can return for it. For degrees in range over geographic polygons no call has undefined behaviour and a batch raises nothing.", "quantifier": "all batches, graphs and oracle behaviours", "why_tests_cant": "all batches and schedules", "anchors": ["capi/src/implementation/path_interpolator.py:batch_interpolate", "capi/src/implementation/path_interpolator.py:interpolate"]}
{"id": "C58", "title": "Returned paths start and end where asked", "statement": "For endpoints in range and at sea, the first and last point of the path that interpolate returns are within 1.001 millionths of a degree of the requested endpoints, through conversion to integers, the search and conversion back.", "quantifier": "all double endpoints in range, all graphs", "why_tests_cant": "all doubles; rounding both ways", "anchors": ["capi/src/implementation/path_interpolator.py:interpolate", "capi/src/implementation/visibility_graphs/code/types/coordinate/coordinate.cpp"]}
{"id": "C59", "title": "Land correction lands on the projection plus the margin", "statement": "project returns the nearest point of the segment; with a positive margin and a point more than the tolerance away it moves on in the same direction by margin degrees up to rounding, never back towards the point, and without overflow. With the default margin 0 the result is exactly the projection.", "quantifier": "all geographic points and projections, all margins up to 1000 degrees, all accurate square roots", "why_tests_cant": "all points and margins; three roundings and a threshold", "anchors": ["capi/src/implementation/visibility_graphs/code/types/line_segment/line_segment.cpp:project", "capi/src/implementation/visibility_graphs/code/types/coordinate/coordinate.cpp:operator/"]}
{"id": "C60", "title": "Generating in parts, merging files and loading equals generating in one go", "statement": "Generating all splits into fresh folders in any order, merging the folders in any order (repetitions included) and loading the merged file gives a graph over the same polygons that answers every has_edge and crossing query like the graph generated in one go; inputs and other folders are untouched and existing outputs are refused. A failed merge leaves its output folder behind and so blocks a retry (recorded weakness).", "quantifier": "all polygon lists that can be stored, numbers of splits, seeds, merge orders and disks", "why_tests_cant": "all splits, orders and file contents; composition of generation, byte layout, loading and merging", "anchors": ["capi/src/implementation/graph_generator.py:generate_for_vertex_range", "capi/src/implementation/graph_merger.py:merge", "capi/src/implementation/path_interpolator.py:__init__", "capi/src/implementation/visibility_graphs/code/serialization/graph_serializer.cpp"]}
{"id": "C61", "title": "Paths are no longer than chains of clear sight lines", "statement": "On a graph generated from the polygons, a query between points at sea succeeds whenever a chain of clear sight lines through obstacle vertices joins them, and the returned path is at most as long as every such chain (times the greediness weighting if above 1). Across the meridian this is false: vertices that see each other both ways round the world are joined by the long way (witness).", "quantifier": "all polygon lists, scan behaviours, orders, endpoints and chains; exact arithmetic for lengths", "why_tests_cant": "all polygons and chains; composition of scans, generation and search", "anchors": ["capi/src/implementation/visibility_graphs/code/visgraph/visgraph_generator.cpp:generate", "capi/src/implementation/visibility_graphs/code/shortest_path/shortest_path_computer.cpp:shortest_path", "capi/src/implementation/visibility_graphs/code/datastructures/graph/graph.cpp:add_directed_edge"]}
{"id": "C62", "title": "New endpoints are joined to visible obstacle vertices only", "statement": "If an endpoint of a search is not a graph vertex, the neighbouring point on the path is an obstacle vertex reported visible from it and not behind the edge it was moved to, and that leg never counts as crossing the meridian; two new endpoints are never joined directly.", "quantifier": "all graphs, polygons, endpoints and search behaviours, any arithmetic", "why_tests_cant": "all queries and tie-breaks", "anchors": ["capi/src/implementation/visibility_graphs/code/shortest_path/shortest_path_computer.cpp:create_modified_graph"]}
{"id": "C63", "title": "Direct answers agree with the plane", "statement": "The direct line is answered exactly when it is free of land, in the same sense of line in which links, lengths and paths are computed (straight in longitude and latitude).", "quantifier": "all polygons, endpoints and environments whose index is exact on the sphere", "why_tests_cant": "the index works with great circles, the rest with plane lines; the two differ over distance, and tests with small polygons do not show it", "anchors": ["capi/src/implementation/visibility_graphs/code/shortest_path/shortest_path_computer.cpp:shortest_path", "capi/src/implementation/visibility_graphs/code/datastructures/spatial_segment_index/spatial_segment_index.cpp:intersect_with_segments", "capi/src/implementation/visibility_graphs/code/types/coordinate/coordinate.cpp:to_s2_point"]}
{"id": "C64", "title": "Rounded search is shortest up to rounding", "statement": "With every sum, product and square root rounded to double as in the code, the true length of the returned path is at most max(1, greediness) times the length of every route within the search limit, up to one part in a hundred million for up to half a million reachable vertices; every vertex of the path is within the limit up to rounding.", "quantifier": "all graphs, endpoints, limits, weightings, accurate square roots, tie-breaks and iteration orders", "why_tests_cant": "rounding makes the heuristic inconsistent and sums order-dependent; tests see only particular roundings", "anchors": ["capi/src/implementation/visibility_graphs/code/shortest_path/shortest_path_computer.cpp:shortest_path", "capi/src/implementation/visibility_graphs/code/types/coordinate/coordinate.cpp:magnitude"]}
{"id": "C65", "title": "Damaged file lengths are noticed", "statement": "Loading a saved file that lost its end raises an exception or gives the graph that was saved; bytes appended to a saved file change nothing.", "quantifier": "all storable graphs, all previous file contents, all cut positions and all appended bytes", "why_tests_cant": "every cut position of every file; tests try a few", "anchors": ["capi/src/implementation/visibility_graphs/code/serialization/graph_serializer.cpp:deserialize_from_file", "capi/src/implementation/visibility_graphs/code/serialization/graph_serializer.cpp:deserialize_adjacency_matrix_from_mmap"]}
{"id": "C66", "title": "From a shapefile to the answer of a query", "statement": "A shapefile with points in range, rings of more than rounding-error area and no shared corners is read, its graph is generated in parts by separate processes, merged and loaded without failure; and every query between points at sea that are joined by a chain of clear sight lines has an outcome, always the degrees of the straight line or of a path that in true length is at most max(1, greediness) times the chain, up to one part in a hundred million.", "quantifier": "all such shapefiles, numbers of parts, seeds, process-dependent scans, merge and iteration orders, disks, environments, endpoints, weightings and chains; rounded arithmetic throughout", "why_tests_cant": "composition of every stage over all inputs and all nondeterminism", "anchors": ["capi/src/implementation/shapefile_reader.py:read", "capi/src/implementation/graph_generator.py:generate_for_vertex_range", "capi/src/implementation/graph_merger.py:merge", "capi/src/implementation/path_interpolator.py:interpolate", "capi/src/implementation/visibility_graphs/code/visgraph/visgraph_generator.cpp:generate", "capi/src/implementation/visibility_graphs/code/shortest_path/shortest_path_computer.cpp:shortest_path"]}
{"id": "C67", "title": "Coordinates survive the sphere", "statement": "A geographic coordinate converted to an S2 point and back is the same coordinate, also at the poles and on the meridian; whatever point S2 hands back becomes a geographic coordinate; an edge the index answers with is an edge of a polygon (also for the queries by distance), a segment meets the index exactly if it has crossings, and the edge an endpoint was moved to is recognised among the crossings, and no other.", "quantifier": "all coordinates, all points, all polygons and all answers of S2, for every C library with the usual accuracy", "why_tests_cant": "billions of coordinates and several libraries; one coordinate off by a microdegree makes a corrected start look blocked by its own edge", "anchors": ["capi/src/implementation/visibility_graphs/code/types/coordinate/coordinate.cpp:to_s2_point", "capi/src/implementation/visibility_graphs/code/types/coordinate/coordinate.cpp:Coordinate", "capi/src/implementation/visibility_graphs/code/datastructures/spatial_segment_index/spatial_segment_index.cpp:s2_to_capi_line_segment", "capi/src/implementation/visibility_graphs/code/types/polygon/polygon.cpp:to_s2_loop"]}
{"id": "C68", "title": "Doubles stay in range", "statement": "Computed on full IEEE-754 doubles with overflow, subnormals, infinities and NaN, the degrees, products, squared lengths, reflex tests, winding sums, intersection parameters and parallel factors of all int32 coordinates are finite and equal to the values the other properties reason about; the constructor, the operators and project agree for every finite argument, and an infinite or NaN argument or a division by zero is undefined behaviour. The rounding used is the one IEEE 754 prescribes: the nearest number with 53 binary digits, of two the one ending in zero, with the smallest last place 2^-1074, and infinite just from 2^1024 - 2^970 on. The sign of the double cross product does not decide parallelism (witnesses).", "quantifier": "all int32 coordinates, all doubles as arguments, all summation orders of up to 2^53 terms", "why_tests_cant": "2^64 coordinates and all doubles; overflow and cancellation occur at extreme values only", "anchors": ["capi/src/implementation/visibility_graphs/code/types/coordinate/coordinate.cpp:get_longitude", "capi/src/implementation/visibility_graphs/code/types/coordinate/coordinate.cpp:operator*", "capi/src/implementation/visibility_graphs/code/types/coordinate/coordinate.cpp:magnitude_squared", "capi/src/implementation/visibility_graphs/code/types/polygon/polygon.cpp", "capi/src/implementation/dtos/coordinate.py"]}
{"id": "C69", "title": "Any weighting and any limit", "statement": "For every double given as greediness weighting and as search limit, NaN, infinities and negative numbers included, the queue's comparison is a strict weak order, a query has an outcome, and a returned path is a route; a NaN or infinite limit is no limit, a negative one makes every search between different points fail; lengths of up to 2^53 legs stay finite. With a NaN or infinite weighting the path can be longer than another route (witness).", "quantifier": "all weightings, limits, graphs, endpoints and behaviours of the queue", "why_tests_cant": "NaN and infinite arguments break comparisons in ways ordinary tests do not reach", "anchors": ["capi/src/implementation/visibility_graphs/code/shortest_path/shortest_path_computer.cpp:shortest_path", "capi/src/implementation/visibility_graphs/bindings.cpp"]}
{"id": "C70", "title": "Obstacles hide what is behind them", "statement": "A vertex of a strictly convex obstacle lying behind one of its edges is not reported visible, and around such an obstacle alone the vertices reported are exactly those with no edge in between; an obstacle of any shape that lies wholly nearer than all others hides every vertex of the others whose line of sight enters it.  Ties of distance, vertices in line with the sight line and crossings within rounding of the vertex are excluded.", "quantifier": "all such obstacles, any number of obstacles behind, all observers, vertices and iteration orders", "why_tests_cant": "all shapes and positions; the sweep is wrong for other shapes (C35), so which shapes are safe cannot be seen from samples", "anchors": ["capi/src/implementation/visibility_graphs/code/visgraph/vistree_generator.cpp:get_visible_vertices_from_candidate_segments_and_vertices", "capi/src/implementation/visibility_graphs/code/visgraph/vistree_generator.cpp:is_vertex_visible", "capi/src/implementation/visibility_graphs/code/datastructures/open_edges/open_edges.cpp"]}
{"id": "C71", "title": "Computed angles do the sweep justice", "statement": "With angles computed in double precision by any atan2 off by at most one unit in the last place, the vertices are sorted into the exact sweep order, std::sort is given a strict weak order, and generation and queries do what they would do with exact angles, whenever no two vertices lie in different directions closer than 2^-47 radians as seen from the observer. This holds for vertices within 16.7 degrees, for coordinates that are multiples of 100 microdegrees, and, with the copies across the meridian, for maps in multiples of at least 2000 microdegrees. It does not hold for all maps (witness: undefined behaviour of std::sort).", "quantifier": "all such maps, observers, atan2 functions, sorting algorithms, iteration orders, queries and ranges", "why_tests_cant": "rounding of angles matters for a few pairs of far-away vertices out of billions, and depends on the C library", "anchors": ["capi/src/implementation/visibility_graphs/code/types/coordinate/coordinate.cpp:angle_to_horizontal", "capi/src/implementation/visibility_graphs/code/geom/angle_sorter/angle_sorter.cpp:sort_counter_clockwise_around_observer", "capi/src/implementation/visibility_graphs/code/visgraph/vistree_generator.cpp:get_visible_vertices_from_candidate_segments_and_vertices", "capi/src/implementation/visibility_graphs/code/visgraph/visgraph_generator.cpp:generate"]}
{"id": "C72", "title": "Fused multiply-add does not change the routes that are decided", "statement": "If the compiler fuses products into additions, in any combination, polygons are oriented the same way when their area exceeds the rounding error, corners are judged the same way when they exceed the rounding error, vertices are compared alike, and a scan, a generation and a query do what they do with separate rounding. Paths found by the search, their lengths and the voyage stay within the same bounds, and points projected out of an obstacle keep the same margin. At corners below the rounding error fused and separate evaluation can disagree (witness: the tip of a mere line).", "quantifier": "all polygons, corners, maps, observers, queries, arithmetic choices and summation orders", "why_tests_cant": "which products are fused depends on the target processor and the optimiser; a test sees one choice", "anchors": ["capi/src/implementation/visibility_graphs/code/types/coordinate/coordinate.cpp:magnitude_squared", "capi/src/implementation/visibility_graphs/code/types/polygon/polygon.cpp:get_orientation_of_vertices", "capi/src/implementation/visibility_graphs/code/types/polyline/three_vertex_polyline.cpp:is_coordinate_visible", "capi/src/implementation/visibility_graphs/code/visgraph/vistree_generator.cpp:get_visible_vertices_from_candidate_segments_and_vertices", "capi/src/implementation/visibility_graphs/code/shortest_path/shortest_path_computer.cpp:shortest_path"]}
{"id": "C73", "title": "From shapefile to path with the arithmetic of the code", "statement": "Read a sound shapefile, generate the graph in parts by separate processes, each with its own libm and its own choice of fused products and sorting by the angles it computes; store, merge, load and query with computed angles, fused products and double distances. Nothing fails, every query between points at sea joined by a chain of sight lines has an outcome, and every outcome is the straight line or a path at most, up to the weighting and one part in 10^8, as long as that chain. Needed: vertices separated in direction from every vertex and from the endpoints, and no corner below the rounding error; both hold for maps given to two decimals of a degree without straight corners and endpoints to four decimals.", "quantifier": "all sound shapefiles with separated vertices and resolved corners, all splits, libraries, fusings, summation orders, schedules, hash orders, endpoints and weightings", "why_tests_cant": "a test runs one machine, one compiler and one thread schedule end to end", "anchors": ["capi/src/implementation/visibility_graphs/code/types/coordinate/coordinate.cpp:magnitude_squared", "capi/src/implementation/visibility_graphs/code/visgraph/visgraph_generator.cpp:generate_with_shuffled_range", "capi/src/implementation/visibility_graphs/code/visgraph/vistree_generator.cpp:get_visible_vertices_from_candidate_segments_and_vertices", "capi/src/implementation/visibility_graphs/code/shortest_path/shortest_path_computer.cpp:shortest_path", "capi/src/implementation/visibility_graphs/code/geom/angle_sorter/angle_sorter.cpp:sort_counter_clockwise_around_observer"]}
{"id": "C74", "title": "No route over the sea is shorter", "statement": "Let the polygons of the map go round open regions of land. Any course of straight lines over the sea, turning wherever it likes, is at least as long as some chain of sight lines by polygon vertices between the same endpoints, unless the endpoints see each other; sight lines between points off the land never cross land. Therefore the path returned between endpoints that do not see each other is the straight line or is, up to the weighting and one part in 10^8, no longer than any course over the sea on this side of the meridian, and it is found whenever there is such a course. For strictly convex polygons the land is the set of points on the left of every edge.", "quantifier": "all maps whose polygons enclose land and whose vertices and endpoints lie on edges only as their ends, all courses with any number of turns at any real points, all endpoints, weightings, arithmetic like that of doubles, schedules and hash orders", "why_tests_cant": "there are infinitely many courses, turning at arbitrary real points, to compare with", "anchors": ["capi/src/implementation/visibility_graphs/code/visgraph/vistree_generator.cpp:get_visible_vertices_from_candidate_segments_and_vertices", "capi/src/implementation/visibility_graphs/code/visgraph/visgraph_generator.cpp:generate_with_shuffled_range", "capi/src/implementation/visibility_graphs/code/shortest_path/shortest_path_computer.cpp:shortest_path"]}
{"id": "C75", "title": "On maps of convex islands paths keep to the sea and the graph is complete", "statement": "For maps of strictly convex islands, apart from each other and from every vertex either in different directions or one wholly nearer: (exact) the scan from a vertex, or from a place at sea in such a position, reports a vertex if and only if no edge and no interior angle of the observer's own island is in the way; (graph) the generated graph has an edge between two different vertices if and only if the straight line between them, directly or to a copy across the meridian, does not enter the interior of any island or of any copy of one, and the edge is marked as crossing just if there is no direct line; (path_sea) every path returned between two such places keeps out of every island, unless the spatial index finds nothing in the way of the straight line and that is the answer; (path) if the two places are not joined by a straight line over the sea and there is any course over the sea, turning at arbitrary points, then a path is returned, and it is at most as long as that course up to 1e-8 and the greediness weighting.", "quantifier": "for every number, shape and order of convex islands in such positions, every summation order, every order of equal-length open edges the index may keep, every stored order of vertices, every pair of places in orderly positions, every course over the sea, every arithmetic of the search with the error of doubles, every weighting", "why_tests_cant": "the claim is about all maps of a class and all points inside the land, and a sweep that is right on every map tried can still report a vertex behind an island on the next one (C35 has such maps)", "anchors": ["capi/src/implementation/visibility_graphs/code/visgraph/vistree_generator.cpp:get_visible_vertices_from_candidate_segments_and_vertices", "capi/src/implementation/visibility_graphs/code/visgraph/vistree_generator.cpp:is_vertex_visible", "capi/src/implementation/visibility_graphs/code/visgraph/visgraph_generator.cpp:generate_with_shuffled_range", "capi/src/implementation/visibility_graphs/code/shortest_path/shortest_path_computer.cpp:shortest_path"]}
{"id": "C76", "title": "From a shapefile of convex islands to paths over the sea, with the arithmetic of the code", "statement": "A shapefile with convex islands in orderly positions is read; the parts of its graph are generated by separate processes, each of which sorts by the angles it computes, fuses products and sums areas in its own way; the parts are stored, merged and loaded; the merged graph holds every polygon once. Then every query between two points at sea in orderly positions has an outcome. A path that is returned keeps out of every island and every copy of one, or it is the straight line and the index finds nothing in its way. If the straight line is not over the sea but there is some course over the sea, turning at arbitrary points, then a path is returned, and it is at most as long as that course up to 1e-8 and the greediness weighting.", "quantifier": "for every such file, every number of parts, every order of generating and merging, every schedule of the threads, every atan2 of the assumed accuracy in each process, every choice of fused operations, every summation order, every pair of places in orderly positions, every course, every weighting", "why_tests_cant": "each stage is right on examples by itself; that the answer of the last is right depends on every stage and every order of operations in between, and on points inside the land that no test enumerates", "anchors": ["capi/src/implementation/visibility_graphs/code/visgraph/visgraph_generator.cpp:generate_with_shuffled_range", "capi/src/implementation/visibility_graphs/code/datastructures/graph/graph.cpp:merge_graphs", "capi/src/implementation/visibility_graphs/code/visgraph/vistree_generator.cpp:get_visible_vertices_from_candidate_segments_and_vertices", "capi/src/implementation/visibility_graphs/code/shortest_path/shortest_path_computer.cpp:shortest_path"]}
{"id": "C77", "title": "The progress bar does no harm exactly if there are enough vertices", "statement": "The generation in one go shows a progress bar with num_vertices / num_threads steps, moved by the first thread only. (undefined, false) With fewer vertices than threads, in particular without polygons, the number of steps is 0 and the bar converts an infinity or a NaN to size_t, which is undefined behaviour; a triangle on a machine with four cores is enough. (safe) Otherwise, for every distribution of the vertices over the threads and every clock that does not run for decades, the bar is defined: 50 cells are printed after each vertex of the first thread and at the end, the filled part never shrinks, and it is full from the intended number of steps on, after which each further vertex ends a line. (exact) Up to 100000 steps the filled part is floor(50 * vertices / steps) in spite of single precision. (generate) The graph is the same as without the bar. (float) The single precision numbers used are those IEEE 754 prescribes.", "quantifier": "for every number of vertices up to 2^40, every number of threads, every share of the first thread, every times of its ticks", "why_tests_cant": "how many vertices the first thread gets depends on the schedule and the number of threads on the machine; a test with few polygons on a large machine runs into undefined behaviour that usually goes unnoticed", "anchors": ["capi/src/implementation/visibility_graphs/code/visgraph/visgraph_generator.cpp:generate", "capi/cpp_libs/indicators/include/indicators/progress_bar.hpp:print_progress", "capi/cpp_libs/indicators/include/indicators/details/stream_helper.hpp:write"]}
{"id": "C78", "title": "Failing system calls are reported and leave nothing misleading", "statement": "Whatever system calls fail during a save: (done) if the save returns, the file is complete and no descriptor is lost; (works) it returns if nothing fails and there is room; (raised) otherwise there is an exception, or the process is killed for lack of room, and the file is as before, or empty in place of missing, or has the right size with old contents and zeros, or is complete although the synchronisation failed, or is as after a crash. (load, load_result) Loading never changes the file, gives what is in it if nothing fails, and gives back its descriptor unless the mapping fails. False: (left) that after an exception nothing can be loaded (every graph: if the mapping fails, the new file loads as a graph without polygons); (full_disk) that a full disk gives an exception; (merge) that merging misses a part lost in this way; (leak) that failed loads do no harm (every attempt to load an empty file loses a descriptor, until the process can neither load nor save).", "quantifier": "for every graph, every previous file, every combination of failing system calls, every limit on descriptors, every point at which the disk is full", "why_tests_cant": "tests run with working system calls; failures of single calls and exhausted descriptors need fault injection at every call", "anchors": ["capi/src/implementation/visibility_graphs/code/serialization/graph_serializer.cpp:serialize_to_file", "capi/src/implementation/visibility_graphs/code/serialization/graph_serializer.cpp:allocate_file", "capi/src/implementation/visibility_graphs/code/serialization/graph_serializer.cpp:deserialize_from_file", "capi/cpp_libs/mio/mio.hpp:map"]}
{"id": "C79", "title": "The effort of a search is bounded by the edges for greediness at most one, and exponential beyond", "statement": "(effort) With weighting in [0,1] and exact arithmetic a search inserts into its queue at most once for every leg in every direction, plus once for the source, although vertices are never closed. (plain) With weighting 0 the same holds for the rounded distances of the code, with or without fused operations. (runs) The search of the code therefore ends within that many rounds, with one of the outcomes the other theorems are about. (exponential, greedy_false) With weighting 2 this is false and the effort can double with every three vertices: for every n up to 24 there is a graph with 3n+4 vertices and 4n+3 edges and a query for which the loop runs 4*2^n-2 times (67 million times for 76 vertices).", "quantifier": "for every graph, every query, every limit, every order of ties and of neighbours, every weighting in [0,1]; every n up to 24", "why_tests_cant": "tests of running time sample graphs; neither the linear bound nor the existence of graphs on which a greedy search explodes can be found by sampling", "anchors": ["capi/src/implementation/visibility_graphs/code/shortest_path/shortest_path_computer.cpp:shortest_path"]}
{"id": "C80", "title": "Texts identify what they describe and failed pairs of a batch are named", "statement": "(coordinate, polygon) Coordinates and polygons with the same __repr__ are equal. (named) A query between geographic coordinates that fails has one of two texts, names its endpoints in it, and the place where the search is said to have got stuck is always the destination. (identifies) Two queries, even on different graphs and with different options, have the same error text only if they ask for the same endpoints. (warned) After a batch every failed pair is named in a warning shown in this or an earlier call of the process, warnings for different endpoints differ, and no warning is shown twice or without a failed pair. (closest) If no coast is found near an endpoint on land the text is fixed. (same_outcomes, same_batches) Texts and warnings do not affect results. False: (outside) endpoints beyond 180 degrees are identified too (the text about land names the normalised ones); (silent, again_silent) every call that returns None for a pair shows a warning (the same batch again is silent, because Python shows a text once).", "quantifier": "for every graph, every query and batch, every way of formatting doubles that separates different ones, every history of warnings", "why_tests_cant": "that two different inputs never share a text, and that deduplication of warnings therefore hides none, concerns all pairs of inputs", "anchors": ["capi/src/implementation/visibility_graphs/code/types/coordinate/coordinate.cpp:to_string_representation", "capi/src/implementation/visibility_graphs/code/types/polygon/polygon.cpp:to_string_representation", "capi/src/implementation/visibility_graphs/code/shortest_path/shortest_path_computer.cpp:handle_land_collisions", "capi/src/implementation/visibility_graphs/code/shortest_path/shortest_path_computer.cpp:shortest_path", "capi/src/implementation/path_interpolator.py:_batch_get_shortest_path"]}
{"id": "C81", "title": "S2 takes the islands for land, not the sea around them", "statement": "(loop) A ring that encloses an area and lists no corner twice in a row becomes a loop of at least three points without edges of length zero. (triangle_partial) An island that goes around counter-clockwise on the sphere makes no land outside it. (land_false) In general the claim is false, because corners are dropped and rings are oriented in the plane of degrees while S2 takes what is left of the edges on the sphere: (one_corner, narrow) a triangle in the south two corners of which fall into the same microdegree leaves one corner, for S2 the whole world; (flat) a northern island with a long flat side makes the whole south land; (astride) every triangle across the meridian of 180 degrees makes the south and the half of the world around longitude 0 land. Then every query there without correction is refused.", "quantifier": "for every ring, every summation order, every C library of the assumed accuracy, every index that follows the documented meaning of loops, every graph and query; every size of the triangle across the meridian from 0.001 to 45 degrees", "why_tests_cant": "a test of containment near ordinary islands passes; which rings are turned inside out depends on longitudes, lengths of edges and rounding of all corners together", "anchors": ["capi/src/implementation/visibility_graphs/code/types/polygon/polygon.cpp:remove_collinear_vertices", "capi/src/implementation/visibility_graphs/code/types/polygon/polygon.cpp:get_orientation_of_vertices", "capi/src/implementation/visibility_graphs/code/types/polygon/polygon.cpp:to_s2_loop", "capi/src/implementation/visibility_graphs/code/datastructures/spatial_segment_index/spatial_segment_index.cpp:is_point_contained", "capi/src/implementation/visibility_graphs/code/shortest_path/shortest_path_computer.cpp:handle_land_collisions", "capi/src/implementation/shapefiles/shapefile_reader.py:read"]}
{"id": "C82", "title": "A course across the meridian of 180 degrees is found where it is short", "statement": "(first, last, both) An endpoint that is not a vertex of the graph is joined to the vertices it sees on its own side of the map only: a path found by a search is at least as long as the distances, measured on the map and not across the meridian, from the new endpoints to their nearest vertices. (hop_false) The claim itself is therefore false: from a ship 0.3 degrees from the tip of an island beyond the meridian, with open water in between, to a port 0.3 degrees behind that tip, every path goes 28 degrees or more to the nearest coast on the ship's side first.", "quantifier": "for every map, generated or loaded graph, order of neighbours, sound arithmetic, limit, query and bound", "why_tests_cant": "the graph itself has edges across the meridian and its tests cover them; endpoints are joined by a different generator without periodic copies, and the effect depends on the whole map and both endpoints", "anchors": ["capi/src/implementation/visibility_graphs/code/shortest_path/shortest_path_computer.cpp:create_modified_graph", "capi/src/implementation/visibility_graphs/code/shortest_path/shortest_path_computer.cpp:ShortestPathComputer", "capi/src/implementation/visibility_graphs/code/shortest_path/shortest_path_computer.cpp:distance_measurement", "capi/src/implementation/visibility_graphs/code/visgraph/vistree_generator.cpp:get_visible_vertices"]}
{"id": "C83", "title": "A generator built from segments answers like one built from the polygons they bound", "statement": "(incident, vertices) A generator built from a list of segments knows exactly their ends, and keeps for every end its segments in the order given. (guarded_partial, listed) Where the edge coming in is given before the edge going out, a corner is treated as in the generator built from the polygons; in the order in which a polygon lists its edges this holds for all corners but the first. (unguarded_false) In every order every polygon has a corner where the check that keeps it from looking through its own polygon hides nothing; (through_false) the first corner of a square so sees the opposite one. (end_false) A scan from a point where only one segment ends never succeeds: it reads past the end of a vector. (unknown) So does a scan with a candidate segment whose end the generator does not know.", "quantifier": "for every list of segments, every list of polygons without common corners, every order of their edges, every observer and candidate list", "why_tests_cant": "no test builds the generator from segments, and a test could try a few lists only; that some corner is left unguarded in every order is a statement about all orders", "anchors": ["capi/src/implementation/visibility_graphs/code/visgraph/vistree_generator.cpp:VistreeGenerator", "capi/src/implementation/visibility_graphs/code/visgraph/vistree_generator.cpp:is_vertex_visible", "capi/src/implementation/visibility_graphs/code/visgraph/vistree_generator.cpp:all_vertices_for_line_segments", "capi/src/implementation/visibility_graphs/code/visgraph/vistree_generator.cpp:get_visible_vertices_from_candidate_segments", "capi/src/implementation/visibility_graphs/code/types/polyline/three_vertex_polyline.cpp:point_visible"]}
{"id": "C84", "title": "A damaged file is recognised", "statement": "The file of a graph has no check sum. (contained_partial) A saved file of the same length whose polygons and number of crossing edges are intact loads without undefined behaviour, whatever else it contains, and gives the saved polygons and vertices. (numbers) Damage behind the number of crossing edges changes no edge. (silent_false) The claim is false: for every saved graph with different vertices and every pair of them, one bit of the file can be inverted so that it loads silently and just the edge between the two is added or removed. (undefined_false) In every saved file one byte can be changed so that loading reads outside the file.", "quantifier": "for every graph that can be saved, every previous content of the file, every damage of the stated parts, every pair of vertices", "why_tests_cant": "a test can damage a few bytes of a few files; that all damage in one part is harmless and that every edge of every file is exposed are statements about all files", "anchors": ["capi/src/implementation/visibility_graphs/code/serialization/graph_serializer.cpp:deserialize_from_file", "capi/src/implementation/visibility_graphs/code/serialization/graph_serializer.cpp:deserialize_adjacency_matrix_from_mmap", "capi/src/implementation/visibility_graphs/code/serialization/graph_serializer.cpp:serialize_adjacency_matrix_to_mmap"]}
{"id": "C85", "title": "Arithmetic with coordinates follows the laws of vectors up to rounding", "statement": "(scale) Multiplying a coordinate by a number is defined when the exact result is in range, and then at most half a microdegree (plus 2^-21) off; it is undefined when the exact result rounds to something out of range. (whole) Whole factors are exact. (undo) Dividing by a factor beyond 1.00001 undoes the multiplication exactly. (spread) Multiplication distributes over sums up to one microdegree. (sum) A sum is exact when in range and undefined otherwise; so is a difference when the negative of the second is in range too. (products) Dot and cross product are off by at most eight roundings of the sum of the absolute products. (unit) The unit vector of a vector other than zero has its direction up to half a microdegree and its length up to a microdegree. False: (undo_false) dividing undoes multiplying by every factor but zero; (turn_false) the sign of the cross product of two vectors tells which way they turn; (minus_false) a difference in range is defined; (zero_false) every vector has a unit vector.", "quantifier": "for every coordinate in the range of int32_t, every finite double factor, every square root rounded to within the usual accuracy", "why_tests_cant": "rounding errors and overflow depend on all bits of the operands; the operators are offered to Python and a test tries a few values", "anchors": ["capi/src/implementation/visibility_graphs/code/types/coordinate/coordinate.cpp:operator*", "capi/src/implementation/visibility_graphs/code/types/coordinate/coordinate.cpp:operator/", "capi/src/implementation/visibility_graphs/code/types/coordinate/coordinate.cpp:operator+", "capi/src/implementation/visibility_graphs/code/types/coordinate/coordinate.cpp:operator-", "capi/src/implementation/visibility_graphs/code/types/coordinate/coordinate.cpp:normalize", "capi/src/implementation/visibility_graphs/code/types/coordinate/coordinate.cpp:dot_product", "capi/src/implementation/visibility_graphs/code/types/coordinate/coordinate.cpp:cross_product_magnitude"]}
{"id": "C86", "title": "Distances on the sphere are right, and bounded by those of the search", "statement": "(accurate) spherical_distance differs from the angle between the two places by at most 1e-6 radians, and by at most 2^-41 divided by the sine of the distance. (zero) It is never negative, and zero exactly for equal coordinates. (metric) Up to rounding it is the same both ways, keeps the inequality of the triangle and is at most pi. (plane, wrap, leg) The angle between two places is at most their distance in the plane of longitude and latitude; no leg is longer in reality than for the search, up to a microdegree. False: (place_false) places that are the same have distance zero (the meridian of 180 degrees); (plane_false) lengths in the plane exceed those on the sphere by a bounded factor.", "quantifier": "for every pair (or triple) of geographic coordinates, every C library of the assumed accuracy", "why_tests_cant": "the error is largest for nearly opposite places and depends on all roundings; the comparison of plane and sphere is a statement about all pairs", "anchors": ["capi/src/implementation/visibility_graphs/code/types/coordinate/coordinate.cpp:spherical_distance", "capi/src/implementation/visibility_graphs/code/types/coordinate/coordinate.cpp:to_s2_lat_lng", "capi/src/implementation/visibility_graphs/code/shortest_path/shortest_path_computer.cpp:distance_measurement"]}
{"id": "C87", "title": "How good paths are on the globe", "statement": "(cost) On the globe every path is at most as long as for the search, up to a microdegree per vertex. (direct) Direct answers are at most as long on the globe as any way between the endpoints. (bounded, chain) A path returned is on the globe at most pi/(2 cos f) times as long as every route (every chain of sight lines) within latitudes f whose legs take the short way round, up to the weighting and rounding. False: (globe_false) up to some reasonable factor paths are the shortest on the globe; for an island like a hook at the pole every path returned is more than five million times as long as another route of the same graph.", "quantifier": "for every map, every query, every order of ties, every distance function with the accuracy of doubles, every weighting (at most one for globe_false), every latitude f", "why_tests_cant": "the search measures degrees on a flat map; that this is harmless away from the poles, and how bad it is near them, are statements about all routes", "anchors": ["capi/src/implementation/visibility_graphs/code/shortest_path/shortest_path_computer.cpp:distance_measurement", "capi/src/implementation/visibility_graphs/code/shortest_path/shortest_path_computer.cpp:shortest_path", "capi/src/implementation/visibility_graphs/code/types/coordinate/coordinate.cpp:spherical_distance"]}
{"id": "C88", "title": "What any file does to the loader", "statement": "(loads) Exactly these files are loaded: they begin with rings of int32 corners (in the documented byte order), neighbouring corners of every ring differ by at most what fits an int32 and have negatives, behind the rows of bits there are as many 64-bit numbers as announced there, and the allocations succeed. (unique) These rings are determined by the file. (result) Whatever is loaded is a proper graph with the polygons of these rings, and two different vertices are joined exactly if one of their bits is set, including bits that the row of a vertex has behind those of the earlier vertices. (refused, unlimited) An exception is raised for the empty file and for lack of memory only: no damage is recognised. (memory) A file beginning with proper rings is refused with an exception whenever memory lacks, whatever follows. (ring) A ring makes the constructor of polygons undefined exactly if two neighbouring corners are too far apart.", "quantifier": "for every sequence of bytes, every limit of memory, every order of summation", "why_tests_cant": "files are arbitrary; tests load what was saved", "anchors": ["capi/src/implementation/visibility_graphs/code/serialization/graph_serializer.cpp:deserialize_from_file", "capi/src/implementation/visibility_graphs/code/serialization/graph_serializer.cpp:deserialize_polygon_vertices_from_mmap", "capi/src/implementation/visibility_graphs/code/serialization/graph_serializer.cpp:deserialize_adjacency_matrix_from_mmap", "capi/src/implementation/visibility_graphs/code/types/polygon/polygon.cpp:Polygon"]}
{"id": "C89", "title": "Every polygon that does not touch itself bounds land, and the constructor keeps that land", "statement": "(encloses) A counter-clockwise ring that comes to no point twice has on the left of every edge and in the angle of every corner exactly the points round which it goes, and is the border of no other region: the land that C74 speaks of exists for every such polygon, convex or not, and is determined by it. (interior) It goes round them once, there are such points, and they are between its vertices. (polygon) The constructor of polygons, which drops vertices in line and may reverse the ring, changes neither the coast nor the points round which the ring goes, and its result touches itself nowhere; so it encloses the land of the ring as drawn, in whichever direction, provided the area exceeds the rounding error of the orientation test. (path) On a map of such rings the path returned between points that do not see each other is the straight line, or about as short as any course that nowhere enters a ring. (count, simple) Whether a coordinate is inside, and whether a ring touches itself, is computed in integers.", "quantifier": "for every ring of coordinates in range, every summation order, every course of straight lines turning at arbitrary points", "why_tests_cant": "that a polygon has an inside, and that taking out vertices and reversing keep it, is about all points of the plane and all rings", "anchors": ["capi/src/implementation/visibility_graphs/code/types/polygon/polygon.cpp:Polygon", "capi/src/implementation/visibility_graphs/code/types/polygon/polygon.cpp:remove_collinear_vertices", "capi/src/implementation/visibility_graphs/code/visgraph/vistree_generator.cpp:is_vertex_visible", "capi/src/implementation/visibility_graphs/code/shortest_path/shortest_path_computer.cpp:shortest_path"]}
{"id": "C90", "title": "On legible maps of polygons of any form visibility, graphs and paths are those of the sea", "statement": "A position is legible if it is inside no edge and, of what the sweep looks at (for a half sweep, what is not south), every vertex outside the observer's own corner that is behind an edge, or exactly behind another vertex, is covered: some edge, met by the sweep at a distance of its own, is in the way, and so are all open edges met nearer. (exact) From a legible position the scan reports exactly the vertices that are seen, whatever the form of the polygons, in whichever order the hash tables are visited. (graph) On a map of polygons that do not touch themselves, with vertices legible for half sweeps, the generated graph joins exactly the vertices with a straight line over the sea between them, directly or across the meridian, and marks those without a direct one; the sea is where no polygon or copy goes round. (path_sea, path) Paths between legible positions keep to the sea, or are the line in whose way the index finds nothing; if there is a course over the sea this side of the meridian, however it turns, a path is returned and is about as short. (read, end_to_end) The same holds from a shapefile of rings without self-contact, in either direction, through generation in parts, merging, storing and loading, with the arithmetic of the code.", "quantifier": "for every map of simple polygons with legible vertices, every legible position, every hash order, every summation order, fusing of products and accuracy of the C library, every course of straight lines", "why_tests_cant": "what a scan leaves out or reports wrongly depends on all edges at once; bays, hooks and islands in bays are where a sweep that looks at one open edge goes wrong, and no set of maps covers them", "anchors": ["capi/src/implementation/visibility_graphs/code/visgraph/vistree_generator.cpp:is_vertex_visible", "capi/src/implementation/visibility_graphs/code/visgraph/vistree_generator.cpp:get_visible_vertices_from_candidate_segments_and_vertices", "capi/src/implementation/visibility_graphs/code/visgraph/visgraph_generator.cpp:generate_with_shuffled_range", "capi/src/implementation/visibility_graphs/code/shortest_path/shortest_path_computer.cpp:shortest_path"]}
{"id": "C91", "title": "What the scan reports is decided by the one edge met nearest, and when it is right", "statement": "From a position inside no edge, with no two vertices in line, no edge within a microdegree of a vertex it does not end at and the edges met at different distances: (scan) the scan reports, in the order of the sweep, just the vertices that are not inside the observer's own corner and not behind the edge met nearest, among the edges between whose ends their direction is; an edge is met at its right end, or due east if it was in sight at the start, and of two edges beginning at the same vertex only the one arriving there counts. This needs no angles and no account of the sweep. (right) The scan is right, reporting each vertex in sight once and no other, if and only if every vertex that is behind some edge and not inside the observer's own corner is behind the edge met nearest. (graph) On a map with these properties from every vertex the generated graph has just the connections that pass this test northward or level. (always_false) The conditions do not make the scan right: a map of three triangles on which a hidden vertex is reported.", "quantifier": "for every map of polygons without common vertices, every such position, every hash order and rounding of the crossings due east, full and half scans", "why_tests_cant": "the open edges are a mutable table filled and emptied along the whole sweep; that its first entry has a description without the sweep, and that the errors are just those of that description, concerns all maps at once", "anchors": ["capi/src/implementation/visibility_graphs/code/visgraph/vistree_generator.cpp:get_visible_vertices_from_candidate_segments_and_vertices", "capi/src/implementation/visibility_graphs/code/visgraph/vistree_generator.cpp:is_vertex_visible", "capi/src/implementation/visibility_graphs/code/datastructures/open_edges/open_edges.cpp", "capi/src/implementation/visibility_graphs/code/visgraph/visgraph_generator.cpp:generate_with_shuffled_range"]}
{"id": "C92", "title": "Paths round the globe are as short as any course over the sea", "statement": "On a map of polygons of any form, between points at sea that are not joined by a straight line over the sea: (path) whenever there is a course over the sea, of straight lines with turns anywhere, to the destination or a copy of it any number of periods of longitude away, shorter than one turn round the globe, a path is returned; it is the straight line if the index finds nothing in its way, or keeps to the sea and is, up to rounding and the greediness weighting, at most as long as that course. This asks that two vertices which see each other directly are not nearer to each other across the meridian, and that endpoints which are not vertices see nothing across the meridian only; without it the claim is false (C61, C82). (course) Conversely a path returned is a course over the sea of exactly the length the search gives it, if no straight line over the sea between two vertices goes once round the globe. (turn_false) Without this it is not: two vertices that see each other only by such a line are joined at the distance of the other way, which is overland. (end_to_end) Path and course hold for the whole program, from a shapefile through parts generated by separate processes, stored, merged and loaded, to degrees in and out.", "quantifier": "for every such map, positions, courses with any number of turns and in any direction, double arithmetic for lengths", "why_tests_cant": "courses are points of a continuum and may lead any way round the globe; the graph knows only the neighbouring copies of vertices, and that these suffice concerns all maps", "anchors": ["capi/src/implementation/visibility_graphs/code/visgraph/visgraph_generator.cpp:generate_with_shuffled_range", "capi/src/implementation/visibility_graphs/code/visgraph/visgraph_generator.cpp:polygon_vertices", "capi/src/implementation/visibility_graphs/code/shortest_path/shortest_path_computer.cpp:shortest_path", "capi/src/implementation/visibility_graphs/code/datastructures/graph/graph.cpp:is_edge_meridian_crossing"]}
{"id": "C93", "title": "Parts made with one seed and one standard library fit together", "statement": "generate_for_vertex_range shuffles the vertices with std::mt19937 and std::shuffle. (outputs, permutation) For every seed and every list of vertices the generator's outputs have 32 bits, the shuffle exchanges positions inside the list only, and what it ends with is a rearrangement. (ends) It ends whenever usable outputs keep coming; (uniform) at least half of all outputs are usable and every number of a range is made of equally many; (orders) every order arises from exactly one sequence of choices, so none is preferred; (every) every order does come out for some outputs, one for each two elements being enough. (split, shards) Processes with one seed and one version of the library therefore make parts that merge to the graph generated in one go, and what C53 to C92 say of parts applies. (seed_range) Seeds that are negative or have more than 32 bits are refused. False: (libraries_false) it is enough to use the same seed; libstdc++ 11 scales numbers differently from libstdc++ 10, so with parts from both a vertex can be in none of them and its edges are missing; (seeds_false) any seeds will do.", "quantifier": "for every seed, list of vertices, source of 32-bit numbers, number of parts, both versions of the library", "why_tests_cant": "that no vertex is left out is a statement about all seeds and list lengths; the only test of parts uses one map, one seed and one machine", "anchors": ["capi/src/implementation/visibility_graphs/code/visgraph/visgraph_generator.cpp:generate_with_shuffled_range", "capi/src/implementation/graph_generator.py:generate_for_vertex_range"]}
{"id": "C94", "title": "What ends the process while a graph is generated or merged", "statement": "An exception inside an OpenMP loop cannot be caught; it ends the process, and with it the Python interpreter. (generate) Generation never raises an exception inside its loop: if the copies of the vertices fit into 32 bits it returns exactly if every scan succeeds and reports vertices of the map only, and ends the process otherwise, in whatever order threads take the vertices. (geographic) On maps within 180 degrees it returns, in one go or in parts, and a bad range is an exception the caller can handle. (degrees, shapefile) These are the maps read from degrees of longitude below 180.000001, less half a unit of the last place of the double arithmetic, and correspondingly of latitude; the bound is exact, and (shapefile_false) a shapefile reaching it is read and then ends the process. (beyond) If it returns, no two vertices beyond 180 degrees are linked, not even the ends of an edge; (overflow) with vertices too far out it is undefined. (merge) Merging returns exactly if all ends of edges are vertices of polygons, whatever was done to the graphs, and ends the process otherwise. False: (across_false) generation returns for every island; for one drawn across the meridian in one piece it does so under no behaviour of the hash tables; (grown_false) graphs can be merged; one to which a vertex was added and linked cannot even be merged with itself.", "quantifier": "for every map, every behaviour of the scans and hash tables, every schedule, every list of graphs", "why_tests_cant": "a test that ends the process is no test; which maps do so depends on all scans", "anchors": ["capi/src/implementation/visibility_graphs/code/visgraph/visgraph_generator.cpp:generate", "capi/src/implementation/visibility_graphs/code/visgraph/visgraph_generator.cpp:generate_with_shuffled_range", "capi/src/implementation/visibility_graphs/code/datastructures/graph/graph.cpp:merge_graphs", "capi/src/implementation/visibility_graphs/code/coordinate_periodicity/coordinate_periodicity.cpp:coordinate_from_periodic_coordinate", "capi/src/implementation/graph_generator.py:_read_polygons_from_shapefile"]}
{"id": "C95", "title": "What calls from Python can do to graphs and path computers that share them", "statement": "Python holds graphs by shared pointers; a path computer shares the graph it was made from, while its index and generator are made once. (add_raises) A failing add_edge leaves the graph as it was. (follows) After any calls whatever, every computer answers exactly as a new one made from the same graph would: it never falls behind. (safe) If the graphs generated or loaded are in order, no call ends the process; a call is undefined only if None is given for a graph, and a call that raises changes nothing. (add, merged) add_edge joins two vertices of the graph named in both directions, raises if an end is no vertex, and changes nothing else; merging makes a new graph with just the polygons and connections of those named. (total) Every call on objects that exist has an outcome. (paths) After any calls, a path returned is the straight line between the corrected endpoints or a walk along present connections of the graph, apart from its first and last legs. False: (snapshot_false) a computer answers from the graph it was given; add_edge changes its answers, and what it adds is not compared with the map: a path straight through an island is returned.", "quantifier": "for every sequence of calls, every graph, every behaviour of index, generator and hash tables", "why_tests_cant": "aliasing shows only in sequences of calls on several objects; the tests make one graph, one computer and one call", "anchors": ["capi/src/implementation/visibility_graphs/bindings.cpp", "capi/src/implementation/visibility_graphs/code/shortest_path/shortest_path_computer.cpp:ShortestPathComputer", "capi/src/implementation/visibility_graphs/code/datastructures/graph/graph.cpp:add_edge", "capi/src/implementation/visibility_graphs/code/datastructures/graph/graph.cpp:merge_graphs"]}
{"id": "C96", "title": "Polygons and coordinates as Python objects: what is shared, what is equal, what can be hashed", "statement": "(constructor) Making a Polygon raises exactly for fewer than three vertices, and otherwise puts the given coordinates into a new list. (kept, own) It keeps them whatever is done to other lists, also the one it was made from; two polygons never have the same list. (reader) Reading a shapefile never raises, gives polygons with just the vertices assumed elsewhere, changes no object that was there and puts no coordinate into two polygons; (separate) setting attributes of a coordinate changes only polygons that consist of it, so at most one of those read. (equality, values) Equality of polygons is an equivalence relation in every version of Python, even with NaN, and for numbers means the same degrees in the same order. False: (three_false) a polygon has at least three vertices: its list is handed out and can be emptied; (frozen_false) coordinates are frozen: setting an attribute succeeds and moves every polygon made with it; (ring_false) the same ring is the same polygon; (version_false) equality of coordinates with NaN does not depend on the version of Python; (strategy_false) polygon_strategy makes polygons: it raises whatever is drawn, for coordinates have no hash.", "quantifier": "for every memory, every sequence of makings, settings and changes of lists, every shapefile", "why_tests_cant": "aliasing shows only in sequences of changes through several references; the tests make one polygon and read it", "anchors": ["capi/src/implementation/datastructures/polygon.py:Polygon", "capi/src/implementation/dtos/coordinate.py:Coordinate", "capi/src/implementation/shapefiles/shapefile_reader.py:read", "capi/src/hypothesis_strategies/polygon.py:polygon_strategy"]}
{"id": "C97", "title": "Answers for the same waters agree with one another", "statement": "Under the conditions of C92, for searches whose straight line meets land and paths shorter than one turn of the globe, up to rounding and the greediness weighting: (again) another run for the same waters, however the land is cut into polygons and whatever the hash orders, rounding and index, gives a path of the same length; (back) the way back is found if the way there is, and is as long; (via) if paths lead to some point and on from there, one is found for the whole voyage and is at most as long as the two together; (land) on a map with more land no path is shorter, and if one is found there, one is found here. False without these conditions: (land_false) a rock beside a ship can shorten its path from 28 degrees to less than 2, because only vertices are joined across the meridian.", "quantifier": "for every such map, environment, positions, hash orders, rounding and weightings", "why_tests_cant": "these relate several answers on different maps and runs; a test compares answers on maps it knows", "anchors": ["capi/src/implementation/visibility_graphs/code/shortest_path/shortest_path_computer.cpp:shortest_path", "capi/src/implementation/visibility_graphs/code/shortest_path/shortest_path_computer.cpp:create_modified_graph", "capi/src/implementation/visibility_graphs/code/visgraph/visgraph_generator.cpp:generate"]}
{"id": "C98", "title": "Overlays over any base graph, also over overlays", "statement": "A ModifiedGraph may have any IGraph as base, in particular another ModifiedGraph, and calls on it may raise and be caught. For every base and every history: a pair nobody named is answered by the base; otherwise there is an edge iff the last change of the pair that took place was an addition, and it counts as crossing iff all of them were crossing additions and the base has no such edge or a crossing one; an addition raises iff it is a crossing one, the base raises for the pair and nothing about the pair was heard before, and then changes no answer about edges but makes its first coordinate a vertex; vertices are those of the base and those at which a change started; through any number of overlays the last change decides about the edge, neighbours are exactly the coordinates with an edge, get_vertices lists exactly what has_vertex accepts, and each overlay that holds an addition lists the neighbour once more. Two overlays against one with all the operations: edges agree; crossing flags differ exactly where the lower overlay ended with a removal and the upper one made only crossing additions. False: that a stack of overlays is the overlay with all operations (stack_false), that a raising add_edge leaves nothing behind (half_false), that neighbours are listed once (once_false).", "quantifier": "for every base graph, depth, sequence of operations, caught exceptions and iteration order of the maps", "why_tests_cant": "tests use one overlay over one Graph with a handful of edges; the claim is about every depth, history and failing call", "anchors": ["capi/src/implementation/visibility_graphs/code/datastructures/modified_graph/modified_graph.cpp:add_directed_edge", "capi/src/implementation/visibility_graphs/code/datastructures/modified_graph/modified_graph.cpp:add_edge", "capi/src/implementation/visibility_graphs/code/datastructures/modified_graph/modified_graph.cpp:get_neighbors", "capi/src/implementation/visibility_graphs/code/datastructures/modified_graph/modified_graph.cpp:get_vertices", "capi/src/implementation/visibility_graphs/code/datastructures/i_graph/i_graph.hpp:IGraph"]}
{"id": "C99", "title": "Convex islands of moderate size are land on the sphere as on the map, up to a margin", "statement": "Whether a place is land is asked of S2, which takes islands as polygons of great circles, while islands are drawn, cleaned and oriented on the map of longitude and latitude. For islands of at most a degree, convex on the map by a margin, between 60 degrees south and north and not at the meridian of 180 degrees: the constructor keeps the ring, drawn in either direction, if its area exceeds the rounding error of the winding sum; its loop on the sphere is convex and counter-clockwise, for the computed points; a place within the size of the island and to the left of all its sides by the margin is land, and queries from or to it without correction are refused; a place which for every island is more than three times its size away from some corner, or to the right of some side by the margin for three times the size, is water. The margin, for corners within W microdegrees, is W^3/7000000 + 3000 square microdegrees of twice the area of the triangle with the side. False without a margin (margin_false): 100 microdegrees north of the southern side of a square of a degree in latitude 45, strictly inside on the map, is water.", "quantifier": "for every such island with any number of corners, every set of such islands and every geographic place, for every conforming sine and cosine and every interior of convex loops", "why_tests_cant": "tests sample a few places of a few islands; the claim compares two geometries for all places and islands, with rounding", "anchors": ["capi/src/implementation/visibility_graphs/code/types/polygon/polygon.cpp:to_s2_loop", "capi/src/implementation/visibility_graphs/code/datastructures/spatial_segment_index/spatial_segment_index.cpp:is_point_contained", "capi/src/implementation/visibility_graphs/code/types/polygon/polygon.cpp:Polygon", "capi/src/implementation/visibility_graphs/code/shortest_path/shortest_path_computer.cpp:shortest_path"]}
{"id": "C100", "title": "Short courses meet coasts on the sphere as on the map, up to a margin", "statement": "Whether the direct line is free is asked of S2 with arcs of great circles through computed points, while the user, the graph and the scan have the map of longitude and latitude. For courses and edges of extent at most W (1000 microdegrees to one degree) between 60 degrees south and north and not at the meridian of 180 degrees: if every edge is asunder from the course on the map (no end of the one within 3W of an end of the other, or both ends of the one on the same side of the other by the margin for 5W) nothing is reported, and between places at sea the answer is the course, whatever the graph; if some edge crosses the course on the map by the margin something is reported and every path of a generated graph goes by a corner of an island. Asunder implies that the segments have no point in common on the map, athwart that they cross properly. False without a margin (margin_false): a course of a fifth of a degree that crosses the southern side of a square in latitude 45 on the map is not reported.", "quantifier": "for every set of polygons with such edges, every course, every conforming sine and cosine, every answer of S2 within the documented crossing rules, every graph, arithmetic and limit", "why_tests_cant": "tests sample a few courses; the claim compares two geometries with rounding for all courses and coasts", "anchors": ["capi/src/implementation/visibility_graphs/code/datastructures/spatial_segment_index/spatial_segment_index.cpp:intersect_with_segments", "capi/src/implementation/visibility_graphs/code/shortest_path/shortest_path_computer.cpp:shortest_path", "capi/src/implementation/visibility_graphs/code/types/coordinate/coordinate.cpp:to_s2_point", "capi/src/implementation/visibility_graphs/code/types/polygon/polygon.cpp:to_s2_loop"]}
{"id": "C101", "title": "Among small islands voyages keep to the sea of the map, land and crossings being those of S2", "statement": "The computer asks S2 whether the ends are on land and whether the direct line is free, and takes all other legs from a graph made on the map. On a chart of small convex islands (C99) between 60 degrees south and north, with ends off every island by the margin: S2 finds both ends at sea and on the map they are in no island and on no coast (offing); if the straight line goes deep into an island on the map, or crosses a side by the margin, S2 reports it and the line is not over the sea of the map (hindered); if every side is asunder from the line the answer is the line itself, whatever the graph, and it is over the sea of the map (unhindered); every path returned keeps to the sea of the map leg by leg, or is the direct line and does not go deep into an island (safe); and if the line is hindered and there is any course over the sea at all, a path is returned that keeps to the sea and is at most as long as that course, up to rounding and the weighting (round).", "quantifier": "for every chart of such islands, every pair of ends, every conforming sine and cosine, every answer of S2 within the documented rules for convex loops and for crossings, every generated graph and overlay, every course over the sea, every limit", "why_tests_cant": "tests try single voyages with one library; the claim joins the spherical queries and the planar graph for all charts and voyages", "anchors": ["capi/src/implementation/visibility_graphs/code/shortest_path/shortest_path_computer.cpp:shortest_path", "capi/src/implementation/visibility_graphs/code/datastructures/spatial_segment_index/spatial_segment_index.cpp:intersect_with_segments", "capi/src/implementation/visibility_graphs/code/types/polygon/polygon.cpp:to_s2_loop"]}
