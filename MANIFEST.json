{
 "claims": [
  {
   "property": "C01",
   "status": "proved",
   "theorems": [
    "Capi.C01_normalize_total",
    "Capi.C01_normalize_id",
    "Capi.C01_normalize_canonical"
   ],
   "note": ""
  },
  {
   "property": "C02",
   "status": "proved",
   "theorems": [
    "Capi.C02_copies",
    "Capi.C02_lists",
    "Capi.C02_segments"
   ],
   "note": ""
  },
  {
   "property": "C03",
   "status": "proved",
   "theorems": [
    "Capi.C03_sub",
    "Capi.C03_products",
    "Capi.C03_predicates",
    "Capi.C03_intersection_in_range",
    "Capi.C03_overflow_outside_range",
    "Capi.C03_cross_all_int32",
    "Capi.C03_polygon"
   ],
   "note": ""
  },
  {
   "property": "C04",
   "status": "partial",
   "theorems": [
    "Capi.C04_roundtrip_false",
    "Capi.C04_roundtrip_partial",
    "Capi.C04_whole_degrees"
   ],
   "note": "Round trip is false (15 microdegrees come back as 14, C04_roundtrip_false); proved: off by at most one, never away from zero, exact on whole degrees."
  },
  {
   "property": "C05",
   "status": "proved",
   "theorems": [
    "Capi.C05_scalar_multiple",
    "Capi.C05_zero_vector"
   ],
   "note": ""
  },
  {
   "property": "C06",
   "status": "proved",
   "theorems": [
    "Capi.C06_point_orientation",
    "Capi.C06_vector_orientation",
    "Capi.C06_symmetries"
   ],
   "note": ""
  },
  {
   "property": "C07",
   "status": "proved",
   "theorems": [
    "Capi.C07_decides",
    "Capi.C07_accuracy",
    "Capi.C07_exact_at_lattice",
    "Capi.C07_symmetric"
   ],
   "note": ""
  },
  {
   "property": "C08",
   "status": "proved",
   "theorems": [
    "Capi.C08_parallel",
    "Capi.C08_overlap_missed_false",
    "Capi.C08_distinct_lines"
   ],
   "note": "Proved as stated, including the witness that overlapping collinear segments are missed."
  },
  {
   "property": "C09",
   "status": "partial",
   "theorems": [
    "Capi.C09_coordinate_hash",
    "Capi.C09_segment_hash_false",
    "Capi.C09_segment_hash_partial",
    "Capi.C09_segment_equality",
    "Capi.C09_spread",
    "Capi.C09_collision",
    "Capi.C09_injective_false",
    "Capi.C09_polygon_hash"
   ],
   "note": "Coordinates: proved. Polygons: see C09_polygon_hash. Segments: refuted by witness; holds for equal direction."
  },
  {
   "property": "C10",
   "status": "proved",
   "theorems": [
    "Capi.C10_on_segment",
    "Capi.C10_degree_order"
   ],
   "note": ""
  },
  {
   "property": "C11",
   "status": "partial",
   "theorems": [
    "Capi.C11_comparison",
    "Capi.C11_unique",
    "Capi.C11_order_independent",
    "Capi.C11_observer_first",
    "Capi.C11_atan2_partial",
    "Capi.C11_short_vectors",
    "Capi.C11_tie_false",
    "Capi.C11_weak_order_false",
    "Capi.C11_observer_twice_false"
   ],
   "note": "Proved for exact angles (tied to Complex.arg). Partial as to std::atan2: any atan2 within eta agrees when 2*eta*|u||v| < |u x v| or the vectors are more than a right angle apart, in particular for all vectors up to 16.7 degrees with eta=2^-49. For longer vectors the property is false for doubles: C11_tie_false and C11_weak_order_false hold for every atan2 returning doubles within 2^-49. C71 carries this to the scans with the computed angles."
  },
  {
   "property": "C12",
   "status": "partial",
   "theorems": [
    "Capi.C12_same_vertices",
    "Capi.C12_counter_clockwise_partial",
    "Capi.C12_sliver_clockwise_false"
   ],
   "note": "Counter-clockwise is proved when twice the area exceeds n*(156+44*depth) square microdegrees for any summation tree; a sliver witness shows it is false in general."
  },
  {
   "property": "C13",
   "status": "proved",
   "theorems": [
    "Capi.C13_direction"
   ],
   "note": "Proved under the same resolved-area hypothesis."
  },
  {
   "property": "C14",
   "status": "proved",
   "theorems": [
    "Capi.C14_drops_exactly",
    "Capi.C14_preserves",
    "Capi.C14_repeated_corner_lost_false",
    "Capi.C14_segments"
   ],
   "note": "Proved; a corner repeated in a row is lost (witness)."
  },
  {
   "property": "C15",
   "status": "partial",
   "theorems": [
    "Capi.C15_rebuild_partial",
    "Capi.C15_rebuild_false",
    "Capi.C15_sliver_false",
    "Capi.C15_rebuild_iff",
    "Capi.C15_cleaning_idempotent"
   ],
   "note": "Exact condition for a rebuild to change a polygon without equal neighbours (C15_rebuild_iff); excluded when the area exceeds the rounding error; false for slivers and with equal neighbours (witnesses). Cleaning alone is idempotent when no cyclic neighbours are equal."
  },
  {
   "property": "C16",
   "status": "partial",
   "theorems": [
    "Capi.C16_corner_partial",
    "Capi.C16_coverage",
    "Capi.C16_along_edges",
    "Capi.C16_thin_corner_false"
   ],
   "note": "Proved for resolved corners (edges up to 22 degrees or |det| >= 300); thin-corner witness shows it is false in general."
  },
  {
   "property": "C17",
   "status": "proved",
   "theorems": [
    "Capi.C17_history"
   ],
   "note": "Proved for all histories over graphs with distinct vertices."
  },
  {
   "property": "C18",
   "status": "proved",
   "theorems": [
    "Capi.C18_frame",
    "Capi.C18_symmetric",
    "Capi.C18_no_self_edge"
   ],
   "note": "Proved."
  },
  {
   "property": "C19",
   "status": "proved",
   "theorems": [
    "Capi.C19_neighbors",
    "Capi.C19_predecessors",
    "Capi.C19_directed_false"
   ],
   "note": "Proved; witness for directed edges (predecessors are listed)."
  },
  {
   "property": "C20",
   "status": "proved",
   "theorems": [
    "Capi.C20_unknown",
    "Capi.C20_atomic",
    "Capi.C20_short",
    "Capi.C20_memory_safe",
    "Capi.C20_locks",
    "Capi.C20_relock",
    "Capi.C20_row"
   ],
   "note": "Proved, including absence of out-of-bounds matrix access in every reachable state."
  },
  {
   "property": "C21",
   "status": "partial",
   "theorems": [
    "Capi.C21_add_vertex_false",
    "Capi.C21_no_edges_partial",
    "Capi.C21_shift",
    "Capi.C21_first"
   ],
   "note": "False in general (witness). Proved: the exact effect on every pair (C21_shift), edges into the first vertex are kept, and nothing changes for graphs without edges."
  },
  {
   "property": "C22",
   "status": "proved",
   "theorems": [
    "Capi.C22_no_deadlock",
    "Capi.C22_terminates"
   ],
   "note": "Proved for any number of threads, all schedules, and any mutex that turns readers away only while a writer waits; every execution has bounded length."
  },
  {
   "property": "C23",
   "status": "proved",
   "theorems": [
    "Capi.C23_race_free",
    "Capi.C23_linearizable",
    "Capi.C23_schedule_independent",
    "Capi.C23_answers",
    "Capi.C23_undirected_atomic_false"
   ],
   "note": "Proved, with race freedom and linearizability for programs mixing additions, removals and queries; witness that an undirected addition is not atomic for readers."
  },
  {
   "property": "C24",
   "status": "proved",
   "theorems": [
    "Capi.C24_union",
    "Capi.C24_order_independent",
    "Capi.C24_grouping"
   ],
   "note": "Proved for every order of the parallel additions (MergeOrder)."
  },
  {
   "property": "C25",
   "status": "proved",
   "theorems": [
    "Capi.C25_equality",
    "Capi.C25_hash_collision_false"
   ],
   "note": "Proved for the rendered text; formatting assumed injective per coordinate (FmtOk, provided by fmt::format of ints/doubles) and hash-collision-free vertices; witness for collisions."
  },
  {
   "property": "C26",
   "status": "proved",
   "theorems": [
    "Capi.C26_read_through",
    "Capi.C26_frame",
    "Capi.C26_read_back",
    "Capi.C26_add_vertex",
    "Capi.C26_vertices",
    "Capi.C26_vertices_repeated"
   ],
   "note": "Proved."
  },
  {
   "property": "C27",
   "status": "partial",
   "theorems": [
    "Capi.C27_refines_partial",
    "Capi.C27_neighbors",
    "Capi.C27_readd_crossing_false",
    "Capi.C27_new_vertex_crossing_false",
    "Capi.C27_duplicate_neighbor_false"
   ],
   "note": "has_edge agrees for all histories over base vertices, crossing flags for pairs never removed, neighbour sets always; the remaining claims are false (three witnesses)."
  },
  {
   "property": "C28",
   "status": "proved",
   "theorems": [
    "Capi.C28_roundtrip",
    "Capi.C28_stable",
    "Capi.C28_unstable_false"
   ],
   "note": "Proved for all user-built graphs whose polygons are stable under construction (C28_stable gives a sufficient condition); distinctness of vertices turned out not to be needed. Witness that unstable polygons break it."
  },
  {
   "property": "C29",
   "status": "proved",
   "theorems": [
    "Capi.C29_save_inside",
    "Capi.C29_load_inside",
    "Capi.C29_added_vertex_false"
   ],
   "note": "Proved for graphs without add_vertex; with add_vertex the loader reads outside the file (witness)."
  },
  {
   "property": "C30",
   "status": "partial",
   "theorems": [
    "Capi.C30_exact",
    "Capi.C30_short",
    "Capi.C30_overwrite_partial",
    "Capi.C30_no_crossing",
    "Capi.C30_stale_false"
   ],
   "note": "False for crossing flags (witness); edges, vertices and polygons are unaffected. C30_exact says exactly for which previous contents it holds; graphs without crossing edges and files not longer than what is written are safe."
  },
  {
   "property": "C31",
   "status": "partial",
   "theorems": [
    "Capi.C31_in_polygons",
    "Capi.C31_every_point",
    "Capi.C31_torn_vertex_false",
    "Capi.C31_overwrite_false",
    "Capi.C31_twice",
    "Capi.C31_retry",
    "Capi.C31_retry_load",
    "Capi.C31_overwritten_partial",
    "Capi.C31_overwritten_false",
    "Capi.C31_after_allocation_false",
    "Capi.C31_crossing_lost_false",
    "Capi.C31_after_polygons",
    "Capi.C31_complete"
   ],
   "note": "False (witnesses; the first and the last for every graph; C31_overwrite_false and C31_overwritten_false for files that are overwritten). Crash point analysis complete for new files: every crash point loads without an error or UB and invents no edges (C31_every_point); inside the polygons the graph has no edges and the complete polygons are right (C31_in_polygons), afterwards polygons and vertices are right and edges only missing (C31_after_polygons). Over existing files: right edges once the count is written (C31_overwritten_partial). Saving again always repairs the file (C31_retry)."
  },
  {
   "property": "C32",
   "status": "proved",
   "theorems": [
    "Capi.C32_u64",
    "Capi.C32_u32",
    "Capi.C32_i32",
    "Capi.C32_little_endian",
    "Capi.C32_bounds",
    "Capi.C32_writes"
   ],
   "note": "Proved."
  },
  {
   "property": "C33",
   "status": "proved",
   "theorems": [
    "Capi.C33_reported"
   ],
   "note": "Any hash iteration order, any behaviour of the open-edge hash table; observers unrestricted. Each obstacle vertex at most once; two periodic copies of one vertex may both be listed."
  },
  {
   "property": "C34",
   "status": "proved",
   "theorems": [
    "Capi.C34_clear_is_reported"
   ],
   "note": "Completeness for every observer and every order. Clear means no common point with edges not incident to the observer but the vertex itself; the corner hypothesis is that of C16."
  },
  {
   "property": "C35",
   "status": "partial",
   "theorems": [
    "Capi.C35_behind_partial",
    "Capi.C35_blocked_partial",
    "Capi.C35_blocked_geo_partial",
    "Capi.C35_own_corner",
    "Capi.C35_order_false",
    "Capi.C35_tie_false",
    "Capi.C35_shared_vertex_false",
    "Capi.C35_rounding_false"
   ],
   "note": "False as stated; four refutations, each for convex islands and with the other three causes excluded (order by opening distance, equal distances, shared vertices, rounding). True part: a vertex behind the nearest-opened edge is not reported (C35_blocked_partial), nor one behind an edge when every edge opened nearer is crossed as well (C35_behind_partial), nor one inside the observer's own corner (C35_own_corner). C70 derives shapes for which it holds."
  },
  {
   "property": "C36",
   "status": "proved",
   "theorems": [
    "Capi.C36_half"
   ],
   "note": "Holds for every observer strictly west of longitude 540.000001."
  },
  {
   "property": "C37",
   "status": "proved",
   "theorems": [
    "Capi.C37_too_far",
    "Capi.C37_lone",
    "Capi.C37_compare",
    "Capi.C37_safe"
   ],
   "note": "Stronger than stated: no distinctness or minimum number of vertices needed."
  },
  {
   "property": "C38",
   "status": "proved",
   "theorems": [
    "Capi.C38_edges",
    "Capi.C38_clear_linked",
    "Capi.C38_stable"
   ],
   "note": "Generation succeeds and links exactly what the two half scans report (C38_edges); clear sight lines to any of the three copies are linked, seen from the southern vertex (C38_clear_linked), for polygons whose copies survive rebuilding, which C38_stable derives from the area bound of C12."
  },
  {
   "property": "C39",
   "status": "partial",
   "theorems": [
    "Capi.C39_scan",
    "Capi.C39_deterministic",
    "Capi.C39_order",
    "Capi.C39_schedule",
    "Capi.C39_segment_order_false"
   ],
   "note": "Order of vertices, number of threads, sharing and interleaving do not matter (C39_order, C39_schedule). The address-dependent order of candidate segments inside one scan does matter in general (C39_segment_order_false); it does not if edges east of each vertex are more than a microdegree apart and no polygon doubles back on an edge (C39_scan, C39_deterministic)."
  },
  {
   "property": "C40",
   "status": "proved",
   "theorems": [
    "Capi.C40_processes",
    "Capi.C40_shards"
   ],
   "note": "C40_shards: all shards use the same scan behaviour. C40_processes: each shard has its own, on maps as in C39_deterministic; C39_segment_order_false shows why a condition is needed."
  },
  {
   "property": "C41",
   "status": "proved",
   "theorems": [
    "Capi.C41_ranges",
    "Capi.C41_empty"
   ],
   "note": "size_t arguments are natural numbers."
  },
  {
   "property": "C42",
   "status": "proved",
   "theorems": [
    "Capi.C42_ready",
    "Capi.C42_paths",
    "Capi.C42_rounded",
    "Capi.C42_never_throws"
   ],
   "note": "For any arithmetic in which adding a length is monotone and never decreases a distance; instances: exact reals and rounded doubles (any non-negative square root). Spatial index, projection and scan answers are arbitrary. Two new endpoints are never connected to each other in the search graph (only the direct-line answer does that)."
  },
  {
   "property": "C43",
   "status": "proved",
   "theorems": [
    "Capi.C43_terminates",
    "Capi.C43_outcome"
   ],
   "note": "Iteration bound holds for every tie-break; follow ends on every final state."
  },
  {
   "property": "C44",
   "status": "proved",
   "theorems": [
    "Capi.C44_direct",
    "Capi.C44_shortest"
   ],
   "note": "Exact arithmetic. Direct answers: not longer than any route when taken the shorter way round (C44_direct)."
  },
  {
   "property": "C45",
   "status": "proved",
   "theorems": [
    "Capi.C45_bounded",
    "Capi.C45_not_shortest_false"
   ],
   "note": "Bound proved for every w >= 1; C45_not_shortest_false gives a run with w = 6 returning 12 degrees where 8 are possible."
  },
  {
   "property": "C46",
   "status": "proved",
   "theorems": [
    "Capi.C46_failure",
    "Capi.C46_unlimited"
   ],
   "note": "In any sound arithmetic, also with a limit (routes within the limit)."
  },
  {
   "property": "C47",
   "status": "partial",
   "theorems": [
    "Capi.C47_direct_false",
    "Capi.C47_within",
    "Capi.C47_shortest"
   ],
   "note": "Holds for every searched answer. C47_direct_false: answers given without a search (nothing blocks the line) ignore the limit."
  },
  {
   "property": "C48",
   "status": "proved",
   "theorems": [
    "Capi.C48_rejected",
    "Capi.C48_corrected",
    "Capi.C48_unmoved"
   ],
   "note": "For all answers of the spatial index and projection."
  },
  {
   "property": "C49",
   "status": "proved",
   "theorems": [
    "Capi.C49_batch",
    "Capi.C49_exactly_one",
    "Capi.C49_schedules"
   ],
   "note": "Iterations share no written data except their own slots, so schedules are orders of slot writes; message text not modelled."
  },
  {
   "property": "C50",
   "status": "proved",
   "theorems": [
    "Capi.C50_distance",
    "Capi.C50_magnitudes",
    "Capi.C50_safe",
    "Capi.C50_routes",
    "Capi.C50_queries"
   ],
   "note": "Distances symmetric for any even magnitude (exact and rounded); search results symmetric in exact arithmetic when both directions are searched."
  },
  {
   "property": "C51",
   "status": "proved",
   "theorems": [
    "Capi.C51_direct",
    "Capi.C51_blocked"
   ],
   "note": "C51_blocked: the converse."
  },
  {
   "property": "C52",
   "status": "proved",
   "theorems": [
    "Capi.C52_consistent",
    "Capi.C52_admissible"
   ],
   "note": "Exact arithmetic, longitudes within +-270 degrees; C42_ready shows the range holds for geographic data."
  },
  {
   "property": "C53",
   "status": "proved",
   "theorems": [
    "Capi.C53_partition",
    "Capi.C53_exactly_one",
    "Capi.C53_shards",
    "Capi.C53_unchecked",
    "Capi.C53_rejected"
   ],
   "note": "Splits modelled with Python floor division. C53_shards: all splits of a non-empty polygon list with one seed, merged in any way, answer like one-go generation. C53_unchecked records that split number = number of splits is accepted and that an empty polygon list raises."
  },
  {
   "property": "C54",
   "status": "proved",
   "theorems": [
    "Capi.C54_read",
    "Capi.C54_closed",
    "Capi.C54_other_parts",
    "Capi.C54_geographic"
   ],
   "note": "pyshp's record decoding is not modelled: a record is type, points and part starts. C54_geographic connects the reader to the hypotheses of C38-C41."
  },
  {
   "property": "C55",
   "status": "proved",
   "theorems": [
    "Capi.C55_range",
    "Capi.C55_congruent",
    "Capi.C55_turns",
    "Capi.C55_id",
    "Capi.C55_idempotent",
    "Capi.C55_pole_false",
    "Capi.C55_rounded_range",
    "Capi.C55_rounded_false",
    "Capi.C55_rounded_id"
   ],
   "note": "Exact arithmetic for the stated property; C55_rounded_range, C55_rounded_id and C55_rounded_false say what double rounding changes. C55_pole_false is the witness asked for."
  },
  {
   "property": "C56",
   "status": "partial",
   "theorems": [
    "Capi.C56_turn_not_period_false",
    "Capi.C56_turn_drift_partial"
   ],
   "note": "False: the code's period is 360.000001 degrees; the drift is proved."
  },
  {
   "property": "C57",
   "status": "proved",
   "theorems": [
    "Capi.C57_batch",
    "Capi.C57_never_raises",
    "Capi.C57_geographic"
   ],
   "note": "Queries are the outcome relation of C42-C52; the S2 based index and projection are oracles. LandOk asks that corrections stay in range."
  },
  {
   "property": "C58",
   "status": "proved",
   "theorems": [
    "Capi.C58_endpoints"
   ],
   "note": "Conversion both ways is with IEEE rounding; any arithmetic for the search."
  },
  {
   "property": "C59",
   "status": "proved",
   "theorems": [
    "Capi.C59_margin",
    "Capi.C59_default",
    "Capi.C59_land"
   ],
   "note": "The S2 projection itself is an input. std::sqrt is any function with relative error about 2^-52. A nearest point exactly one microdegree away may or may not be moved."
  },
  {
   "property": "C60",
   "status": "proved",
   "theorems": [
    "Capi.C60_processes",
    "Capi.C60_pipeline",
    "Capi.C60_separate",
    "Capi.C60_single",
    "Capi.C60_no_overwrite",
    "Capi.C60_failed_merge_blocks"
   ],
   "note": "Disk model: folders with one file; permissions, full disks and power loss not modelled. In C60_pipeline all parts share scan behaviour (see C39); C60_separate lets every part have its own, for polygons without shared corners; C60_processes shows the result is then that of any process, on maps as in C39_deterministic."
  },
  {
   "property": "C61",
   "status": "partial",
   "theorems": [
    "Capi.C61_found",
    "Capi.C61_optimal",
    "Capi.C61_across_partial",
    "Capi.C61_across_false"
   ],
   "note": "Proved this side of the meridian; across it legs must be counted by the longer way round (C61_across_partial), the claim itself is refuted (C61_across_false). Sight lines are clear in the sense of C34."
  },
  {
   "property": "C62",
   "status": "proved",
   "theorems": [
    "Capi.C62_first_leg",
    "Capi.C62_last_leg",
    "Capi.C62_via"
   ],
   "note": "Proved."
  },
  {
   "property": "C63",
   "status": "partial",
   "theorems": [
    "Capi.C63_direct_false",
    "Capi.C63_detour_false",
    "Capi.C63_equator_partial",
    "Capi.C63_equator_query_partial"
   ],
   "note": "False both ways with an exact index on the sphere: a direct answer can cross an island from coast to coast in the plane (C63_direct_false), and a line that is free in the plane can be refused so that every answer is a longer detour (C63_detour_false). On the equator the two agree (C63_equator_partial, C63_equator_query_partial)."
  },
  {
   "property": "C64",
   "status": "proved",
   "theorems": [
    "Capi.C64_rounded",
    "Capi.C64_bounded",
    "Capi.C64_limit"
   ],
   "note": "bounds in terms of true lengths; doubles with unbounded exponent; assumes a square root right to about 2^-52 (IEEE asks for 2^-53)"
  },
  {
   "property": "C65",
   "status": "partial",
   "theorems": [
    "Capi.C65_cut_partial",
    "Capi.C65_refused_false",
    "Capi.C65_trailing"
   ],
   "note": "false as stated: a shortened file makes the loader read beyond its end instead of raising; proved: it is never loaded as a different graph, exactly which bytes are needed, and appended bytes are ignored"
  },
  {
   "property": "C66",
   "status": "proved",
   "theorems": [
    "Capi.C66_read",
    "Capi.C66_rounded",
    "Capi.C66_end_to_end"
   ],
   "note": "Chains across the meridian are excluded (see C61). Rings of more than rounding-error area and the absence of shared corners are hypotheses; every process may sum areas in its own way within a bound D on the depth of rounded additions."
  },
  {
   "property": "C67",
   "status": "proved",
   "theorems": [
    "Capi.C67_roundtrip",
    "Capi.C67_geographic",
    "Capi.C67_injective",
    "Capi.C67_periodic_false",
    "Capi.C67_edge",
    "Capi.C67_recognised",
    "Capi.C67_index",
    "Capi.C67_meets",
    "Capi.C67_within",
    "Capi.C67_blocking",
    "Capi.C67_corner",
    "Capi.C67_land",
    "Capi.C67_calls"
   ],
   "note": "C67_periodic_false: coordinates of periodic copies of obstacles, beyond 180 degrees, do not come back; the code converts geographic coordinates only."
  },
  {
   "property": "C68",
   "status": "proved",
   "theorems": [
    "Capi.C68_degrees",
    "Capi.C68_magnitude",
    "Capi.C68_dot",
    "Capi.C68_cross",
    "Capi.C68_parallel_false",
    "Capi.C68_constructor",
    "Capi.C68_not_finite",
    "Capi.C68_scale",
    "Capi.C68_divide",
    "Capi.C68_multiple",
    "Capi.C68_param",
    "Capi.C68_reflex",
    "Capi.C68_winding",
    "Capi.C68_wrap",
    "Capi.C68_project",
    "Capi.C68_ieee",
    "Capi.C68_root",
    "Capi.C68_order",
    "Capi.C68_nearest",
    "Capi.C68_nearest64",
    "Capi.C68_overflow"
   ],
   "note": "The S2 conversions are not covered. C68_parallel_false refutes the parallel test by the double cross product (exposed to Python, not used by the code itself)."
  },
  {
   "property": "C69",
   "status": "proved",
   "theorems": [
    "Capi.C69_comparator",
    "Capi.C69_agrees",
    "Capi.C69_path",
    "Capi.C69_unlimited",
    "Capi.C69_negative",
    "Capi.C69_distances",
    "Capi.C69_weights",
    "Capi.C69_order_false"
   ],
   "note": "The queue keeps elements of least priority on top for any strict weak order; C69_comparator reduces the comparison on doubles to that of the model. C69_order_false: no bound on path lengths for weightings that are NaN or infinite."
  },
  {
   "property": "C70",
   "status": "proved",
   "theorems": [
    "Capi.C70_convex_copies",
    "Capi.C70_convex",
    "Capi.C70_front_copies",
    "Capi.C70_front",
    "Capi.C70_exact"
   ],
   "note": "Ties of distance, vertices in line with the line of sight and crossings within a microdegree of the vertex are excluded by hypothesis; C35 has counterexamples for ties and rounding."
  },
  {
   "property": "C71",
   "status": "proved",
   "theorems": [
    "Capi.C71_angle",
    "Capi.C71_compare",
    "Capi.C71_sort",
    "Capi.C71_scan",
    "Capi.C71_generate",
    "Capi.C71_query",
    "Capi.C71_near",
    "Capi.C71_lattice",
    "Capi.C71_copies",
    "Capi.C71_all_maps_false"
   ],
   "note": ""
  },
  {
   "property": "C72",
   "status": "proved",
   "theorems": [
    "Capi.C72_polygon",
    "Capi.C72_corner",
    "Capi.C72_compare",
    "Capi.C72_scan",
    "Capi.C72_generate",
    "Capi.C72_query",
    "Capi.C72_paths",
    "Capi.C72_length",
    "Capi.C72_voyage",
    "Capi.C72_project",
    "Capi.C72_all_corners_false"
   ],
   "note": "Corners, areas and directions below the stated rounding bounds are excluded by hypothesis; C72_all_corners_false shows that for corners this is needed."
  },
  {
   "property": "C73",
   "status": "proved",
   "theorems": [
    "Capi.C73_end_to_end",
    "Capi.C73_corners"
   ],
   "note": "Separation of directions and resolved corners are hypotheses (needed: C71_all_maps_false, C72_all_corners_false); C71_copies, C71_lattice and C73_corners supply them for maps on a lattice. Polygon orientation is computed without fusing here; C72_polygon covers fused sums."
  },
  {
   "property": "C74",
   "status": "proved",
   "theorems": [
    "Capi.C74_end_to_end",
    "Capi.C74_tight",
    "Capi.C74_sea",
    "Capi.C74_path"
   ],
   "note": "The land is any family of open sets which the polygons enclose; shown to exist for strictly convex polygons. Endpoints that see each other are left out, since there the answer rests on S2, as are courses across the meridian."
  },
  {
   "property": "C75",
   "status": "proved",
   "theorems": [
    "Capi.C75_exact",
    "Capi.C75_graph",
    "Capi.C75_path_sea",
    "Capi.C75_path",
    "Capi.C75_start_false"
   ],
   "note": "Proved for the class of maps stated; C35, C39 have maps outside it where the scan errs."
  },
  {
   "property": "C76",
   "status": "proved",
   "theorems": [
    "Capi.C76_end_to_end"
   ],
   "note": "Under the hypotheses named in the property; what the index reports is not modelled, so a straight line it passes is exempt."
  },
  {
   "property": "C77",
   "status": "proved",
   "theorems": [
    "Capi.C77_float",
    "Capi.C77_safe",
    "Capi.C77_exact",
    "Capi.C77_undefined_false",
    "Capi.C77_generate"
   ],
   "note": "Safety is false with fewer vertices than threads (C77_undefined_false); the rest is proved under the condition that there are enough. Clock values are assumed below 73 years and the estimate below two years (ClockOk)."
  },
  {
   "property": "C78",
   "status": "partial",
   "theorems": [
    "Capi.C78_done",
    "Capi.C78_works",
    "Capi.C78_raised",
    "Capi.C78_left_false",
    "Capi.C78_full_disk_false",
    "Capi.C78_load",
    "Capi.C78_load_result",
    "Capi.C78_leak_false",
    "Capi.C78_merge_false"
   ],
   "note": "done, works, raised, load, load_result proved for every combination of failing calls. The remaining claims are false (C78_left_false, C78_full_disk_false, C78_merge_false, C78_leak_false)."
  },
  {
   "property": "C79",
   "status": "proved",
   "theorems": [
    "Capi.C79_effort",
    "Capi.C79_plain",
    "Capi.C79_runs",
    "Capi.C79_exponential",
    "Capi.C79_greedy_false"
   ],
   "note": "C79_effort covers exact arithmetic with weighting in [0,1] and any limit, C79_plain the rounded distances of the code with weighting 0. With rounded distances and a weighting above 0 the heuristic is only nearly consistent and the bound is not proved. C79_exponential and C79_greedy_false show that the bound fails for weighting 2."
  },
  {
   "property": "C80",
   "status": "proved",
   "theorems": [
    "Capi.C80_coordinate",
    "Capi.C80_polygon",
    "Capi.C80_same_outcomes",
    "Capi.C80_named",
    "Capi.C80_identifies",
    "Capi.C80_same_batches",
    "Capi.C80_warned",
    "Capi.C80_again_silent",
    "Capi.C80_silent_false",
    "Capi.C80_outside_false",
    "Capi.C80_closest"
   ],
   "note": "For geographic endpoints and Python's default warning filters; C80_outside_false and C80_silent_false show that both conditions are needed. Assumes FmtOk of fmt, as C25."
  },
  {
   "property": "C81",
   "status": "partial",
   "theorems": [
    "Capi.C81_loop",
    "Capi.C81_triangle_partial",
    "Capi.C81_clockwise",
    "Capi.C81_one_corner",
    "Capi.C81_narrow",
    "Capi.C81_flat",
    "Capi.C81_astride",
    "Capi.C81_land_false"
   ],
   "note": "The claim is false (C81_land_false); three mechanisms are shown with the queries they spoil. The true part is for triangles drawn counter-clockwise on the sphere. S2's documented meaning of one-vertex loops and triangles is a hypothesis (LoopRules), shown consistent."
  },
  {
   "property": "C82",
   "status": "partial",
   "theorems": [
    "Capi.C82_first",
    "Capi.C82_last",
    "Capi.C82_both",
    "Capi.C82_hop_false"
   ],
   "note": "The claim is false (C82_hop_false). What holds: the stated lower bounds, and for chains of sight lines on the map the optimality of C61_optimal."
  },
  {
   "property": "C83",
   "status": "partial",
   "theorems": [
    "Capi.C83_incident",
    "Capi.C83_unguarded_false",
    "Capi.C83_guarded_partial",
    "Capi.C83_listed",
    "Capi.C83_vertices",
    "Capi.C83_unknown",
    "Capi.C83_end_false",
    "Capi.C83_through_false"
   ],
   "note": "False as stated: in every order of the segments each polygon keeps an unguarded corner (C83_unguarded_false, witness C83_through_false) and wall ends read out of range (C83_end_false). Proved: the map (C83_incident, C83_vertices) and agreement with the polygon generator where the incoming edge comes first (C83_guarded_partial, C83_listed)."
  },
  {
   "property": "C84",
   "status": "partial",
   "theorems": [
    "Capi.C84_contained_partial",
    "Capi.C84_numbers",
    "Capi.C84_silent_false",
    "Capi.C84_undefined_false"
   ],
   "note": "The claim is false: bits of the matrix can change silently (C84_silent_false) and a damaged count is undefined behaviour (C84_undefined_false). Proved part: with intact polygons and count every file loads safely with the same polygons and vertices."
  },
  {
   "property": "C85",
   "status": "partial",
   "theorems": [
    "Capi.C85_scale",
    "Capi.C85_whole",
    "Capi.C85_undo",
    "Capi.C85_undo_false",
    "Capi.C85_spread",
    "Capi.C85_products",
    "Capi.C85_turn_false",
    "Capi.C85_minus_false",
    "Capi.C85_sum",
    "Capi.C85_unit",
    "Capi.C85_zero_false"
   ],
   "note": "False: dividing undoes multiplying (factor 1/2), the sign of the computed cross product is right, a difference in range is defined, zero has a unit vector; each refuted by a concrete case. Proved: exact ranges and error bounds of the operators, undoing for factors beyond 1, and the unit vector."
  },
  {
   "property": "C86",
   "status": "partial",
   "theorems": [
    "Capi.C86_accurate",
    "Capi.C86_zero",
    "Capi.C86_place_false",
    "Capi.C86_metric",
    "Capi.C86_plane",
    "Capi.C86_wrap",
    "Capi.C86_leg",
    "Capi.C86_plane_false"
   ],
   "note": "False: the same place under two names has distance zero (meridian of 180 degrees); plane lengths are within a bounded factor of those on the sphere (poles). Proved: accuracy, zero exactly for equal coordinates, metric laws up to rounding, and that legs are at most as long in reality as for the search. The formula of S2LatLng::GetDistance is taken from S2, which is not part of the repository."
  },
  {
   "property": "C87",
   "status": "partial",
   "theorems": [
    "Capi.C87_direct",
    "Capi.C87_cost",
    "Capi.C87_bounded",
    "Capi.C87_chain",
    "Capi.C87_globe_false"
   ],
   "note": "False: paths are shortest on the globe up to a moderate factor (C87_globe_false: a factor of five million near the pole). Proved: the bound pi/(2 cos f) for routes within latitudes f, and that direct answers are shortest. Legs of the compared routes must take the short way round the globe."
  },
  {
   "property": "C88",
   "status": "proved",
   "theorems": [
    "Capi.C88_ring",
    "Capi.C88_unique",
    "Capi.C88_loads",
    "Capi.C88_result",
    "Capi.C88_refused",
    "Capi.C88_memory",
    "Capi.C88_unlimited"
   ],
   "note": "Exact condition and result for every byte sequence, with any limits of memory for the vectors; memory of maps and sets is not limited, and being killed for lack of memory is not modelled."
  },
  {
   "property": "C89",
   "status": "proved",
   "theorems": [
    "Capi.C89_encloses",
    "Capi.C89_interior",
    "Capi.C89_count",
    "Capi.C89_simple",
    "Capi.C89_polygon",
    "Capi.C89_path"
   ],
   "note": "The inside is defined by the angle under which the ring is seen. Slivers whose area is below the rounding error of the orientation test are left out of C89_polygon, since C12 is false for them."
  },
  {
   "property": "C90",
   "status": "proved",
   "theorems": [
    "Capi.C90_exact",
    "Capi.C90_graph",
    "Capi.C90_path_sea",
    "Capi.C90_path",
    "Capi.C90_read",
    "Capi.C90_end_to_end"
   ],
   "note": "Proved for every map of simple polygons whose vertices are legible (a decidable criterion is given and met by a map with a bay and a rock in its mouth); C75 and C76 for convex islands are special cases. Outside legible positions C35 and C39 show wrong reports."
  },
  {
   "property": "C91",
   "status": "proved",
   "theorems": [
    "Capi.C91_scan",
    "Capi.C91_right",
    "Capi.C91_graph",
    "Capi.C91_always_false"
   ],
   "note": "The exact description of the scan and the exact condition for it to be right, for positions without ties, vertices in line or edges within rounding of a vertex; C91_always_false is a witness that the condition is needed."
  },
  {
   "property": "C92",
   "status": "proved",
   "theorems": [
    "Capi.C92_path",
    "Capi.C92_course",
    "Capi.C92_turn_false",
    "Capi.C92_end_to_end"
   ],
   "note": "courses shorter than a turn round the globe, on maps without the shortcomings of C61 and C82; with a refutation of the length where a line goes once round the globe"
  },
  {
   "property": "C93",
   "status": "proved",
   "theorems": [
    "Capi.C93_outputs",
    "Capi.C93_permutation",
    "Capi.C93_ends",
    "Capi.C93_uniform",
    "Capi.C93_orders",
    "Capi.C93_every",
    "Capi.C93_split",
    "Capi.C93_shards",
    "Capi.C93_seed_range",
    "Capi.C93_libraries_false",
    "Capi.C93_seeds_false"
   ],
   "note": ""
  },
  {
   "property": "C94",
   "status": "proved",
   "theorems": [
    "Capi.C94_generate",
    "Capi.C94_geographic",
    "Capi.C94_overflow",
    "Capi.C94_beyond",
    "Capi.C94_across_false",
    "Capi.C94_merge",
    "Capi.C94_grown_false",
    "Capi.C94_degrees",
    "Capi.C94_shapefile",
    "Capi.C94_shapefile_false"
   ],
   "note": ""
  },
  {
   "property": "C95",
   "status": "proved",
   "theorems": [
    "Capi.C95_undefined",
    "Capi.C95_add_raises",
    "Capi.C95_follows",
    "Capi.C95_safe",
    "Capi.C95_add",
    "Capi.C95_merged",
    "Capi.C95_total",
    "Capi.C95_paths",
    "Capi.C95_snapshot_false"
   ],
   "note": ""
  },
  {
   "property": "C96",
   "status": "proved",
   "theorems": [
    "Capi.C96_constructor",
    "Capi.C96_kept",
    "Capi.C96_own",
    "Capi.C96_equality",
    "Capi.C96_values",
    "Capi.C96_reader",
    "Capi.C96_separate",
    "Capi.C96_three_false",
    "Capi.C96_frozen_false",
    "Capi.C96_ring_false",
    "Capi.C96_version_false",
    "Capi.C96_strategy_false"
   ],
   "note": ""
  },
  {
   "property": "C97",
   "status": "proved",
   "theorems": [
    "Capi.C97_land",
    "Capi.C97_again",
    "Capi.C97_back",
    "Capi.C97_via",
    "Capi.C97_land_false"
   ],
   "note": "Consequences of C92 for several answers; the conditions are those of C92, and without them more land can shorten a path (C97_land_false)."
  },
  {
   "property": "C98",
   "status": "proved",
   "theorems": [
    "Capi.C98_graph_answers",
    "Capi.C98_modified",
    "Capi.C98_untouched",
    "Capi.C98_edge",
    "Capi.C98_raises",
    "Capi.C98_half_false",
    "Capi.C98_answers",
    "Capi.C98_stack",
    "Capi.C98_stack_false",
    "Capi.C98_depth",
    "Capi.C98_neighbors",
    "Capi.C98_vertices",
    "Capi.C98_add_vertex",
    "Capi.C98_count",
    "Capi.C98_once_false"
   ],
   "note": "Bases are given by their answers; a base that somebody else changes meanwhile is not modelled. C98_edge and C98_count suppose that the base answers for the pair or that add_edge is not used."
  },
  {
   "property": "C99",
   "status": "proved",
   "theorems": [
    "Capi.C99_convex",
    "Capi.C99_ashore",
    "Capi.C99_afloat",
    "Capi.C99_polygon",
    "Capi.C99_margin_false"
   ],
   "note": "False without a margin (C99_margin_false); with the margin proved for every stout island. The interior of convex loops is assumed as documented by S2 (ConvexRules), shown consistent by exists_convex."
  },
  {
   "property": "C100",
   "status": "proved",
   "theorems": [
    "Capi.C100_clear",
    "Capi.C100_direct",
    "Capi.C100_athwart",
    "Capi.C100_around",
    "Capi.C100_map",
    "Capi.C100_margin_false"
   ],
   "note": "False without a margin (C100_margin_false); with the margin proved for every course and coast of moderate extent. The crossing rules of S2 are assumed as documented (CrossRules), shown consistent by exists_index."
  },
  {
   "property": "C101",
   "status": "proved",
   "theorems": [
    "Capi.C101_offing",
    "Capi.C101_hindered",
    "Capi.C101_unhindered",
    "Capi.C101_safe",
    "Capi.C101_round"
   ],
   "note": "Small convex islands between 60 degrees south and north, ends off every island by the margin; S2 enters by the documented rules for convex loops and crossings. Between deep and asunder nothing is said of the direct line."
  }
 ]
}