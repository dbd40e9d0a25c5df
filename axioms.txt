# axioms each property theorem depends on (Lean #print axioms); all are standard Lean axioms
C01_normalize_canonical: propext, Classical.choice, Quot.sound
C01_normalize_id: propext, Classical.choice, Quot.sound
C01_normalize_total: propext, Classical.choice, Quot.sound
C02_copies: propext, Classical.choice, Quot.sound
C02_lists: propext, Classical.choice, Quot.sound
C02_segments: propext, Classical.choice, Quot.sound
C03_cross_all_int32: propext, Classical.choice, Quot.sound
C03_intersection_in_range: propext, Classical.choice, Quot.sound
C03_overflow_outside_range: propext, Classical.choice, Quot.sound
C03_polygon: propext, Classical.choice, Quot.sound
C03_predicates: propext, Classical.choice, Quot.sound
C03_products: propext, Classical.choice, Quot.sound
C03_sub: propext, Classical.choice, Quot.sound
C04_roundtrip_false: propext, Classical.choice, Quot.sound
C04_roundtrip_partial: propext, Classical.choice, Quot.sound
C04_whole_degrees: propext, Classical.choice, Quot.sound
C05_scalar_multiple: propext, Classical.choice, Quot.sound
C05_zero_vector: propext, Classical.choice, Quot.sound
C06_point_orientation: propext, Classical.choice, Quot.sound
C06_symmetries: propext, Quot.sound
C06_vector_orientation: propext, Classical.choice, Quot.sound
C07_accuracy: propext, Classical.choice, Quot.sound
C07_decides: propext, Classical.choice, Quot.sound
C07_exact_at_lattice: propext, Classical.choice, Quot.sound
C07_symmetric: propext, Classical.choice, Quot.sound
C08_distinct_lines: propext, Classical.choice, Quot.sound
C08_overlap_missed_false: propext, Classical.choice, Quot.sound
C08_parallel: propext, Classical.choice, Quot.sound
C09_collision: propext, Classical.choice, Quot.sound
C09_coordinate_hash: propext, Quot.sound
C09_injective_false: propext, Classical.choice, Quot.sound
C09_polygon_hash: propext, Quot.sound
C09_segment_equality: propext
C09_segment_hash_false: propext, Quot.sound
C09_segment_hash_partial: propext, Quot.sound
C09_spread: propext, Quot.sound
C100_around: propext, Classical.choice, Quot.sound
C100_athwart: propext, Classical.choice, Quot.sound
C100_clear: propext, Classical.choice, Quot.sound
C100_direct: propext, Classical.choice, Quot.sound
C100_map: propext, Classical.choice, Quot.sound
C100_margin_false: propext, Classical.choice, Quot.sound
C101_hindered: propext, Classical.choice, Quot.sound
C101_offing: propext, Classical.choice, Quot.sound
C101_round: propext, Classical.choice, Quot.sound
C101_safe: propext, Classical.choice, Quot.sound
C101_unhindered: propext, Classical.choice, Quot.sound
C10_degree_order: propext, Classical.choice, Quot.sound
C10_on_segment: propext, Classical.choice, Quot.sound
C11_atan2_partial: propext, Classical.choice, Quot.sound
C11_comparison: propext, Classical.choice, Quot.sound
C11_observer_first: propext, Classical.choice, Quot.sound
C11_observer_twice_false: propext, Classical.choice, Quot.sound
C11_order_independent: propext, Classical.choice, Quot.sound
C11_short_vectors: propext, Classical.choice, Quot.sound
C11_tie_false: propext, Classical.choice, Quot.sound
C11_unique: propext, Classical.choice, Quot.sound
C11_weak_order_false: propext, Classical.choice, Quot.sound
C12_counter_clockwise_partial: propext, Classical.choice, Quot.sound
C12_same_vertices: propext, Classical.choice, Quot.sound
C12_sliver_clockwise_false: propext, Classical.choice, Quot.sound
C13_direction: propext, Classical.choice, Quot.sound
C14_drops_exactly: propext, Classical.choice, Quot.sound
C14_preserves: propext, Classical.choice, Quot.sound
C14_repeated_corner_lost_false: propext, Classical.choice, Quot.sound
C14_segments: propext, Classical.choice, Quot.sound
C15_cleaning_idempotent: propext, Classical.choice, Quot.sound
C15_rebuild_false: propext, Classical.choice, Quot.sound
C15_rebuild_iff: propext, Classical.choice, Quot.sound
C15_rebuild_partial: propext, Classical.choice, Quot.sound
C15_sliver_false: propext, Classical.choice, Quot.sound
C16_along_edges: propext, Classical.choice, Quot.sound
C16_corner_partial: propext, Classical.choice, Quot.sound
C16_coverage: propext, Classical.choice, Quot.sound
C16_thin_corner_false: propext, Classical.choice, Quot.sound
C17_history: propext, Classical.choice, Quot.sound
C18_frame: propext, Classical.choice, Quot.sound
C18_no_self_edge: propext
C18_symmetric: propext, Classical.choice, Quot.sound
C19_directed_false: propext, Quot.sound
C19_neighbors: propext, Classical.choice, Quot.sound
C19_predecessors: propext, Classical.choice, Quot.sound
C20_atomic: propext, Classical.choice, Quot.sound
C20_locks: propext, Quot.sound
C20_memory_safe: propext, Classical.choice, Quot.sound
C20_relock: propext, Quot.sound
C20_row: propext, Quot.sound
C20_short: propext, Quot.sound
C20_unknown: propext, Classical.choice, Quot.sound
C21_add_vertex_false: propext, Quot.sound
C21_first: propext, Classical.choice, Quot.sound
C21_no_edges_partial: propext, Quot.sound
C21_shift: propext, Classical.choice, Quot.sound
C22_no_deadlock: propext, Classical.choice, Quot.sound
C22_terminates: propext, Classical.choice, Quot.sound
C23_answers: propext, Quot.sound
C23_linearizable: propext, Classical.choice, Quot.sound
C23_race_free: propext, Classical.choice, Quot.sound
C23_schedule_independent: propext, Classical.choice, Quot.sound
C23_undirected_atomic_false: propext, Quot.sound
C24_grouping: propext, Classical.choice, Quot.sound
C24_order_independent: propext, Classical.choice, Quot.sound
C24_union: propext, Classical.choice, Quot.sound
C25_equality: propext, Classical.choice, Quot.sound
C25_hash_collision_false: propext, Classical.choice, Quot.sound
C26_add_vertex: propext, Quot.sound
C26_frame: propext, Quot.sound
C26_read_back: propext, Quot.sound
C26_read_through: propext, Quot.sound
C26_vertices: propext, Classical.choice, Quot.sound
C26_vertices_repeated: propext
C27_duplicate_neighbor_false: propext, Quot.sound
C27_neighbors: propext, Classical.choice, Quot.sound
C27_new_vertex_crossing_false: propext
C27_readd_crossing_false: propext, Quot.sound
C27_refines_partial: propext, Classical.choice, Quot.sound
C28_roundtrip: propext, Classical.choice, Quot.sound
C28_stable: propext, Classical.choice, Quot.sound
C28_unstable_false: propext, Classical.choice, Quot.sound
C29_added_vertex_false: propext, Classical.choice, Quot.sound
C29_load_inside: propext, Classical.choice, Quot.sound
C29_save_inside: propext, Classical.choice, Quot.sound
C30_exact: propext, Classical.choice, Quot.sound
C30_no_crossing: propext, Classical.choice, Quot.sound
C30_overwrite_partial: propext, Classical.choice, Quot.sound
C30_short: propext, Classical.choice, Quot.sound
C30_stale_false: propext, Classical.choice, Quot.sound
C31_after_allocation_false: propext, Classical.choice, Quot.sound
C31_after_polygons: propext, Classical.choice, Quot.sound
C31_complete: propext, Classical.choice, Quot.sound
C31_crossing_lost_false: propext, Classical.choice, Quot.sound
C31_every_point: propext, Classical.choice, Quot.sound
C31_in_polygons: propext, Classical.choice, Quot.sound
C31_overwrite_false: propext, Classical.choice, Quot.sound
C31_overwritten_false: propext, Classical.choice, Quot.sound
C31_overwritten_partial: propext, Classical.choice, Quot.sound
C31_retry: propext, Classical.choice, Quot.sound
C31_retry_load: propext, Classical.choice, Quot.sound
C31_torn_vertex_false: propext, Classical.choice, Quot.sound
C31_twice: propext, Classical.choice, Quot.sound
C32_bounds: propext, Quot.sound
C32_i32: propext, Classical.choice, Quot.sound
C32_little_endian: propext, Classical.choice, Quot.sound
C32_u32: propext, Classical.choice, Quot.sound
C32_u64: propext, Classical.choice, Quot.sound
C32_writes: propext, Quot.sound
C33_reported: propext, Classical.choice, Quot.sound
C34_clear_is_reported: propext, Classical.choice, Quot.sound
C35_behind_partial: propext, Classical.choice, Quot.sound
C35_blocked_geo_partial: propext, Classical.choice, Quot.sound
C35_blocked_partial: propext, Classical.choice, Quot.sound
C35_order_false: propext, Classical.choice, Quot.sound
C35_own_corner: propext, Classical.choice, Quot.sound
C35_rounding_false: propext, Classical.choice, Quot.sound
C35_shared_vertex_false: propext, Classical.choice, Quot.sound
C35_tie_false: propext, Classical.choice, Quot.sound
C36_half: propext, Classical.choice, Quot.sound
C37_compare: propext, Classical.choice, Quot.sound
C37_lone: propext, Classical.choice, Quot.sound
C37_safe: propext, Classical.choice, Quot.sound
C37_too_far: propext, Classical.choice, Quot.sound
C38_clear_linked: propext, Classical.choice, Quot.sound
C38_edges: propext, Classical.choice, Quot.sound
C38_stable: propext, Classical.choice, Quot.sound
C39_deterministic: propext, Classical.choice, Quot.sound
C39_order: propext, Classical.choice, Quot.sound
C39_scan: propext, Classical.choice, Quot.sound
C39_schedule: propext, Classical.choice, Quot.sound
C39_segment_order_false: propext, Classical.choice, Quot.sound
C40_processes: propext, Classical.choice, Quot.sound
C40_shards: propext, Classical.choice, Quot.sound
C41_empty: propext, Classical.choice, Quot.sound
C41_ranges: propext, Classical.choice, Quot.sound
C42_never_throws: propext, Classical.choice, Quot.sound
C42_paths: propext, Classical.choice, Quot.sound
C42_ready: propext, Classical.choice, Quot.sound
C42_rounded: propext, Classical.choice, Quot.sound
C43_outcome: propext, Classical.choice, Quot.sound
C43_terminates: propext, Classical.choice, Quot.sound
C44_direct: propext, Classical.choice, Quot.sound
C44_shortest: propext, Classical.choice, Quot.sound
C45_bounded: propext, Classical.choice, Quot.sound
C45_not_shortest_false: propext, Classical.choice, Quot.sound
C46_failure: propext, Classical.choice, Quot.sound
C46_unlimited: propext, Classical.choice, Quot.sound
C47_direct_false: propext, Classical.choice, Quot.sound
C47_shortest: propext, Classical.choice, Quot.sound
C47_within: propext, Classical.choice, Quot.sound
C48_corrected: propext
C48_rejected: propext, Quot.sound
C48_unmoved: propext, Classical.choice, Quot.sound
C49_batch: propext, Classical.choice, Quot.sound
C49_exactly_one: propext, Classical.choice, Quot.sound
C49_schedules: propext, Classical.choice, Quot.sound
C50_distance: propext, Classical.choice, Quot.sound
C50_magnitudes: propext, Classical.choice, Quot.sound
C50_queries: propext, Classical.choice, Quot.sound
C50_routes: propext, Classical.choice, Quot.sound
C50_safe: propext, Classical.choice, Quot.sound
C51_blocked: propext, Quot.sound
C51_direct: propext, Classical.choice, Quot.sound
C52_admissible: propext, Classical.choice, Quot.sound
C52_consistent: propext, Classical.choice, Quot.sound
C53_exactly_one: propext, Classical.choice, Quot.sound
C53_partition: propext, Classical.choice, Quot.sound
C53_rejected: propext, Classical.choice, Quot.sound
C53_shards: propext, Classical.choice, Quot.sound
C53_unchecked: propext, Quot.sound
C54_closed: propext, Quot.sound
C54_geographic: propext, Classical.choice, Quot.sound
C54_other_parts: propext, Classical.choice, Quot.sound
C54_read: propext, Quot.sound
C55_congruent: propext, Classical.choice, Quot.sound
C55_id: propext, Classical.choice, Quot.sound
C55_idempotent: propext, Classical.choice, Quot.sound
C55_pole_false: propext, Classical.choice, Quot.sound
C55_range: propext, Classical.choice, Quot.sound
C55_rounded_false: propext, Classical.choice, Quot.sound
C55_rounded_id: propext, Classical.choice, Quot.sound
C55_rounded_range: propext, Classical.choice, Quot.sound
C55_turns: propext, Classical.choice, Quot.sound
C56_turn_drift_partial: propext, Classical.choice, Quot.sound
C56_turn_not_period_false: propext, Classical.choice, Quot.sound
C57_batch: propext, Classical.choice, Quot.sound
C57_geographic: propext, Classical.choice, Quot.sound
C57_never_raises: propext, Classical.choice, Quot.sound
C58_endpoints: propext, Classical.choice, Quot.sound
C59_default: propext, Classical.choice, Quot.sound
C59_land: propext, Classical.choice, Quot.sound
C59_margin: propext, Classical.choice, Quot.sound
C60_failed_merge_blocks: propext, Classical.choice, Quot.sound
C60_no_overwrite: propext, Quot.sound
C60_pipeline: propext, Classical.choice, Quot.sound
C60_processes: propext, Classical.choice, Quot.sound
C60_separate: propext, Classical.choice, Quot.sound
C60_single: propext, Classical.choice, Quot.sound
C61_across_false: propext, Classical.choice, Quot.sound
C61_across_partial: propext, Classical.choice, Quot.sound
C61_found: propext, Classical.choice, Quot.sound
C61_optimal: propext, Classical.choice, Quot.sound
C62_first_leg: propext, Classical.choice, Quot.sound
C62_last_leg: propext, Classical.choice, Quot.sound
C62_via: propext, Classical.choice, Quot.sound
C63_detour_false: propext, Classical.choice, Quot.sound
C63_direct_false: propext, Classical.choice, Quot.sound
C63_equator_partial: propext, Classical.choice, Quot.sound
C63_equator_query_partial: propext, Classical.choice, Quot.sound
C64_bounded: propext, Classical.choice, Quot.sound
C64_limit: propext, Classical.choice, Quot.sound
C64_rounded: propext, Classical.choice, Quot.sound
C65_cut_partial: propext, Classical.choice, Quot.sound
C65_refused_false: propext, Classical.choice, Quot.sound
C65_trailing: propext, Classical.choice, Quot.sound
C66_end_to_end: propext, Classical.choice, Quot.sound
C66_read: propext, Classical.choice, Quot.sound
C66_rounded: propext, Classical.choice, Quot.sound
C67_blocking: propext, Classical.choice, Quot.sound
C67_calls: propext, Classical.choice, Quot.sound
C67_corner: propext, Classical.choice, Quot.sound
C67_edge: propext, Classical.choice, Quot.sound
C67_geographic: propext, Classical.choice, Quot.sound
C67_index: propext, Classical.choice, Quot.sound
C67_injective: propext, Classical.choice, Quot.sound
C67_land: propext, Classical.choice, Quot.sound
C67_meets: propext, Classical.choice, Quot.sound
C67_periodic_false: propext, Classical.choice, Quot.sound
C67_recognised: propext, Classical.choice, Quot.sound
C67_roundtrip: propext, Classical.choice, Quot.sound
C67_within: propext, Classical.choice, Quot.sound
C68_constructor: propext, Classical.choice, Quot.sound
C68_cross: propext, Classical.choice, Quot.sound
C68_degrees: propext, Classical.choice, Quot.sound
C68_divide: propext, Classical.choice, Quot.sound
C68_dot: propext, Classical.choice, Quot.sound
C68_ieee: propext, Classical.choice, Quot.sound
C68_magnitude: propext, Classical.choice, Quot.sound
C68_multiple: propext, Classical.choice, Quot.sound
C68_nearest: propext, Classical.choice, Quot.sound
C68_nearest64: propext, Classical.choice, Quot.sound
C68_not_finite: propext, Classical.choice, Quot.sound
C68_order: propext, Classical.choice, Quot.sound
C68_overflow: propext, Classical.choice, Quot.sound
C68_parallel_false: propext, Classical.choice, Quot.sound
C68_param: propext, Classical.choice, Quot.sound
C68_project: propext, Classical.choice, Quot.sound
C68_reflex: propext, Classical.choice, Quot.sound
C68_root: propext, Quot.sound
C68_scale: propext, Classical.choice, Quot.sound
C68_winding: propext, Classical.choice, Quot.sound
C68_wrap: propext, Classical.choice, Quot.sound
C69_agrees: propext, Classical.choice, Quot.sound
C69_comparator: propext, Classical.choice, Quot.sound
C69_distances: propext, Classical.choice, Quot.sound
C69_negative: propext, Classical.choice, Quot.sound
C69_order_false: propext, Classical.choice, Quot.sound
C69_path: propext, Classical.choice, Quot.sound
C69_unlimited: propext, Classical.choice, Quot.sound
C69_weights: propext, Classical.choice, Quot.sound
C70_convex: propext, Classical.choice, Quot.sound
C70_convex_copies: propext, Classical.choice, Quot.sound
C70_exact: propext, Classical.choice, Quot.sound
C70_front: propext, Classical.choice, Quot.sound
C70_front_copies: propext, Classical.choice, Quot.sound
C71_all_maps_false: propext, Classical.choice, Quot.sound
C71_angle: propext, Classical.choice, Quot.sound
C71_compare: propext, Classical.choice, Quot.sound
C71_copies: propext, Classical.choice, Quot.sound
C71_generate: propext, Classical.choice, Quot.sound
C71_lattice: propext, Classical.choice, Quot.sound
C71_near: propext, Classical.choice, Quot.sound
C71_query: propext, Classical.choice, Quot.sound
C71_scan: propext, Classical.choice, Quot.sound
C71_sort: propext, Classical.choice, Quot.sound
C72_all_corners_false: propext, Classical.choice, Quot.sound
C72_compare: propext, Classical.choice, Quot.sound
C72_corner: propext, Classical.choice, Quot.sound
C72_generate: propext, Classical.choice, Quot.sound
C72_length: propext, Classical.choice, Quot.sound
C72_paths: propext, Classical.choice, Quot.sound
C72_polygon: propext, Classical.choice, Quot.sound
C72_project: propext, Classical.choice, Quot.sound
C72_query: propext, Classical.choice, Quot.sound
C72_scan: propext, Classical.choice, Quot.sound
C72_voyage: propext, Classical.choice, Quot.sound
C73_corners: propext, Classical.choice, Quot.sound
C73_end_to_end: propext, Classical.choice, Quot.sound
C74_end_to_end: propext, Classical.choice, Quot.sound
C74_path: propext, Classical.choice, Quot.sound
C74_sea: propext, Classical.choice, Quot.sound
C74_tight: propext, Classical.choice, Quot.sound
C75_exact: propext, Classical.choice, Quot.sound
C75_graph: propext, Classical.choice, Quot.sound
C75_path: propext, Classical.choice, Quot.sound
C75_path_sea: propext, Classical.choice, Quot.sound
C75_start_false: propext, Classical.choice, Quot.sound
C76_end_to_end: propext, Classical.choice, Quot.sound
C77_exact: propext, Classical.choice, Quot.sound
C77_float: propext, Classical.choice, Quot.sound
C77_generate: propext, Classical.choice, Quot.sound
C77_safe: propext, Classical.choice, Quot.sound
C77_undefined_false: propext, Classical.choice, Quot.sound
C78_done: propext, Classical.choice, Quot.sound
C78_full_disk_false: propext, Classical.choice, Quot.sound
C78_leak_false: propext, Classical.choice, Quot.sound
C78_left_false: propext, Classical.choice, Quot.sound
C78_load: propext, Classical.choice, Quot.sound
C78_load_result: propext, Classical.choice, Quot.sound
C78_merge_false: propext, Classical.choice, Quot.sound
C78_raised: propext, Classical.choice, Quot.sound
C78_works: propext, Classical.choice, Quot.sound
C79_effort: propext, Classical.choice, Quot.sound
C79_exponential: propext, Classical.choice, Quot.sound
C79_greedy_false: propext, Classical.choice, Quot.sound
C79_plain: propext, Classical.choice, Quot.sound
C79_runs: propext, Classical.choice, Quot.sound
C80_again_silent: propext, Classical.choice, Quot.sound
C80_closest: propext, Classical.choice, Quot.sound
C80_coordinate: propext, Classical.choice, Quot.sound
C80_identifies: propext, Classical.choice, Quot.sound
C80_named: propext, Classical.choice, Quot.sound
C80_outside_false: propext, Classical.choice, Quot.sound
C80_polygon: propext, Classical.choice, Quot.sound
C80_same_batches: propext, Classical.choice, Quot.sound
C80_same_outcomes: propext, Classical.choice, Quot.sound
C80_silent_false: propext, Classical.choice, Quot.sound
C80_warned: propext, Classical.choice, Quot.sound
C81_astride: propext, Classical.choice, Quot.sound
C81_clockwise: propext, Classical.choice, Quot.sound
C81_flat: propext, Classical.choice, Quot.sound
C81_land_false: propext, Classical.choice, Quot.sound
C81_loop: propext, Classical.choice, Quot.sound
C81_narrow: propext, Classical.choice, Quot.sound
C81_one_corner: propext, Classical.choice, Quot.sound
C81_triangle_partial: propext, Classical.choice, Quot.sound
C82_both: propext, Classical.choice, Quot.sound
C82_first: propext, Classical.choice, Quot.sound
C82_hop_false: propext, Classical.choice, Quot.sound
C82_last: propext, Classical.choice, Quot.sound
C83_end_false: propext, Classical.choice, Quot.sound
C83_guarded_partial: propext, Classical.choice, Quot.sound
C83_incident: propext, Quot.sound
C83_listed: propext, Classical.choice, Quot.sound
C83_through_false: propext, Classical.choice, Quot.sound
C83_unguarded_false: propext, Classical.choice, Quot.sound
C83_unknown: propext, Classical.choice, Quot.sound
C83_vertices: propext, Classical.choice, Quot.sound
C84_contained_partial: propext, Classical.choice, Quot.sound
C84_numbers: propext, Classical.choice, Quot.sound
C84_silent_false: propext, Classical.choice, Quot.sound
C84_undefined_false: propext, Classical.choice, Quot.sound
C85_minus_false: propext
C85_products: propext, Classical.choice, Quot.sound
C85_scale: propext, Classical.choice, Quot.sound
C85_spread: propext, Classical.choice, Quot.sound
C85_sum: Quot.sound
C85_turn_false: propext, Classical.choice, Quot.sound
C85_undo: propext, Classical.choice, Quot.sound
C85_undo_false: propext, Classical.choice, Quot.sound
C85_unit: propext, Classical.choice, Quot.sound
C85_whole: propext, Classical.choice, Quot.sound
C85_zero_false: propext, Classical.choice, Quot.sound
C86_accurate: propext, Classical.choice, Quot.sound
C86_leg: propext, Classical.choice, Quot.sound
C86_metric: propext, Classical.choice, Quot.sound
C86_place_false: propext, Classical.choice, Quot.sound
C86_plane: propext, Classical.choice, Quot.sound
C86_plane_false: propext, Classical.choice, Quot.sound
C86_wrap: propext, Classical.choice, Quot.sound
C86_zero: propext, Classical.choice, Quot.sound
C87_bounded: propext, Classical.choice, Quot.sound
C87_chain: propext, Classical.choice, Quot.sound
C87_cost: propext, Classical.choice, Quot.sound
C87_direct: propext, Classical.choice, Quot.sound
C87_globe_false: propext, Classical.choice, Quot.sound
C88_loads: propext, Classical.choice, Quot.sound
C88_memory: propext, Classical.choice, Quot.sound
C88_refused: propext, Classical.choice, Quot.sound
C88_result: propext, Classical.choice, Quot.sound
C88_ring: propext, Classical.choice, Quot.sound
C88_unique: propext, Classical.choice, Quot.sound
C88_unlimited: propext, Classical.choice, Quot.sound
C89_count: propext, Classical.choice, Quot.sound
C89_encloses: propext, Classical.choice, Quot.sound
C89_interior: propext, Classical.choice, Quot.sound
C89_path: propext, Classical.choice, Quot.sound
C89_polygon: propext, Classical.choice, Quot.sound
C89_simple: propext, Classical.choice, Quot.sound
C90_end_to_end: propext, Classical.choice, Quot.sound
C90_exact: propext, Classical.choice, Quot.sound
C90_graph: propext, Classical.choice, Quot.sound
C90_path: propext, Classical.choice, Quot.sound
C90_path_sea: propext, Classical.choice, Quot.sound
C90_read: propext, Classical.choice, Quot.sound
C91_always_false: propext, Classical.choice, Quot.sound
C91_graph: propext, Classical.choice, Quot.sound
C91_right: propext, Classical.choice, Quot.sound
C91_scan: propext, Classical.choice, Quot.sound
C92_course: propext, Classical.choice, Quot.sound
C92_end_to_end: propext, Classical.choice, Quot.sound
C92_path: propext, Classical.choice, Quot.sound
C92_turn_false: propext, Classical.choice, Quot.sound
C93_ends: propext, Classical.choice, Quot.sound
C93_every: propext, Classical.choice, Quot.sound
C93_libraries_false: propext, Classical.choice, Quot.sound
C93_orders: propext, Classical.choice, Quot.sound
C93_outputs: propext, Classical.choice, Quot.sound
C93_permutation: propext, Classical.choice, Quot.sound
C93_seed_range: propext, Quot.sound
C93_seeds_false: propext, Classical.choice, Quot.sound
C93_shards: propext, Classical.choice, Quot.sound
C93_split: propext, Classical.choice, Quot.sound
C93_uniform: propext, Classical.choice, Quot.sound
C94_across_false: propext, Classical.choice, Quot.sound
C94_beyond: propext, Classical.choice, Quot.sound
C94_degrees: propext, Classical.choice, Quot.sound
C94_generate: propext, Classical.choice, Quot.sound
C94_geographic: propext, Classical.choice, Quot.sound
C94_grown_false: propext, Classical.choice, Quot.sound
C94_merge: propext, Classical.choice, Quot.sound
C94_overflow: propext, Classical.choice, Quot.sound
C94_shapefile: propext, Classical.choice, Quot.sound
C94_shapefile_false: propext, Classical.choice, Quot.sound
C95_add: propext, Classical.choice, Quot.sound
C95_add_raises: propext, Quot.sound
C95_follows: propext, Classical.choice, Quot.sound
C95_merged: propext, Classical.choice, Quot.sound
C95_paths: propext, Classical.choice, Quot.sound
C95_safe: propext, Classical.choice, Quot.sound
C95_snapshot_false: propext, Classical.choice, Quot.sound
C95_total: propext, Classical.choice, Quot.sound
C95_undefined: propext, Quot.sound
C96_constructor: propext, Classical.choice, Quot.sound
C96_equality: propext, Quot.sound
C96_frozen_false: propext, Quot.sound
C96_kept: propext, Quot.sound
C96_own: propext, Classical.choice, Quot.sound
C96_reader: propext, Classical.choice, Quot.sound
C96_ring_false: propext, Quot.sound
C96_separate: propext, Quot.sound
C96_strategy_false: propext, Classical.choice, Quot.sound
C96_three_false: propext, Quot.sound
C96_values: propext, Quot.sound
C96_version_false: propext
C97_again: propext, Classical.choice, Quot.sound
C97_back: propext, Classical.choice, Quot.sound
C97_land: propext, Classical.choice, Quot.sound
C97_land_false: propext, Classical.choice, Quot.sound
C97_via: propext, Classical.choice, Quot.sound
C98_add_vertex: propext, Classical.choice, Quot.sound
C98_answers: propext, Classical.choice, Quot.sound
C98_count: propext, Classical.choice, Quot.sound
C98_depth: propext, Classical.choice, Quot.sound
C98_edge: propext, Classical.choice, Quot.sound
C98_graph_answers: propext, Classical.choice, Quot.sound
C98_half_false: propext
C98_modified: propext, Quot.sound
C98_neighbors: propext, Classical.choice, Quot.sound
C98_once_false: propext, Quot.sound
C98_raises: propext, Classical.choice, Quot.sound
C98_stack: propext, Classical.choice, Quot.sound
C98_stack_false: propext, Quot.sound
C98_untouched: propext, Classical.choice, Quot.sound
C98_vertices: propext, Quot.sound
C99_afloat: propext, Classical.choice, Quot.sound
C99_ashore: propext, Classical.choice, Quot.sound
C99_convex: propext, Classical.choice, Quot.sound
C99_margin_false: propext, Classical.choice, Quot.sound
C99_polygon: propext, Classical.choice, Quot.sound
