{
 "claims": [
  {
   "property": "C01",
   "status": "proved",
   "theorems": [
    "DD.C01_int",
    "DD.C01_product",
    "DD.C01_lex",
    "DD.C01_altneu",
    "DD.C01_pointstamp",
    "DD.C01_pointstamp_lub",
    "DD.C01_pointstamp_assign"
   ],
   "note": ""
  },
  {
   "property": "C02",
   "status": "proved",
   "theorems": [
    "DD.C02_advance_indistinguishable",
    "DD.C02_advance_closure",
    "DD.C02_advance_largest",
    "DD.C02_advance_canonical",
    "DD.C02_advance_empty"
   ],
   "note": ""
  },
  {
   "property": "C03",
   "status": "proved",
   "theorems": [
    "DD.C03_insert",
    "DD.C03_insert_order",
    "DD.C03_join_meet",
    "DD.C03_order"
   ],
   "note": ""
  },
  {
   "property": "C04",
   "status": "proved",
   "theorems": [
    "DD.C04_product",
    "DD.C04_lex",
    "DD.C04_altneu",
    "DD.C04_pointstamp",
    "DD.C04_pointstamp_needs_norm"
   ],
   "note": ""
  },
  {
   "property": "C05",
   "status": "partial",
   "theorems": [
    "DD.Diff.C05_int",
    "DD.Diff.C05_nat",
    "DD.Diff.C05_wrapping",
    "DD.Diff.C05_present",
    "DD.Diff.C05_pair_semi",
    "DD.Diff.C05_pair_mon",
    "DD.Diff.C05_pair",
    "DD.Diff.C05_pair_mul",
    "DD.Diff.C05_vec_elementwise",
    "DD.Diff.C05_vec",
    "DD.Diff.C05_vec_abel",
    "DD.Diff.C05_vec_mul",
    "DD.Diff.C05_vec_unit_not_literal"
   ],
   "note": "The vector type has no literal unit law: adding an all-zero vector can lengthen the result (C05_vec_unit_not_literal). All laws hold up to trailing zeros."
  },
  {
   "property": "C06",
   "status": "proved",
   "theorems": [
    "DD.C06_consolidate",
    "DD.C06_consolidate_canonical",
    "DD.C06_consolidate_from",
    "DD.C06_consolidate_updates",
    "DD.C06_consolidate_updates_accum",
    "DD.C06_consolidate_updates_canonical",
    "DD.C06_consolidate_updates_from",
    "DD.C06_any_sort"
   ],
   "note": ""
  },
  {
   "property": "C07",
   "status": "proved",
   "theorems": [
    "DD.C07_builder",
    "DD.C07_builder_finish",
    "DD.C07_builder_finish_none",
    "DD.C07_chunker",
    "DD.C07_chunker_finish",
    "DD.C07_chunker_finish_none"
   ],
   "note": ""
  },
  {
   "property": "C08",
   "status": "proved",
   "theorems": [
    "DD.C08_seal",
    "DD.C08_buffered",
    "DD.C08_empty_chunk_unsorted"
   ],
   "note": ""
  },
  {
   "property": "C09",
   "status": "proved",
   "theorems": [
    "DD.C09_key_round_trip",
    "DD.C09_key_reachable",
    "DD.C09_round_trip",
    "DD.C09_reachable"
   ],
   "note": ""
  },
  {
   "property": "C10",
   "status": "proved",
   "theorems": [
    "DD.C10_offset_list",
    "DD.C10_offset_list_iter"
   ],
   "note": ""
  },
  {
   "property": "C11",
   "status": "proved",
   "theorems": [
    "DD.C11_advance",
    "DD.C11_seek_sorted"
   ],
   "note": ""
  },
  {
   "property": "C12",
   "status": "proved",
   "theorems": [
    "DD.C12_key_merge",
    "DD.C12_key_accum",
    "DD.C12_key_fuel_irrelevant",
    "DD.C12_merge",
    "DD.C12_accum",
    "DD.C12_fuel_irrelevant"
   ],
   "note": ""
  },
  {
   "property": "C13",
   "status": "proved",
   "theorems": [
    "DD.C13_key_work",
    "DD.C13_key_total",
    "DD.C13_key_consumed",
    "DD.C13_key_completes",
    "DD.C13_work",
    "DD.C13_total",
    "DD.C13_consumed",
    "DD.C13_completes"
   ],
   "note": ""
  },
  {
   "property": "C14",
   "status": "proved",
   "theorems": [
    "DD.C14_chunk",
    "DD.C14_no_panic",
    "DD.C14_val",
    "DD.C14_key"
   ],
   "note": ""
  },
  {
   "property": "C15",
   "status": "proved",
   "theorems": [
    "DD.C15_chunk",
    "DD.C15_contents",
    "DD.C15_val",
    "DD.C15_key"
   ],
   "note": ""
  },
  {
   "property": "C16",
   "status": "proved",
   "theorems": [
    "DD.C16_chunk",
    "DD.C16_batches_through"
   ],
   "note": ""
  },
  {
   "property": "C17",
   "status": "proved",
   "theorems": [
    "DD.C17_chunk",
    "DD.C17_logarithmic"
   ],
   "note": ""
  },
  {
   "property": "C18",
   "status": "partial",
   "theorems": [
    "DD.C18_val_batch",
    "DD.C18_val_list_partial",
    "DD.C18_key_batch",
    "DD.C18_key_list_partial",
    "DD.C18_seek_val_loses",
    "DD.C18_seek_val_panics"
   ],
   "note": "Proved for single batches under all moves and for lists of batches under all moves except value seeks; value seeks on a list are proved when every batch has the key. In general they are wrong in the code: C18_seek_val_loses, C18_seek_val_panics."
  },
  {
   "property": "C19",
   "status": "proved",
   "theorems": [
    "DD.C19_enter_cursor",
    "DD.C19_enter_at_cursor",
    "DD.C19_frontier_cursor",
    "DD.C19_enter",
    "DD.C19_enter_compaction",
    "DD.C19_enter_frontiers",
    "DD.C19_enter_batches_through",
    "DD.C19_enter_at",
    "DD.C19_enter_at_compaction",
    "DD.C19_frontier",
    "DD.C19_frontier_times"
   ],
   "note": ""
  },
  {
   "property": "C20",
   "status": "proved",
   "theorems": [
    "DD.C20_applied",
    "DD.C20_safe",
    "DD.C20_advance",
    "DD.C20_request",
    "DD.C20_clone_drop"
   ],
   "note": ""
  },
  {
   "property": "C21",
   "status": "proved",
   "theorems": [
    "DD.C21_no_panic",
    "DD.C21_delivery",
    "DD.C21_caught_up"
   ],
   "note": ""
  },
  {
   "property": "C22",
   "status": "proved",
   "theorems": [
    "DD.C22_arrange",
    "DD.C22_batch",
    "DD.C22_accumulation"
   ],
   "note": ""
  },
  {
   "property": "C23",
   "status": "proved",
   "theorems": [
    "DD.C23_upsert",
    "DD.C23_batches"
   ],
   "note": ""
  },
  {
   "property": "C24",
   "status": "proved",
   "theorems": [
    "DD.C24_join_key",
    "DD.C24_join_key_product",
    "DD.C24_strategies_agree",
    "DD.C24_bilinear_wave"
   ],
   "note": ""
  },
  {
   "property": "C25",
   "status": "proved",
   "theorems": [
    "DD.C25_join",
    "DD.C25_product",
    "DD.C25_capability",
    "DD.C25_progress"
   ],
   "note": ""
  },
  {
   "property": "C26",
   "status": "proved",
   "theorems": [
    "DD.C26_reads",
    "DD.C26_permissions",
    "DD.C26_release"
   ],
   "note": ""
  },
  {
   "property": "C27",
   "status": "partial",
   "theorems": [
    "DD.C27_abelian",
    "DD.C27_interval",
    "DD.C27_pending_partial",
    "DD.C27_pending_single",
    "DD.C27_pending_directed",
    "DD.C27_pending_total",
    "DD.C27_pending_defect"
   ],
   "note": "The interval is proved in full. Completeness of the pending times is false of the code in partial orders (C27_pending_defect); it is proved when the history is heeded, when all new times of the key are equal (rounds of an iteration), when times before upper are closed under joins (epochs), and in full for totally ordered times."
  },
  {
   "property": "C28",
   "status": "partial",
   "theorems": [
    "DD.C28_reduce_partial",
    "DD.C28_rounds",
    "DD.C28_directed",
    "DD.C28_total",
    "DD.C28_closed",
    "DD.C28_defect"
   ],
   "note": "Proved for whole runs of the operator with any batching, compaction and progress, for totally ordered times, for epochs, for rounds of an iteration, and in general when the history is heeded (the condition of C27). False of the code in general partial orders: C28_defect is a legal run from start to end that ends with a wrong output."
  },
  {
   "property": "C29",
   "status": "proved",
   "theorems": [
    "DD.C29_contiguous",
    "DD.C29_exactly_one",
    "DD.C29_filed"
   ],
   "note": ""
  },
  {
   "property": "C30",
   "status": "partial",
   "theorems": [
    "DD.C30_count_total",
    "DD.C30_threshold_total",
    "DD.C30_threshold_total_partial",
    "DD.C30_distinct_total_partial",
    "DD.C30_distinct_total_retraction"
   ],
   "note": "count_total is proved; threshold_total is proved when the function takes an absent value to zero; distinct_total is false of the code: it never retracts a record whose count returns to zero, and its output depends on compaction (C30_distinct_total_retraction)."
  },
  {
   "property": "C31",
   "status": "proved",
   "theorems": [
    "DD.C31_rounds",
    "DD.C31_fixed_point",
    "DD.C31_quiet",
    "DD.C31_terminates",
    "DD.C31_scope_rounds",
    "DD.C31_scope_terminates"
   ],
   "note": ""
  },
  {
   "property": "C32",
   "status": "proved",
   "theorems": [
    "DD.C32_map",
    "DD.C32_flat_map",
    "DD.C32_filter",
    "DD.C32_explode",
    "DD.C32_join_function",
    "DD.C32_concat",
    "DD.C32_negate",
    "DD.C32_enter",
    "DD.C32_enter_at",
    "DD.C32_leave",
    "DD.C32_delay",
    "DD.C32_results_in",
    "DD.C32_flat_map_batches",
    "DD.C32_antijoin",
    "DD.C32_antijoin_set",
    "DD.C32_well_timed",
    "DD.C32_well_timed'"
   ],
   "note": "consolidate arranges the collection and flattens it (C22, C32_flat_map_batches); consolidate_stream rests on the container builder theorems (C07)."
  },
  {
   "property": "C33",
   "status": "proved",
   "theorems": [
    "DD.C33_exactly_once",
    "DD.C33_complete",
    "DD.C33_all",
    "DD.C33_repetition_within_message"
   ],
   "note": ""
  },
  {
   "property": "C34",
   "status": "proved",
   "theorems": [
    "DD.C34_followed_by",
    "DD.C34_followed_by_conv",
    "DD.C34_monotone",
    "DD.C34_order",
    "DD.C34_leave",
    "DD.C34_feedback"
   ],
   "note": ""
  },
  {
   "property": "C35",
   "status": "proved",
   "theorems": [
    "DD.C35_exactly_once",
    "DD.C35_progress",
    "DD.C35_complete",
    "DD.C35_compaction"
   ],
   "note": ""
  },
  {
   "property": "C36",
   "status": "partial",
   "theorems": [
    "DD.C36_integrate",
    "DD.C36_integrate_total",
    "DD.C36_instantaneous",
    "DD.C36_delta",
    "DD.C36_delta_chain",
    "DD.C36_altneu",
    "DD.C36_altneu_defect",
    "DD.C36_two"
   ],
   "note": "Half joins: proved in full, for any number of relations and partially ordered times (C36_delta, C36_delta_chain), and for two operators end to end (C36_two). Alt/Neu times: proved when all times are comparable (C36_altneu), as in the example that uses them; with incomparable times they lose combinations (C36_altneu_defect)."
  },
  {
   "property": "C37",
   "status": "proved",
   "theorems": [
    "DD.C37_settle",
    "DD.C37_settle_all",
    "DD.C37_is_graded",
    "DD.C37_builder",
    "DD.C37_seal",
    "DD.C37_merge",
    "DD.C37_merge_chains",
    "DD.C37_batcher_merge",
    "DD.C37_batcher_extract",
    "DD.C37_batch_merge"
   ],
   "note": ""
  },
  {
   "property": "C38",
   "status": "proved",
   "theorems": [
    "DD.C38_calls",
    "DD.C38_flush",
    "DD.C38_illegal"
   ],
   "note": ""
  },
  {
   "property": "C39",
   "status": "proved",
   "theorems": [
    "DD.C39_replay",
    "DD.C39_replay_key",
    "DD.C39_load_iter",
    "DD.C39_buffer_at_meet",
    "DD.C39_times"
   ],
   "note": ""
  },
  {
   "property": "C40",
   "status": "partial",
   "theorems": [
    "DD.C40_slice_equality_fails",
    "DD.C40_slice_equality_partial"
   ],
   "note": "False of the code for slices with trailing zeros (C40_slice_equality_fails); proved for the others."
  },
  {
   "property": "C41",
   "status": "partial",
   "theorems": [
    "DD.C41_slice_container",
    "DD.C41_clone_onto_fails",
    "DD.C41_clone_onto_partial"
   ],
   "note": "clone_onto panics when the owned value has another length than the slice (C41_clone_onto_fails); proved when lengths agree."
  },
  {
   "property": "C42",
   "status": "partial",
   "theorems": [
    "DD.C42_updates",
    "DD.C42_updates_flushed",
    "DD.C42_progress",
    "DD.C42_progress_defect",
    "DD.C42_roundtrip_partial"
   ],
   "note": "The updates writer is proved in full; progress statements are proved true and gapless, and the round trip through the iterator is proved when no message waits in the end. The progress writer never retries the last statement if the writer asked for a retry (C42_progress_defect), because it only offers waiting statements when the frontier advances."
  },
  {
   "property": "C43",
   "status": "partial",
   "theorems": [
    "DD.C43_batch",
    "DD.C43_batch_forward",
    "DD.C43_list_partial"
   ],
   "note": "Proved for single batches under all moves and for lists of batches under all moves except value seeks, which are wrong in the code's CursorList (see C18)."
  },
  {
   "property": "C44",
   "status": "proved",
   "theorems": [
    "DD.C44_val_through",
    "DD.C44_val_cursor",
    "DD.C44_key_through",
    "DD.C44_key_cursor",
    "DD.C44_chunk_through",
    "DD.C44_chunk_cursor"
   ],
   "note": ""
  },
  {
   "property": "C45",
   "status": "proved",
   "theorems": [
    "DD.C45_exactly_once",
    "DD.C45_progress",
    "DD.C45_complete",
    "DD.C45_propose",
    "DD.C45_propose_distinct",
    "DD.C45_validate",
    "DD.C45_count"
   ],
   "note": ""
  },
  {
   "property": "C46",
   "status": "proved",
   "theorems": [
    "DD.C46_extend",
    "DD.C46_extend_sets",
    "DD.C46_collection"
   ],
   "note": ""
  },
  {
   "property": "C47",
   "status": "partial",
   "theorems": [
    "DD.C47_exactly_once",
    "DD.C47_progress_partial",
    "DD.C47_progress_without_yields",
    "DD.C47_complete",
    "DD.C47_compaction",
    "DD.C47_progress_defect"
   ],
   "note": "Exactness is proved for all schedules and yields. That nothing is left waiting is proved for operators that never yield, and for activations of operators that had not asked to be activated again; it fails if the operator yielded with ready proposals (C47_progress_defect): records that became ready meanwhile are left, and the operator does not ask to be activated again."
  },
  {
   "property": "C48",
   "status": "proved",
   "theorems": [
    "DD.C48_trace_by_key",
    "DD.C48_trace_by_self",
    "DD.C48_join",
    "DD.C48_product",
    "DD.C48_join_by_self",
    "DD.C48_semijoin",
    "DD.C48_antijoin",
    "DD.C48_progress"
   ],
   "note": ""
  },
  {
   "property": "C49",
   "status": "proved",
   "theorems": [
    "DD.C49_map",
    "DD.C49_flat_map",
    "DD.C49_filter",
    "DD.C49_negate",
    "DD.C49_concat",
    "DD.C49_enter",
    "DD.C49_enter_at",
    "DD.C49_leave",
    "DD.C49_holds_unique",
    "DD.C49_join",
    "DD.C49_reduce",
    "DD.C49_semijoin",
    "DD.C49_antijoin",
    "DD.C49_distinct",
    "DD.C49_threshold",
    "DD.C49_count",
    "DD.C49_consolidate"
   ],
   "note": ""
  },
  {
   "property": "C50",
   "status": "proved",
   "theorems": [
    "DD.C50_bfs",
    "DD.C50_bfs_stays",
    "DD.C50_bfs_run_exists"
   ],
   "note": ""
  },
  {
   "property": "C51",
   "status": "proved",
   "theorems": [
    "DD.C51_propagate",
    "DD.C51_propagate_stops",
    "DD.C51_propagate_stays",
    "DD.C51_propagate_run_exists"
   ],
   "note": ""
  },
  {
   "property": "C52",
   "status": "proved",
   "theorems": [
    "DD.C52_strongly_connected",
    "DD.C52_strongly_connected_stays",
    "DD.C52_strongly_connected_run_exists"
   ],
   "note": ""
  },
  {
   "property": "C53",
   "status": "proved",
   "theorems": [
    "DD.C53_bidijkstra",
    "DD.C53_bidijkstra_stays",
    "DD.C53_bidijkstra_stops",
    "DD.C53_bidijkstra_run_exists"
   ],
   "note": ""
  },
  {
   "property": "C54",
   "status": "proved",
   "theorems": [
    "DD.C54_proxy_join",
    "DD.C54_limits"
   ],
   "note": ""
  },
  {
   "property": "C55",
   "status": "partial",
   "theorems": [
    "DD.C55_retire",
    "DD.C55_interval",
    "DD.C55_pending_partial",
    "DD.C55_pending_least",
    "DD.C55_pending_total",
    "DD.C55_pending_directed",
    "DD.C55_run_partial",
    "DD.C55_backend",
    "DD.C55_pending_defect"
   ],
   "note": "That a call ends, files its output and leaves the output right throughout its interval is proved in full. That the output is right later except at pending times, and so for any number of calls, is proved when times are totally ordered, when each key has a least new or pending time, when joins do not cross the upper frontier, or more generally when presented times are heeded; it fails in general (C55_pending_defect): a time of the history, advanced by the meet of the new times, may be beyond the interval and is then not joined with the new times."
  },
  {
   "property": "C56",
   "status": "proved",
   "theorems": [
    "DD.C56_prefix_sum_at",
    "DD.C56_prefix_sum",
    "DD.C56_aggregate",
    "DD.C56_stays",
    "DD.C56_stops",
    "DD.C56_run_exists",
    "DD.C56_counts_needed"
   ],
   "note": ""
  },
  {
   "property": "C57",
   "status": "proved",
   "theorems": [
    "DD.C57_identifiers",
    "DD.C57_rule",
    "DD.C57_own_hash",
    "DD.C57_stays",
    "DD.C57_stops",
    "DD.C57_hash_needed",
    "DD.C57_run_exists"
   ],
   "note": ""
  },
  {
   "property": "C58",
   "status": "proved",
   "theorems": [
    "DD.C58_sequence",
    "DD.C58_stays",
    "DD.C58_stops",
    "DD.C58_run_exists",
    "DD.C58_unaddressed",
    "DD.C58_color",
    "DD.C58_color_run_exists"
   ],
   "note": ""
  },
  {
   "property": "C59",
   "status": "partial",
   "theorems": [
    "DD.C59_no_panic",
    "DD.C59_once",
    "DD.C59_complete",
    "DD.C59_caps_advance",
    "DD.C59_timed",
    "DD.C59_reaches",
    "DD.C59_settles",
    "DD.C59_run_exists",
    "DD.C59_timed_defect"
   ],
   "note": "Proved for all schedules, except that in partial orders updates may be sent with a capability that does not allow their time (C59_timed_defect); C59_timed proves it for totally ordered times. The rest holds for all lattices of times."
  },
  {
   "property": "C60",
   "status": "partial",
   "theorems": [
    "DD.C60_interval",
    "DD.C60_agrees",
    "DD.C60_pending_partial",
    "DD.C60_pending_past",
    "DD.C60_pending_defect"
   ],
   "note": "Proved in full for the interval itself and for agreement with reduce. That pending times are complete is proved for histories without times at or beyond the interval's end that no new or pending time precedes, in any partial order; it fails for some compacted histories (C60_pending_defect)."
  },
  {
   "property": "C61",
   "status": "proved",
   "theorems": [
    "DD.C61_times",
    "DD.C61_lattice",
    "DD.C61_enter",
    "DD.C61_leave",
    "DD.C61_rounds",
    "DD.C61_fixed_point",
    "DD.C61_terminates"
   ],
   "note": ""
  },
  {
   "property": "C62",
   "status": "partial",
   "theorems": [
    "DD.C62_iter",
    "DD.C62_iter_defect",
    "DD.C62_push",
    "DD.C62_extend_from_keys",
    "DD.C62_canonical",
    "DD.C62_builder",
    "DD.C62_filter_zero",
    "DD.C62_form_unsorted",
    "DD.C62_form",
    "DD.C62_consolidate"
   ],
   "note": "Iteration is false of the code for tries whose first key has no value or first value no time (C62_iter_defect), and proved for all others; the other parts are proved in full."
  },
  {
   "property": "C63",
   "status": "proved",
   "theorems": [
    "DD.C63_merge",
    "DD.C63_extract",
    "DD.C63_split",
    "DD.C63_advance",
    "DD.C63_settle",
    "DD.C63_bounds"
   ],
   "note": ""
  },
  {
   "property": "C64",
   "status": "proved",
   "theorems": [
    "DD.C64_batcher_merge",
    "DD.C64_batcher_extract",
    "DD.C64_builder",
    "DD.C64_seal",
    "DD.C64_merge_chains",
    "DD.C64_batch_merge",
    "DD.C64_vec_lawful",
    "DD.C64_col_lawful",
    "DD.C64_columnar_batch_merge",
    "DD.C64_spine",
    "DD.C64_spine_logarithmic",
    "DD.C64_columnar_spine"
   ],
   "note": ""
  },
  {
   "property": "C65",
   "status": "partial",
   "theorems": [
    "DD.C65_batch",
    "DD.C65_batch_forward",
    "DD.C65_list_partial",
    "DD.C65_columnar",
    "DD.C65_col_chunk",
    "DD.C65_columnar_batch"
   ],
   "note": "Proved for columnar chunks and for single batches of any navigable chunks under all moves, and for lists of batches under all moves except value seeks, which are wrong in the code's CursorList (see C18)."
  },
  {
   "property": "C66",
   "status": "partial",
   "theorems": [
    "DD.C66_optimize",
    "DD.C66_vec_partial",
    "DD.C66_vec_defect",
    "DD.C66_vec_defect_twice"
   ],
   "note": "C66_optimize is for every backend whose linear operators fuse. For vectors, proved except for programs in which an enter_at is followed through linear operators by an enter_at or a lift_iter, where the code is wrong (C66_vec_defect, C66_vec_defect_twice)."
  },
  {
   "property": "C67",
   "status": "partial",
   "theorems": [
    "DD.C67_negate",
    "DD.C67_enter",
    "DD.C67_leave",
    "DD.C67_results_in",
    "DD.C67_builder",
    "DD.C67_join_function",
    "DD.C67_leave_dynamic",
    "DD.C67_as_recorded_updates",
    "DD.C67_exchange_partial",
    "DD.C67_chunker",
    "DD.C67_chunker_sizes",
    "DD.C67_exchange_records_defect",
    "DD.C67_exchange_twice_defect"
   ],
   "note": "Proved, except that the exchange keeps the number of records only for containers that have updates, and at least one record for each; otherwise it does not (C67_exchange_records_defect, C67_exchange_twice_defect)."
  },
  {
   "property": "C68",
   "status": "proved",
   "theorems": [
    "DD.C68_codec",
    "DD.C68_wire",
    "DD.C68_transparent",
    "DD.C68_transparent_total",
    "DD.C68_plain",
    "DD.C68_merge",
    "DD.C68_budget",
    "DD.C68_cache_defect"
   ],
   "note": "Storage and the encoding of a column are parameters with laws (what was stored is loaded; what was written is read). The documentation also says that the resident set is bounded: what is fetched for a cursor is not counted and stays (C68_cache_defect)."
  },
  {
   "property": "C69",
   "status": "partial",
   "theorems": [
    "DD.C69_lower",
    "DD.C69_optimized",
    "DD.C69_order",
    "DD.C69_accepts",
    "DD.C69_rejects",
    "DD.C69_accepts_order",
    "DD.C69_duplicate_defect",
    "DD.C69_duplicate_defect_vars"
   ],
   "note": "C69_lower, C69_accepts and C69_rejects are for programs in which no name is defined twice in the same scope; C69_rejects also needs exports to be at the root only, since those in nested scopes are ignored. The documented rejection of duplicate names does not hold for variables (C69_duplicate_defect, C69_duplicate_defect_vars)."
  },
  {
   "property": "C70",
   "status": "proved",
   "theorems": [
    "DD.C70_eval",
    "DD.C70_restores",
    "DD.C70_projection",
    "DD.C70_depth",
    "DD.C70_order",
    "DD.C70_hash",
    "DD.C70_min",
    "DD.C70_collect",
    "DD.C70_count",
    "DD.C70_nest"
   ],
   "note": ""
  },
  {
   "property": "C71",
   "status": "partial",
   "theorems": [
    "DD.C71_names_partial",
    "DD.C71_names_inside_partial",
    "DD.C71_accepts",
    "DD.C71_default_defect"
   ],
   "note": "Proved for terms in which each case has no gaps between its tags or a default that uses no binder; otherwise it does not hold (C71_default_defect). Which terms are accepted is proved in full."
  },
  {
   "property": "C72",
   "status": "partial",
   "theorems": [
    "DD.C72_concat",
    "DD.C72_reduce",
    "DD.C72_project",
    "DD.C72_join",
    "DD.C72_variable",
    "DD.C72_filter",
    "DD.C72_flatmap_partial",
    "DD.C72_distinct",
    "DD.C72_source",
    "DD.C72_flatmap_key_defect",
    "DD.C72_flatmap_scope_defect",
    "DD.C72_whole_row_defect"
   ],
   "note": "Proved rule by rule, for rows of the stated shapes. Sides of projections, and filters, read rows by fields or splice whole rows; reading a whole row in another way loses demands (C72_whole_row_defect). Flatmaps only for list terms that read the value by fields, with the input in the same scope (C72_flatmap_partial); otherwise demands are lost or it panics (C72_flatmap_key_defect, C72_flatmap_scope_defect). How the rules are put together (Reverse::walk) is C74."
  },
  {
   "property": "C73",
   "status": "proved",
   "theorems": [
    "DD.C73_clones",
    "DD.C73_identity",
    "DD.C73_run",
    "DD.C73_extends",
    "DD.C73_lowered"
   ],
   "note": ""
  },
  {
   "property": "C74",
   "status": "proved",
   "theorems": [
    "DD.C74_resolves",
    "DD.C74_operators",
    "DD.C74_variables",
    "DD.C74_sources",
    "DD.C74_sites",
    "DD.C74_rows",
    "DD.C74_round"
   ],
   "note": ""
  },
  {
   "property": "C75",
   "status": "partial",
   "theorems": [
    "DD.C75_ends",
    "DD.C75_shapes_partial",
    "DD.C75_export",
    "DD.C75_empty_defect",
    "DD.C75_collect_defect"
   ],
   "note": "Proved for programs whose projections are tuples of single fields and spliced rows, that concatenate only collections of the same shape and collect no lists (C75_shapes_partial). Collected lists do not have the inferred shape and their explanations are lost (C75_collect_defect); explanations of programs with a variable bound to itself panic (C75_empty_defect)."
  },
  {
   "property": "C76",
   "status": "partial",
   "theorems": [
    "DD.C76_runs_partial",
    "DD.C76_install_partial",
    "DD.C76_feed_partial",
    "DD.C76_drop_partial",
    "DD.C76_imports_partial",
    "DD.C76_released_partial",
    "DD.C76_peek_partial",
    "DD.C76_peek_tick_partial",
    "DD.C76_shows_unique_partial",
    "DD.C76_clock_partial",
    "DD.C76_shards",
    "DD.C76_clock_name_defect",
    "DD.C76_source_name_defect"
   ],
   "note": "Proved for histories in which no program is called clock or as a generated source, no program exports a name twice, and no program has two imports for one input. A program that is called clock is lost when the clock is started (C76_clock_name_defect); one that is called as a generated source in another spelling cannot be fed or dropped (C76_source_name_defect). That generating the rows of a source does not panic is C77."
  },
  {
   "property": "C77",
   "status": "partial",
   "theorems": [
    "DD.C77_random_names",
    "DD.C77_iota_names",
    "DD.C77_canonical",
    "DD.C77_same",
    "DD.C77_idempotent",
    "DD.C77_random_rows_partial",
    "DD.C77_iota_rows",
    "DD.C77_no_nodes_defect",
    "DD.C77_many_nodes_defect"
   ],
   "note": "Names are proved in full. Rows of random graphs are proved for 1 to 2^63 nodes (C77_random_rows_partial): with none, generating panics (C77_no_nodes_defect), with more, fields are negative (C77_many_nodes_defect)."
  },
  {
   "property": "C78",
   "status": "partial",
   "theorems": [
    "DD.C78_tokens",
    "DD.C78_one_reading",
    "DD.C78_term",
    "DD.C78_one_term",
    "DD.C78_one_expr",
    "DD.C78_one_program",
    "DD.C78_accepts",
    "DD.C78_one_parse",
    "DD.C78_parse_partial",
    "DD.C78_stray_brace_defect"
   ],
   "note": "Partial because of the code: at the top level a stray closing brace ends the program and the rest of the text is dropped (C78_stray_brace_defect). For texts in which no closing brace comes before its opening one, acceptance and result are characterised exactly (C78_parse_partial)."
  },
  {
   "property": "C79",
   "status": "partial",
   "theorems": [
    "DD.C79_expr",
    "DD.C79_one_expr",
    "DD.C79_program",
    "DD.C79_one_program",
    "DD.C79_accepts",
    "DD.C79_one_parse",
    "DD.C79_parse_partial",
    "DD.C79_stray_brace_defect",
    "DD.C79_tokens",
    "DD.C79_one_reading",
    "DD.C79_text",
    "DD.C79_text_partial",
    "DD.C79_to_applicative",
    "DD.C79_from_applicative"
   ],
   "note": "Partial because of the code: at the top level a stray closing brace ends the program and the rest is dropped (C79_stray_brace_defect). For texts in which no closing brace comes before its opening one, acceptance and result are characterised exactly (C79_parse_partial, C79_text_partial). Constructors and patterns (C71) and folds are not in this model."
  }
 ]
}