{
 "claims": [
  {
   "property": "C01",
   "status": "proved",
   "theorems": [
    "Mixtera.c01_serve_refines",
    "Mixtera.c01_concatenation",
    "Mixtera.c01_order"
   ],
   "note": "State machine of the component iterator against the plain list of selected samples, for every list of ranges and every sequence of requests."
  },
  {
   "property": "C02",
   "status": "proved",
   "theorems": [
    "Mixtera.c02_strict_chunk"
   ],
   "note": ""
  },
  {
   "property": "C03",
   "status": "proved",
   "theorems": [
    "Mixtera.c03_best_effort_chunk"
   ],
   "note": ""
  },
  {
   "property": "C04",
   "status": "proved",
   "theorems": [
    "Mixtera.c04_delivered_subperm",
    "Mixtera.c04_no_duplicates"
   ],
   "note": ""
  },
  {
   "property": "C05",
   "status": "proved",
   "theorems": [
    "Mixtera.c05_listed_under_matching_key"
   ],
   "note": ""
  },
  {
   "property": "C06",
   "status": "proved",
   "theorems": [
    "Mixtera.c06_ranges_sorted_disjoint",
    "Mixtera.c06_ranges_readable",
    "Mixtera.c06_files_listed"
   ],
   "note": ""
  },
  {
   "property": "C07",
   "status": "partial",
   "theorems": [
    "Mixtera.c07_delivers_everything",
    "Mixtera.c07_chunk_shape",
    "Mixtera.c07_terminates_partial",
    "Mixtera.c07_endless_loop",
    "Mixtera.c07_endless_every_even",
    "Mixtera.c07_ends_iff_odd"
   ],
   "note": "Completeness and chunk shape hold for all histories; termination proved for an odd number of property combinations and refuted for every positive even number (c07_endless_every_even; c07_ends_iff_odd: exactly the odd numbers and zero; c07_endless_loop: smallest case): the loop skips two keys past an exhausted one and never ends."
  },
  {
   "property": "C08",
   "status": "proved",
   "theorems": [
    "Mixtera.c08_schedule_independent"
   ],
   "note": ""
  },
  {
   "property": "C09",
   "status": "proved",
   "theorems": [
    "Mixtera.c09_dictionary_order_irrelevant"
   ],
   "note": ""
  },
  {
   "property": "C10",
   "status": "partial",
   "theorems": [
    "Mixtera.c10_update_applies_partial",
    "Mixtera.c10_feedback_applies_partial",
    "Mixtera.c10_update_ignored_after_none"
   ],
   "note": "c10_update_applies_partial and c10_feedback_applies_partial: the update is in force for the next chunk whenever the previous request got a chunk. Refuted when the previous request returned None: the value sent to the generator is dropped (c10_update_ignored_after_none)."
  },
  {
   "property": "C11",
   "status": "proved",
   "theorems": [
    "Mixtera.c11_best_effort_exhausts",
    "Mixtera.c11_best_effort_short",
    "Mixtera.c11_best_effort_delivers"
   ],
   "note": ""
  },
  {
   "property": "C12",
   "status": "proved",
   "theorems": [
    "Mixtera.c12_strict_exhausts",
    "Mixtera.c12_strict_short",
    "Mixtera.c12_strict_delivers"
   ],
   "note": ""
  },
  {
   "property": "C13",
   "status": "partial",
   "theorems": [
    "Mixtera.c13_restore_continues_partial",
    "Mixtera.c13_restore_fails_after_none",
    "Mixtera.c13_restore_diverges_unnoticed",
    "Mixtera.c13_restore_loses_pending_update",
    "Mixtera.c13_restore_from_files_partial",
    "Mixtera.c13_restore_schedule_repeats"
   ],
   "note": "Restoring continues with the same chunks when every request so far got a chunk and every mixture change was followed by a request. Refuted otherwise: a None in the history makes the replay fail, an unnoticed change makes it diverge, and a pending update is lost. Also refuted for a mixture schedule that begins without a mixture (c13_restore_schedule_repeats): the log keeps a reference to it. c13_restore_from_files_partial: the same conclusions when the index goes through its files (C31) and the order of keys is recomputed by a process with another random state (C78)."
  },
  {
   "property": "C14",
   "status": "partial",
   "theorems": [
    "Mixtera.c14_chunk_keys_have_ids_partial",
    "Mixtera.c14_chunk_keys_known_partial",
    "Mixtera.c14_key_without_id",
    "Mixtera.c14_key_ids",
    "Mixtera.c14_order_independent"
   ],
   "note": "Ids are distinct, dense and stable for every history (c14_key_ids), and independent of dictionary order. That every chunk key has an id holds when the mixture change has been taken over (c14_chunk_keys_have_ids_partial)."
  },
  {
   "property": "C15",
   "status": "proved",
   "theorems": [
    "Mixtera.c15_construction",
    "Mixtera.c15_zero_groups",
    "Mixtera.c15_nodes_see_same_chunks"
   ],
   "note": ""
  },
  {
   "property": "C16",
   "status": "proved",
   "theorems": [
    "Mixtera.c16_partition"
   ],
   "note": ""
  },
  {
   "property": "C17",
   "status": "proved",
   "theorems": [
    "Mixtera.c17_refines_unbounded_memory",
    "Mixtera.c17_cache_contents",
    "Mixtera.c17_cache_bound",
    "Mixtera.c17_single_node",
    "Mixtera.c17_no_internal_error"
   ],
   "note": ""
  },
  {
   "property": "C18",
   "status": "proved",
   "theorems": [
    "Mixtera.c18_exhausted_unchanged",
    "Mixtera.c18_others_unaffected"
   ],
   "note": ""
  },
  {
   "property": "C19",
   "status": "partial",
   "theorems": [
    "Mixtera.c19_rounds_partial",
    "Mixtera.c19_failed_validation_is_final",
    "Mixtera.c19_unknown_node_counts",
    "Mixtera.c19_fresh_after_restore"
   ],
   "note": "c19_rounds_partial: for reports that all belong to known nodes and agree with the distributor's state, a checkpoint starts exactly when all have reported. Refuted otherwise: after one failed validation checkpointing is stuck for good (c19_failed_validation_is_final), and reports for ids that do not exist count (c19_unknown_node_counts)."
  },
  {
   "property": "C20",
   "status": "proved",
   "theorems": [
    "Mixtera.c20_resume",
    "Mixtera.c20_skip_is_largest_report",
    "Mixtera.c20_checkpoint_succeeds",
    "Mixtera.c20_checkpoint_after_restart_fails"
   ],
   "note": ""
  },
  {
   "property": "C21",
   "status": "proved",
   "theorems": [
    "Mixtera.c21_static",
    "Mixtera.c21_static_renormalised",
    "Mixtera.c21_static_rejects",
    "Mixtera.c21_rounding_slack",
    "Mixtera.c21_tolerance"
   ],
   "note": ""
  },
  {
   "property": "C22",
   "status": "proved",
   "theorems": [
    "Mixtera.c22_leaf_weights",
    "Mixtera.c22_rows",
    "Mixtera.c22_unnormalised_overfull",
    "Mixtera.c22_same_leaf_twice",
    "Mixtera.c22_no_components"
   ],
   "note": ""
  },
  {
   "property": "C23",
   "status": "proved",
   "theorems": [
    "Mixtera.c23_index_order",
    "Mixtera.c23_restored",
    "Mixtera.c23_inferring",
    "Mixtera.c23_without_samples"
   ],
   "note": "c23_inferring: for every non-empty index; c23_without_samples: the rest. c23_index_order: what happens if the same index comes in another order (same rows up to one per key, equal unless fractional parts tie); c23_restored: a stored and reloaded index gives every mixture object the same information."
  },
  {
   "property": "C24",
   "status": "proved",
   "theorems": [
    "Mixtera.c24_current",
    "Mixtera.c24_never_back",
    "Mixtera.c24_process_index",
    "Mixtera.c24_current_informed",
    "Mixtera.c24_later_inferring_uninformed",
    "Mixtera.c24_rows_not_adjusted",
    "Mixtera.c24_chunks",
    "Mixtera.c24_strictness_ignored"
   ],
   "note": "c24_chunks composes this with the chunk generation. Findings beside it: the strictness of entries is ignored, later inferring entries are not informed, rows are not adjusted to the chunk size."
  },
  {
   "property": "C25",
   "status": "proved",
   "theorems": [
    "Mixtera.c25_update",
    "Mixtera.c25_distribution_accepted",
    "Mixtera.c25_not_distribution",
    "Mixtera.c25_rows_sum",
    "Mixtera.c25_initial_not_adjusted",
    "Mixtera.c25_zero_rows"
   ],
   "note": ""
  },
  {
   "property": "C26",
   "status": "proved",
   "theorems": [
    "Mixtera.c26_strict_total_order",
    "Mixtera.c26_generator_order",
    "Mixtera.c26_canonical_form"
   ],
   "note": ""
  },
  {
   "property": "C27",
   "status": "partial",
   "theorems": [
    "Mixtera.c27_same_contents_same_text",
    "Mixtera.c27_text_iff_contents_partial",
    "Mixtera.c27_colon_collision",
    "Mixtera.c27_empty_collision"
   ],
   "note": "The text hashed determines the contents when no name contains ':' or NUL, no value contains NUL, values containing ':' are the only value of their property, and no property is empty (c27_text_iff_contents_partial); c27_colon_collision and c27_empty_collision show collisions otherwise."
  },
  {
   "property": "C28",
   "status": "proved",
   "theorems": [
    "Mixtera.c28_match_iff",
    "Mixtera.c28_same_contents_match",
    "Mixtera.c28_monotone",
    "Mixtera.c28_order_independent",
    "Mixtera.c28_not_an_equivalence"
   ],
   "note": ""
  },
  {
   "property": "C29",
   "status": "proved",
   "theorems": [
    "Mixtera.c29_merge_sorted_lists"
   ],
   "note": ""
  },
  {
   "property": "C30",
   "status": "proved",
   "theorems": [
    "Mixtera.c30_distribute_by_ratio",
    "Mixtera.c30_distribute_by_ratio_small",
    "Mixtera.c30_distribute_rejects"
   ],
   "note": ""
  },
  {
   "property": "C31",
   "status": "proved",
   "theorems": [
    "Mixtera.c31_round_trip",
    "Mixtera.c31_empty_key_lost"
   ],
   "note": ""
  },
  {
   "property": "C32",
   "status": "proved",
   "theorems": [
    "Mixtera.c32_coverage",
    "Mixtera.c32_sorted_disjoint_maximal",
    "Mixtera.c32_maximal_runs",
    "Mixtera.c32_scan_order"
   ],
   "note": ""
  },
  {
   "property": "C33",
   "status": "partial",
   "theorems": [
    "Mixtera.c33_cpp_index",
    "Mixtera.c33_rejects",
    "Mixtera.c33_index_partial",
    "Mixtera.c33_thread_independent",
    "Mixtera.c33_value_order_loses",
    "Mixtera.c33_selected_samples_partial",
    "Mixtera.c33_any_values",
    "Mixtera.c33_any_values_sorted",
    "Mixtera.c33_any_survivor",
    "Mixtera.c33_complete_iff"
   ],
   "note": "The full claim (c33_index_partial) is proved for property values without the separator characters and tables in which rows with the same contents list the values in one order; it is false otherwise (c33_value_order_loses). For arbitrary values the outcome is characterised exactly: c33_any_values (for every table, threads, batches and hash orders the index has the keys of the rows' texts and lists under each key exactly the intervals of the rows with one of its texts, nothing invented), c33_any_survivor (which text survives is decided by the hash order alone: every choice occurs), c33_complete_iff (the index is complete for all hash orders iff no two texts of the table share a Python key), c33_any_values_sorted (order of the ranges). c33_rejects: which tables raise."
  },
  {
   "property": "C34",
   "status": "partial",
   "theorems": [
    "Mixtera.c34_round_trip_partial",
    "Mixtera.c34_separators",
    "Mixtera.c34_round_trip_iff"
   ],
   "note": "c34_round_trip_iff characterises exactly which rows survive: distinct property names free of ':' and ';', values free of ',' and ';', no property ending with an empty value. c34_separators shows what happens to the others."
  },
  {
   "property": "C35",
   "status": "partial",
   "theorems": [
    "Mixtera.c35_exact_meaning",
    "Mixtera.c35_or_of_ands_partial",
    "Mixtera.c35_empty_select_ignored",
    "Mixtera.c35_none_in_list",
    "Mixtera.c35_ordering_on_list_column"
   ],
   "note": "OR of ANDs proved when every select has only usable conditions; c35_exact_meaning gives the exact meaning for all chains (empty selects vanish); witnesses show the deviations."
  },
  {
   "property": "C36",
   "status": "partial",
   "theorems": [
    "Mixtera.c36_keeps_others",
    "Mixtera.c36_stored",
    "Mixtera.c36_second_hit",
    "Mixtera.c36_text_identifies_query",
    "Mixtera.c36_hit",
    "Mixtera.c36_current_result_partial",
    "Mixtera.c36_crashed_remove",
    "Mixtera.c36_race",
    "Mixtera.c36_lost_update",
    "Mixtera.c36_torn_metadata_blocks"
   ],
   "note": "Proved for all histories of completed operations, crashed registrations and completed or crashed queries; refuted for crashed removals (c36_crashed_remove), operations completing while a query runs (c36_race) and concurrent registrations (c36_lost_update)."
  },
  {
   "property": "C37",
   "status": "proved",
   "theorems": [
    "Mixtera.c37_only_that_dataset",
    "Mixtera.c37_crash",
    "Mixtera.c37_register_iff",
    "Mixtera.c37_register_adds",
    "Mixtera.c37_register_taken",
    "Mixtera.c37_no_files_keeps_name",
    "Mixtera.c37_remove",
    "Mixtera.c37_round_trip"
   ],
   "note": ""
  },
  {
   "property": "C38",
   "status": "proved",
   "theorems": [
    "Mixtera.c38_round_robin",
    "Mixtera.c38_every_sample_once"
   ],
   "note": ""
  },
  {
   "property": "C39",
   "status": "partial",
   "theorems": [
    "Mixtera.c39_window_samples",
    "Mixtera.c39_full_window",
    "Mixtera.c39_no_repeats",
    "Mixtera.c39_strict",
    "Mixtera.c39_best_effort_partial",
    "Mixtera.c39_best_effort_stuck",
    "Mixtera.c39_counts",
    "Mixtera.c39_small_share_stuck"
   ],
   "note": "Proved in full without best effort; with best effort proved when every key has at least one sample per window, and refuted otherwise: reading never ends (c39_best_effort_stuck, c39_small_share_stuck). Float rounding of the shares is taken exactly here; C87 has the rounded shares."
  },
  {
   "property": "C40",
   "status": "proved",
   "theorems": [
    "Mixtera.c40_skip",
    "Mixtera.c40_index",
    "Mixtera.c40_resume"
   ],
   "note": ""
  },
  {
   "property": "C41",
   "status": "partial",
   "theorems": [
    "Mixtera.c41_deterministic_partial",
    "Mixtera.c41_all_samples_partial",
    "Mixtera.c41_no_wrong_samples",
    "Mixtera.c41_partitions",
    "Mixtera.c41_like_one_process_partial",
    "Mixtera.c41_workload",
    "Mixtera.c41_chunk_samples_partial",
    "Mixtera.c41_timeout_race",
    "Mixtera.c41_crash_loses",
    "Mixtera.c41_marker_loses",
    "Mixtera.c41_slow_reader_partial",
    "Mixtera.c41_process_counts"
   ],
   "note": "Every fair schedule without timeouts and crashes and without a sample equal to the end marker delivers everything exactly once; with them only c41_no_wrong_samples holds, and c41_timeout_race, c41_crash_loses, c41_marker_loses show silent loss."
  },
  {
   "property": "C42",
   "status": "proved",
   "theorems": [
    "Mixtera.c42_windows",
    "Mixtera.c42_covers"
   ],
   "note": ""
  },
  {
   "property": "C43",
   "status": "partial",
   "theorems": [
    "Mixtera.c43_same_samples_partial",
    "Mixtera.c43_terminates_partial",
    "Mixtera.c43_exception_hangs"
   ],
   "note": "Proved for wrapped iterators that do not raise; c43_exception_hangs shows that an exception in the wrapped iterator makes the consumer wait forever."
  },
  {
   "property": "C44",
   "status": "partial",
   "theorems": [
    "Mixtera.c44_same_partial",
    "Mixtera.c44_none",
    "Mixtera.c44_exception"
   ],
   "note": "Proved for streams whose first item exists and that do not raise; c44_none and c44_exception show that a leading None or an exception silently ends the stream."
  },
  {
   "property": "C45",
   "status": "proved",
   "theorems": [
    "Mixtera.c45_lines",
    "Mixtera.c45_rejects",
    "Mixtera.c45_web",
    "Mixtera.c45_web_missing"
   ],
   "note": ""
  },
  {
   "property": "C46",
   "status": "proved",
   "theorems": [
    "Mixtera.c46_rows",
    "Mixtera.c46_unsorted_loses"
   ],
   "note": ""
  },
  {
   "property": "C47",
   "status": "partial",
   "theorems": [
    "Mixtera.Net.c47_int",
    "Mixtera.Net.c47_bytes_partial",
    "Mixtera.Net.c47_empty_bytes",
    "Mixtera.Net.c47_coded_partial",
    "Mixtera.Net.c47_float",
    "Mixtera.Net.c47_array_partial",
    "Mixtera.Net.c47_sign_bit",
    "Mixtera.Net.c47_too_long",
    "Mixtera.Net.c47_conversation_partial"
   ],
   "note": "Round trip proved for every kind of message and for whole conversations, for non-empty byte strings shorter than half the header's range; c47_empty_bytes (b'' comes back as None) and c47_sign_bit (lengths with the header's top bit set are read back as empty and desynchronise the connection) show the rest fails. Text, pickle, float and array codecs are parameters assumed to be inverse."
  },
  {
   "property": "C48",
   "status": "partial",
   "theorems": [
    "Mixtera.Net.c48_read_bytes",
    "Mixtera.Net.c48_fragmentation",
    "Mixtera.Net.c48_delays",
    "Mixtera.Net.c48_cut_partial",
    "Mixtera.Net.c48_cut_after_header",
    "Mixtera.Net.c48_closed"
   ],
   "note": "Independence of the fragmentation proved for all read helpers and all programs made of them; a cut inside the header or the body raises, but a cut exactly after the header gives None (c48_cut_after_header)."
  },
  {
   "property": "C49",
   "status": "proved",
   "theorems": [
    "Mixtera.Mixing.c49_accumulate",
    "Mixtera.Mixing.c49_newer_mixture",
    "Mixtera.Mixing.c49_half_applied",
    "Mixtera.Mixing.c49_algorithms"
   ],
   "note": "reset_state is never called in the code base, so the sums run over the whole job. Float rounding is not modelled. c49_half_applied: a report whose counts do not fit raises after its losses were added."
  },
  {
   "property": "C50",
   "status": "partial",
   "theorems": [
    "Mixtera.Mixing.c50_mixture_partial",
    "Mixtera.Mixing.c50_below_minimum",
    "Mixtera.Mixing.c50_undisturbed",
    "Mixtera.Mixing.c50_new_domain_fails",
    "Mixtera.Mixing.c50_short_report_fails"
   ],
   "note": "Every returned mixture is a distribution, for all report histories; the floor is delta_min/(1+n*delta_min), not delta_min (c50_below_minimum). c50_undisturbed: no exceptions while the set of domains is fixed; c50_new_domain_fails and c50_short_report_fails: IndexError when it changes between fits. Scaling-law fitting, exp and powers are parameters."
  },
  {
   "property": "C51",
   "status": "partial",
   "theorems": [
    "Mixtera.Meta.c51_reserved",
    "Mixtera.Meta.c51_accepts_partial",
    "Mixtera.Meta.c51_required",
    "Mixtera.Meta.c51_undeclared",
    "Mixtera.Meta.c51_reserved_name",
    "Mixtera.Meta.c51_empty_list",
    "Mixtera.Meta.c51_imagenet_missing"
   ],
   "note": "Exact acceptance condition and exact record proved for every schema with distinct, unreserved names. Not as one would expect: undeclared values are dropped silently (c51_undeclared), sample_id is not reserved (c51_reserved_name), an empty list counts as a value (c51_empty_list), an ImageNet sample without label is registered under the text None (c51_imagenet_missing)."
  },
  {
   "property": "C52",
   "status": "proved",
   "theorems": [
    "Mixtera.Srv.c52_first_wins",
    "Mixtera.Srv.c52_at_most_one",
    "Mixtera.Srv.c52_jobs_separate",
    "Mixtera.Srv.c52_status_success",
    "Mixtera.Srv.c52_no_deadlock",
    "Mixtera.Srv.c52_status_misleading",
    "Mixtera.Srv.c52_local_race"
   ],
   "note": "Proved for the server, for every interleaving of its background tasks. Witnesses: c52_status_misleading (a refused second registration turns the status of the running job to failed), c52_local_race (two threads that use one local stub without the server's lock can both succeed)."
  },
  {
   "property": "C53",
   "status": "partial",
   "theorems": [
    "Mixtera.Calc.c53_results_partial",
    "Mixtera.Calc.c53_batch_size",
    "Mixtera.Calc.c53_succeeds",
    "Mixtera.Calc.c53_parallel_refused",
    "Mixtera.Calc.c53_never_stored"
   ],
   "note": "The calculation itself is exact for every batch size (c53_results_partial, c53_batch_size, c53_succeeds); a degree of parallelism above 1 is refused (c53_parallel_refused) and add_property never stores anything because the storing functions always raise (c53_never_stored)."
  },
  {
   "property": "C54",
   "status": "proved",
   "theorems": [
    "Mixtera.Mixing.c54_average",
    "Mixtera.Mixing.c54_returned"
   ],
   "note": "Exact arithmetic instead of float32."
  },
  {
   "property": "C55",
   "status": "proved",
   "theorems": [
    "Mixtera.Meta.c55_numbering",
    "Mixtera.Meta.c55_batches",
    "Mixtera.Meta.c55_same_sample"
   ],
   "note": "Composes the numbering at registration with the readers of C45 and C46."
  },
  {
   "property": "C56",
   "status": "partial",
   "theorems": [
    "Mixtera.Srv.c56_coherent",
    "Mixtera.Srv.c56_restored",
    "Mixtera.Srv.c56_failed",
    "Mixtera.Srv.c56_early_status",
    "Mixtera.Srv.c56_switching"
   ],
   "note": "Proved for every history after the restore (c56_restored), coherence outside the switching window (c56_coherent), failed restore (c56_failed). Refuted: the status can report success before the restore has started (c56_early_status); while the switch is under way chunks come from the old and metadata from the new distributor (c56_switching)."
  },
  {
   "property": "C60",
   "status": "proved",
   "theorems": [
    "Mixtera.Net.c60_request",
    "Mixtera.Net.c60_cut",
    "Mixtera.Net.c60_reply",
    "Mixtera.Net.c60_call",
    "Mixtera.Net.c60_handler_raises",
    "Mixtera.Net.c60_any_network",
    "Mixtera.Net.c60_acts_on_cut_request"
   ],
   "note": "c60_request/c60_cut/c60_reply for every one of the 16 kinds of request; c60_call and c60_any_network for whole exchanges. Arguments whose encoding is as long as half the header range are excluded (see C47/C48). Also shown: a failing handler looks like the answer 'nothing' (c60_handler_raises), and some handlers act on cut requests with None arguments (c60_acts_on_cut_request)."
  },
  {
   "property": "C61",
   "status": "proved",
   "theorems": [
    "Mixtera.c61_told",
    "Mixtera.c61_accepted",
    "Mixtera.c61_kept",
    "Mixtera.c61_stay",
    "Mixtera.c61_not_told_again"
   ],
   "note": "Float rounding of the shares is exact rational arithmetic in the model. c61_not_told_again shows that ids that appear later are not announced to the algorithm."
  },
  {
   "property": "C57",
   "status": "proved",
   "theorems": [
    "Mixtera.Net.c57_same_as_local",
    "Mixtera.Net.c57_any_network",
    "Mixtera.Net.c57_stream",
    "Mixtera.Net.c57_lost_chunk"
   ],
   "note": "Finding c57_lost_chunk: a lost reply, an unreachable server and a failed handler all look like the normal end of the stream, and the lost chunk is never sent again."
  },
  {
   "property": "C58",
   "status": "proved",
   "theorems": [
    "Mixtera.Net.c58_lines",
    "Mixtera.Net.c58_rows",
    "Mixtera.Net.c58_same_samples",
    "Mixtera.Net.c58_any_network",
    "Mixtera.Net.c58_silently_missing",
    "Mixtera.Net.c58_phantom_line"
   ],
   "note": "Findings: c58_silently_missing (a failed fetch is an empty file, without an error), c58_phantom_line (a range past the end gives an extra empty line through the server only)."
  },
  {
   "property": "C59",
   "status": "proved",
   "theorems": [
    "Mixtera.Torch.c59_current_id",
    "Mixtera.Torch.c59_monotone",
    "Mixtera.Torch.c59_feedback",
    "Mixtera.Torch.c59_gone_while_streaming"
   ],
   "note": "Finding c59_gone_while_streaming: one worker's stream end removes the id although other workers of the node still deliver samples; feedback then fails its assertion."
  },
  {
   "property": "C62",
   "status": "partial",
   "theorems": [
    "Mixtera.Torch.c62_resume_partial",
    "Mixtera.Torch.c62_no_gap_partial",
    "Mixtera.Torch.c62_stale_status_loses",
    "Mixtera.Torch.c62_prefetched_lost"
   ],
   "note": "Proved for loaders that have handed over at least one sample of their current chunk, given that the query result continues as the original one (C13). False otherwise: c62_stale_status_loses (a chunk received but not begun loses as many samples as the previous chunk's last index), c62_prefetched_lost (samples waiting in the data loader's queue are lost)."
  },
  {
   "property": "C63",
   "status": "partial",
   "theorems": [
    "Mixtera.c63_index_partial",
    "Mixtera.c63_training_partial",
    "Mixtera.c63_complete_partial",
    "Mixtera.c63_value_order_loses",
    "Mixtera.c63_index_any_values",
    "Mixtera.c63_index_value_orders",
    "Mixtera.c63_training_value_orders",
    "Mixtera.c63_training_any_values",
    "Mixtera.c63_complete_any_values",
    "Mixtera.c63_shared_text_unreadable"
   ],
   "note": "Composition of C35, C32, C33/C34, C04, C05, C07, C28 in one theorem about the database table. The full claim needs PlainDb and GoodQuery, which exclude the situations in which C33, C34 and C35 fail; c63_value_order_loses shows on the whole pipeline that samples are lost without them. For arbitrary property names and values (c63_index_any_values, c63_training_any_values, c63_complete_any_values): nothing is delivered twice, everything delivered is registered and wanted, and iterating to the end delivers exactly the wanted samples whose text survives - all of them if no two texts share a key. With values free of separators but listed in any order (c63_index_value_orders, c63_training_value_orders) only completeness is lost. c63_shared_text_unreadable: samples with different properties and one text make a file's ranges unsorted, and reading the chunk raises."
  },
  {
   "property": "C64",
   "status": "proved",
   "theorems": [
    "Mixtera.Mixing.c64_fitted_history",
    "Mixtera.Mixing.c64_recorded",
    "Mixtera.Mixing.c64_v2_catches_up",
    "Mixtera.Mixing.c64_credit_only_newer",
    "Mixtera.Mixing.c64_v3_waits",
    "Mixtera.Mixing.c64_new_laws_answer"
   ],
   "note": "Real arithmetic (ordered field); the curve fitting itself is a parameter that may raise. Reports with fewer domains than earlier ones are excluded (they raise, see C50)."
  },
  {
   "property": "C65",
   "status": "proved",
   "theorems": [
    "Mixtera.Shm.c65_status",
    "Mixtera.Shm.c65_unlinked",
    "Mixtera.Shm.c65_last_unlinks",
    "Mixtera.Shm.c65_fork_again",
    "Mixtera.Shm.c65_spawn_once",
    "Mixtera.Shm.c65_in_main_once",
    "Mixtera.Shm.c65_too_few",
    "Mixtera.Shm.c65_too_many",
    "Mixtera.Shm.c65_unlinked_once"
   ],
   "note": "All interleavings of worker processes; the deviations (spawned and in-process loading for one epoch only, wrong numbers of workers) are theorems of their own."
  },
  {
   "property": "C66",
   "status": "proved",
   "theorems": [
    "Mixtera.HF.c66_accepted",
    "Mixtera.HF.c66_intended",
    "Mixtera.HF.c66_distinct",
    "Mixtera.HF.c66_unsplit_raises",
    "Mixtera.HF.c66_wrong_number"
   ],
   "note": "Exact characterisation of the accepted setups; the deviations are theorems of their own. The datasets library is represented by its calls as the code's comments describe them."
  },
  {
   "property": "C67",
   "status": "partial",
   "theorems": [
    "Mixtera.Reg.c67_true",
    "Mixtera.Reg.c67_own_task",
    "Mixtera.Reg.c67_false_partial",
    "Mixtera.Reg.c67_next_poll",
    "Mixtera.Reg.c67_restart_waits_forever",
    "Mixtera.Reg.c67_lost_answer",
    "Mixtera.Reg.c67_wait"
   ],
   "note": "True is always true; False and exceptions mean a failed registration only if the exchanges are delivered (c67_false_partial, c67_lost_answer); a restart makes the call wait forever (c67_restart_waits_forever)."
  },
  {
   "property": "C69",
   "status": "proved",
   "theorems": [
    "Mixtera.c69_ids",
    "Mixtera.c69_monotone",
    "Mixtera.c69_first"
   ],
   "note": "Mixtures are compared as dictionaries, as the code does; what a request is served with after an unserved one is the old mixture (C10)."
  },
  {
   "property": "C68",
   "status": "partial",
   "theorems": [
    "Mixtera.Find.c68_sound",
    "Mixtera.Find.c68_complete",
    "Mixtera.Find.c68_decides_partial",
    "Mixtera.Find.c68_endless_partial",
    "Mixtera.Find.c68_wrapped",
    "Mixtera.Find.c68_recover",
    "Mixtera.Find.c68_direct",
    "Mixtera.Find.c68_found_partial",
    "Mixtera.Find.c68_not_installed",
    "Mixtera.Find.c68_nested_partial"
   ],
   "note": "Soundness (c68_sound, c68_recover), completeness (c68_complete), direct cases (c68_direct) and HuggingFace wrappers (c68_wrapped) for all graphs; deciding the attribute search needs fewer objects than the recursion limit (c68_decides_partial): c68_endless_partial shows a RecursionError for objects with endlessly fresh attributes (such as tensors), c68_nested_partial that a dataset in a list within a list is overlooked."
  },
  {
   "property": "C70",
   "status": "partial",
   "theorems": [
    "Mixtera.CkRun.c70_barrier",
    "Mixtera.CkRun.c70_id_file",
    "Mixtera.CkRun.c70_durable",
    "Mixtera.CkRun.c70_restorable_partial",
    "Mixtera.CkRun.c70_starts",
    "Mixtera.CkRun.c70_restore_complete",
    "Mixtera.CkRun.c70_next_number",
    "Mixtera.CkRun.c70_first_unfinished_partial",
    "Mixtera.CkRun.c70_other_query_partial",
    "Mixtera.CkRun.c70_id_before_data_partial",
    "Mixtera.CkRun.c70_uncached_partial",
    "Mixtera.CkRun.c70_cache_removed_partial",
    "Mixtera.CkRun.c70_cache_replaced_partial"
   ],
   "note": "Barrier, id file, durability and no overwriting proved for all histories (c70_barrier, c70_id_file, c70_durable), restorability when one job id is used for one query and the first checkpoint has been waited for (c70_restorable_partial). Refuted: c70_first_unfinished_partial (a later checkpoint is reported complete while the first still copies the query result), c70_other_query_partial (a job id reused for another query mixes old query result and new state), c70_id_before_data_partial (mixtera.id names an unfinished checkpoint after a crash), c70_uncached_partial (no checkpoints without query cache), c70_cache_removed_partial (none after the cache directory was removed), c70_cache_replaced_partial (the first checkpoint contains another job's query result if the same query was executed after a dataset change, because the number of the removed cache directory is given out again)."
  },
  {
   "property": "C71",
   "status": "partial",
   "theorems": [
    "Mixtera.Files.c71_directory",
    "Mixtera.Files.c71_spelling",
    "Mixtera.Files.c71_file",
    "Mixtera.Files.c71_missing",
    "Mixtera.Files.c71_relative",
    "Mixtera.Files.c71_scheme_partial",
    "Mixtera.Files.c71_registers"
   ],
   "note": "Proved for absolute paths (c71_directory, c71_spelling, c71_file, c71_missing, c71_relative) and composed with registration (c71_registers). Refuted for file:// locations, which are documented and accepted but looked up as relative paths (c71_scheme_partial)."
  },
  {
   "property": "C72",
   "status": "partial",
   "theorems": [
    "Mixtera.Web.c72_partition",
    "Mixtera.Web.c72_one_key",
    "Mixtera.Web.c72_maximal",
    "Mixtera.Web.c72_item_partial",
    "Mixtera.Web.c72_succeeds",
    "Mixtera.Web.c72_fails",
    "Mixtera.Web.c72_range",
    "Mixtera.Web.c72_same",
    "Mixtera.Web.c72_gz_unknown",
    "Mixtera.Web.c72_repeated_loses"
   ],
   "note": "Grouping, contents and agreement of parser and reader proved for all tar files (c72_partition, c72_one_key, c72_maximal, c72_item_partial, c72_succeeds, c72_same, c72_range). Refuted for compressed members of unknown type, whose stream is left read to its end (c72_gz_unknown), and for repeated extensions, of which only the last is kept (c72_repeated_loses). group_by_key of the library wids is modelled as documented."
  },
  {
   "property": "C73",
   "status": "proved",
   "theorems": [
    "Mixtera.Meta.c73_slim",
    "Mixtera.Meta.c73_pile",
    "Mixtera.Meta.c73_fineweb",
    "Mixtera.Meta.c73_coco",
    "Mixtera.Meta.c73_redpajama",
    "Mixtera.Meta.c73_null_meta",
    "Mixtera.Meta.c73_factory"
   ],
   "note": "Exact acceptance conditions and records for all JSON payloads, through add_metadata; c73_null_meta shows that the optional meta object may be missing but not null. ImageNet's missing label is c51_imagenet_missing. Floats and equality of 1 and True are not modelled."
  },
  {
   "property": "C74",
   "status": "proved",
   "theorems": [
    "Mixtera.Mixing.c74_mixture",
    "Mixtera.Mixing.c74_slope",
    "Mixtera.Mixing.c74_preference"
   ],
   "note": "All variants; undisturbed runs (the scaling laws can be fitted, as for C50) in which all reports are about the same domains. c74_mixture also characterises exactly which reports are answered."
  },
  {
   "property": "C75",
   "status": "partial",
   "theorems": [
    "Mixtera.Mixing.c75_fitted",
    "Mixtera.Mixing.c75_succeeds",
    "Mixtera.Mixing.c75_isolated",
    "Mixtera.Mixing.c75_defined",
    "Mixtera.Mixing.c75_mixture",
    "Mixtera.Mixing.c75_undisturbed",
    "Mixtera.Mixing.c75_too_little",
    "Mixtera.Mixing.c75_first_fit_empty_partial",
    "Mixtera.Mixing.c75_exact",
    "Mixtera.Mixing.c75_range",
    "Mixtera.Mixing.c75_beats_guesses"
   ],
   "note": "Everything except the last sentence is proved (c75_fitted, c75_succeeds, c75_isolated, c75_defined, c75_mixture, c75_undisturbed, c75_too_little, c75_exact, c75_range, c75_beats_guesses). The last sentence is false: one step more is ignored, so that with start_step = ignore_initial_steps + 1, which the constructor accepts, the first fit has no data for any domain (c75_first_fit_empty_partial)."
  },
  {
   "property": "C76",
   "status": "partial",
   "theorems": [
    "Mixtera.c76_listed",
    "Mixtera.c76_configures_partial",
    "Mixtera.c76_settings",
    "Mixtera.c76_mixture",
    "Mixtera.c76_zero_row_fails",
    "Mixtera.c76_single_process",
    "Mixtera.c76_read_partial",
    "Mixtera.c76_windows_partial"
   ],
   "note": "Proved for every chunk whose requested mixture has no zero-valued key (and for chunks without mixture): configuring succeeds iff the arguments are valid, and reading yields exactly the listed samples (overall mode; windows when every share is at least one sample, strict windows always). False of the code for mixtures with a zero-valued key: c76_zero_row_fails shows that the client then always raises, as long as matching samples are left. Token mode: configuration only; the tokenised streams are C42-C44."
  },
  {
   "property": "C77",
   "status": "partial",
   "theorems": [
    "Mixtera.Net.c77_connected",
    "Mixtera.Net.c77_unreachable",
    "Mixtera.Net.c77_exception_partial",
    "Mixtera.Net.c77_once",
    "Mixtera.Net.c77_exception_lost",
    "Mixtera.Net.c77_call",
    "Mixtera.Net.c77_positive",
    "Mixtera.Net.c77_unreachable_value",
    "Mixtera.Net.c77_no_answer",
    "Mixtera.Net.c77_restore_silent",
    "Mixtera.Net.c77_idle"
   ],
   "note": "Proved: connecting, exactly-once use of the first connection, failure values, and that positive answers are the server's, on top of the byte protocol of C60. Partial because an exception in the exchange does not reach the caller: the retry loop swallows it, connects again (leaking the first connection), and the caller always gets 'generator didn't stop after athrow()' (c77_exception_partial, negation witness c77_exception_lost); and restore_checkpoint returns normally when nothing was restored (c77_restore_silent). Waiting times and cancellation are not modelled."
  },
  {
   "property": "C78",
   "status": "partial",
   "theorems": [
    "Mixtera.c78_scan_order_partial",
    "Mixtera.c78_database_partial",
    "Mixtera.c78_inferring_partial",
    "Mixtera.c78_inferring_varies",
    "Mixtera.c78_key_order",
    "Mixtera.c78_same_chunks_partial",
    "Mixtera.c78_reading",
    "Mixtera.c78_read_once_partial",
    "Mixtera.c78_resets_generator",
    "Mixtera.c78_chunk_order_matters",
    "Mixtera.c78_database_iff",
    "Mixtera.c78_value_orders_vary"
   ],
   "note": "c78_key_order: the order of the keys in which a query result walks its index depends on the set of keys only. c78_same_chunks_partial: two indices built from permuted tables, in any batches, threads and hash-map orders and any generator states, give equal answers to every operation sequence (and the same key ids). c78_reading: reading a configured chunk with the global generator threaded through equals reading it with fixed shuffles, so the state is irrelevant. c78_read_once_partial: for every chunk that can be delivered, type 'simple' reads exactly its samples, each once, in an order that depends on the chunk only. c78_resets_generator, c78_chunk_order_matters: side effects and limits (findings). c78_database_iff: without separators the samples in the result are independent of the hash maps' iteration order if and only if the wanted samples list equal values in one order (c78_value_orders_vary: a database for which they are not). c78_inferring_partial: jobs with InferringMixture on two executions get the same answers if no fractional parts are equal; c78_inferring_varies: otherwise the rows and the chunks can differ. Partial: as in C33, names and values without the separators and equal property sets listed in the same order; read_once only for 'simple' (for the other types see C39/C40/C76); the order of the samples in a chunk depends on the order of the chunk's dict. c78_database_partial: composed with the evaluation of queries (C63). c78_scan_order_partial: the index does not depend on the order in which the rows of the sample table are stored or scanned (from c32_maximal_runs, c32_scan_order)."
  },
  {
   "property": "C79",
   "status": "partial",
   "theorems": [
    "Mixtera.Torch.c79_restored_source_partial",
    "Mixtera.Torch.c79_restarts_partial",
    "Mixtera.Torch.c79_restart_repeats_partial",
    "Mixtera.Torch.c79_restarts_complete_partial",
    "Mixtera.Torch.c79_once",
    "Mixtera.Torch.c79_replicas",
    "Mixtera.Torch.c79_key_ids",
    "Mixtera.Torch.c79_failures",
    "Mixtera.Torch.c79_complete",
    "Mixtera.Torch.c79_composition",
    "Mixtera.Torch.c79_simple_reading",
    "Mixtera.Torch.c79_any_streams",
    "Mixtera.Torch.c79_reader_processes_partial",
    "Mixtera.Torch.c79_any_reading",
    "Mixtera.Torch.c79_database_partial",
    "Mixtera.Torch.c79_database_complete_partial",
    "Mixtera.Torch.c79_database_any_values",
    "Mixtera.Torch.c79_database_complete_any_values",
    "Mixtera.Torch.c79_database_value_orders"
   ],
   "note": "Composition of the models of C02-C16, C38, C59, C63, C76 and C78. \"At most once\" is proved for every reading of chunks that yields listed samples, none twice, under their keys; c79_any_reading: the reading with one reader process is such a reading for all arguments (simple, window, token, valid or not); c79_any_streams: so is every reading whose key iterators yield the listed samples in any order; c79_reader_processes_partial: reader processes are such iterators under the schedules of C41. Completeness and composition need a reading that yields each listed sample once (c79_simple_reading: the type \"simple\"). Partial: needs usable mixtures (no zero rows, C76) and feedback without unknown keys; the database version inherits the restrictions of C63 - the safety half needs none on the property values (c79_database_any_values; with the key's description: c79_database_value_orders), completeness only that no two texts of wanted samples share a key (c79_database_complete_any_values); the end of the stream with ArbitraryMixture is a hypothesis (C07: it may be endless for an even number of keys); restarts: c79_restarts_partial (any number of interruptions: nothing twice over all lives, up to the last sample before each checkpoint), c79_restarts_complete_partial (nothing is lost over all lives: once every loader has read to the end after the last restart, every sample has been handed over), c79_restored_source_partial (the restored query result under the conditions of C13), c79_restart_repeats_partial (a checkpoint before the first sample after a restart repeats samples). c79_composition: every chunk received after the last mixture change is composed by the mixture then in force (if no loader was told the stream ended before); c79_failures: the only failures a loader can see are those the chunk generator itself reports."
  },
  {
   "property": "C80",
   "status": "partial",
   "theorems": [
    "Mixtera.c80_log_partial",
    "Mixtera.c80_ids_partial",
    "Mixtera.c80_chunk_idx",
    "Mixtera.c80_curr_chunk_idx_partial",
    "Mixtera.c80_schedule_rewrites_log"
   ],
   "note": "Proved for all histories in which a mixture object either always or never has rows (all mixture classes but schedules mixing both); refuted for such schedules (c80_schedule_rewrites_log). Keys with different text forms are assumed (C27/C34 discuss collisions). Crashes in the middle of writing a file and the files during a replay are in C88."
  },
  {
   "property": "C81",
   "status": "partial",
   "theorems": [
    "Mixtera.Jobs.c81_isolation",
    "Mixtera.Jobs.c81_running",
    "Mixtera.Jobs.c81_checkpoints_partial",
    "Mixtera.Jobs.c81_shared_mixture_partial",
    "Mixtera.Jobs.c81_checkpoint_of_other_data_partial"
   ],
   "note": "Proved for all histories in which no mixture object is passed to this job and to another one: everything but checkpoints (c81_isolation), a running job with restores independently of dataset changes too (c81_running), checkpoints if no dataset changes after the job's first event (c81_checkpoints_partial). Refuted otherwise: c81_shared_mixture_partial (a shared InferringMixture object is overwritten by the other job's data), c81_checkpoint_of_other_data_partial (the first checkpoint copies the query result another job has put in the same cache directory; restoring delivers samples twice). Operations are atomic in this model (overlapping ones: C36, C52, C56, C70)."
  },
  {
   "property": "C82",
   "status": "partial",
   "theorems": [
    "Mixtera.c82_reused_like_fresh",
    "Mixtera.c82_reused_table_partial",
    "Mixtera.c82_execute_query_partial"
   ],
   "note": "Given an index in which every key and dataset has a file (C33: all indices of queries), proved without further conditions (c82_reused_like_fresh). Partial: the composition with the table (c82_reused_table_partial) and with database and cache (c82_execute_query_partial) inherits the restrictions of C33, C36 (crashed removals, races) and C63. The mixture's view after process_index is given; c23_restored: a reloaded index tells every mixture object the same as the stored one; c23_index_order: indices in another order do, except for ties of an inferring mixture."
  },
  {
   "property": "C83",
   "status": "partial",
   "theorems": [
    "Mixtera.Torch.c83_restarts_partial",
    "Mixtera.Torch.c83_restarts_complete_partial",
    "Mixtera.c83_no_dangling",
    "Mixtera.c83_through_cache_partial",
    "Mixtera.c83_trained_records_partial",
    "Mixtera.c83_concurrent_dangling",
    "Mixtera.Torch.c83_training_run_partial",
    "Mixtera.Torch.c83_training_complete_partial"
   ],
   "note": "c83_trained_records_partial composes C37 (crash points), C55, C51, C63, C06, C45 and C46 in one theorem from files to trained items; c83_through_cache_partial adds the query cache of C36: the result may come from the cache; c83_training_run_partial and c83_training_complete_partial go on to the whole training run (C79): what the loaders hand over are the parsed records, each once, and with ArbitraryMixture all of them; c83_restarts_partial and c83_restarts_complete_partial do the same for jobs that are interrupted any number of times and continued from checkpoints; c83_no_dangling holds for all histories and crash points. All safety theorems allow the same values in different orders (ReadableDb). Completeness needs one order of values among the wanted samples (OneOrder). Partial because it inherits ReadableDb/GoodQuery from C63 and assumes that the files do not change; c83_concurrent_dangling shows that concurrent registration and removal of one name leaves samples that no query can resolve and that cannot be removed."
  },
  {
   "property": "C84",
   "status": "partial",
   "theorems": [
    "Mixtera.Typed.c84_register_iff",
    "Mixtera.Typed.c84_register_adds",
    "Mixtera.Typed.c84_type_for_ever",
    "Mixtera.Typed.c84_unchanged_partial",
    "Mixtera.Typed.c84_history_partial",
    "Mixtera.Typed.c84_conflict",
    "Mixtera.Typed.c84_fineweb_after_redpajama",
    "Mixtera.Typed.c84_redpajama_after_fineweb",
    "Mixtera.Typed.c84_list_as_text"
   ],
   "note": "Violated by the code. Proved for all inputs: c84_register_iff (exactly when a registration succeeds, given the columns of the database), c84_register_adds (exactly what is stored), c84_type_for_ever (column types never change, over all histories and crash points). The part that holds: c84_unchanged_partial (if the existing columns take the declared values, the run is the run without types at every crash point) and c84_history_partial (if all parsers declare alike, every reachable database is one of the model without types, so C37, C63, C83 apply). Violations: c84_conflict (a value the column does not take: the call raises, the dataset stays registered with its files, without samples, and its name is taken), c84_fineweb_after_redpajama and c84_redpajama_after_fineweb (two built-in parsers), c84_list_as_text (a list silently becomes one text). DuckDB's text form of lists is a parameter; column names are compared exactly."
  },
  {
   "property": "C85",
   "status": "partial",
   "theorems": [
    "Mixtera.Opening.c85_complete_file",
    "Mixtera.Opening.c85_reopen",
    "Mixtera.Opening.c85_missing",
    "Mixtera.Opening.c85_first_open",
    "Mixtera.Opening.c85_first_open_crash",
    "Mixtera.Opening.c85_reopen_any_time_partial",
    "Mixtera.Opening.c85_never_repaired",
    "Mixtera.Opening.c85_usable_iff",
    "Mixtera.Opening.c85_false_but_listed",
    "Mixtera.Opening.c85_nothing_listed",
    "Mixtera.Opening.c85_late_first_opening"
   ],
   "note": "Proved for all histories after a completed first opening (c85_reopen_any_time_partial, c85_reopen, c85_complete_file: the operations and their crash points are those of the database model). Violated by crashes during the first opening: the tables are created by eight separately committed statements and only if the file does not exist, so a crash in between leaves a file that every later opening accepts and nothing ever completes (c85_never_repaired: no registration or removal ever returns True and every query raises, for all histories; c85_usable_iff: exactly these crash points). In such a directory register_dataset returns False although the dataset is listed from then on (c85_false_but_listed)."
  },
  {
   "property": "C86",
   "status": "partial",
   "theorems": [
    "Mixtera.F64.c86_static",
    "Mixtera.F64.c86_static_loop",
    "Mixtera.F64.c86_sum_check",
    "Mixtera.F64.c86_inferring",
    "Mixtera.F64.c86_redistribute",
    "Mixtera.F64.c86_redistribute_loop",
    "Mixtera.F64.c86_hierarchical_partial",
    "Mixtera.F64.c86_hierarchical_off_by_one"
   ],
   "note": "Proved for static and inferring mixtures and for the redistribution. Hierarchical mixtures violate the part about whole-number amounts (c86_hierarchical_off_by_one: 0.71/0.29 of 100 rows gives 72/28); c86_hierarchical_partial proves the total and the bounds. Overflow, infinities and NaN are not modelled."
  },
  {
   "property": "C87",
   "status": "partial",
   "theorems": [
    "Mixtera.F64.c87_window_counts",
    "Mixtera.F64.c87_strict",
    "Mixtera.F64.c87_best_effort_partial",
    "Mixtera.F64.c87_one_sample_stuck",
    "Mixtera.F64.c87_whole_chunk_off_by_one",
    "Mixtera.F64.c87_readers",
    "Mixtera.F64.c87_inferred",
    "Mixtera.F64.c87_inferred_loop"
   ],
   "note": "Strict windows, reader processes and the inferred mixture in full. Best effort is proved when every key's share is more than one sample per window; a share of exactly one sample can be rounded to none, and reading then never ends (c87_one_sample_stuck). A whole-number share can be one less (c87_whole_chunk_off_by_one), which the statement allows."
  },
  {
   "property": "C88",
   "status": "partial",
   "theorems": [
    "Mixtera.c88_restored_partial",
    "Mixtera.c88_restore_crash_partial",
    "Mixtera.c88_continued_partial",
    "Mixtera.c88_crash_partial",
    "Mixtera.c88_crash_idx",
    "Mixtera.c88_log_torn"
   ],
   "note": "The clause about chunk.idx is proved in full. The clauses about restores are proved under the conditions of C13 under which a checkpoint can be restored exactly (all answers chunks, changes of the mixture noticed), for mixture objects that stay with or without rows. mixture.log is overwritten in place, so it can be torn with chunks delivered (c88_log_torn): nothing then says with which mixtures they were made until the log is written again. The crash points are before, during and after each file write; writes reaching the disk out of order are not modelled."
  },
  {
   "property": "C89",
   "status": "proved",
   "theorems": [
    "Mixtera.F64.c89_shares",
    "Mixtera.F64.c89_every_domain",
    "Mixtera.F64.c89_small_chunk"
   ],
   "note": "Overflow, infinities and NaN are not modelled, and the policy before enforce_min_probability is arbitrary (its computation is in C50 and C74, in exact arithmetic). Chunks too small for the minimum probability get rows of zero samples, which the client cannot configure (c89_small_chunk, C76)."
  },
  {
   "property": "C90",
   "status": "proved",
   "theorems": [
    "Mixtera.Mixing.c90_step",
    "Mixtera.Mixing.c90_silent",
    "Mixtera.Mixing.c90_accepted",
    "Mixtera.Mixing.c90_average",
    "Mixtera.Mixing.c90_initial",
    "Mixtera.Mixing.c90_ado"
   ],
   "note": "Exact (rational) arithmetic; C89 treats rounding. The averaging part assumes what the training sends: as many losses as counts, no negative loss, and only domains whose keys are known. The transport between client and server is C60 and C77, the id a client sends is C59."
  },
  {
   "property": "C91",
   "status": "partial",
   "theorems": [
    "Mixtera.Mixing.c91_restored",
    "Mixtera.Mixing.c91_forgets",
    "Mixtera.Mixing.c91_kept_partial",
    "Mixtera.Mixing.c91_rows",
    "Mixtera.Mixing.c91_average",
    "Mixtera.Mixing.c91_reports_lost"
   ],
   "note": "The code does not have the full property: c91_reports_lost. Proved for every algorithm: what comes back is the mixture, algorithm and step of the last chunk with a new mixture (c91_restored), later feedback acts as if nothing after that had been reported (c91_forgets, c91_average), the rows are those of the last chunk (c91_rows), and all is kept if nothing was reported since (c91_kept_partial). Requests that are not answered with a chunk are C13. This is about to_cache and from_cache of the query result; the checkpoint of a job stores the current algorithm as well (C94)."
  },
  {
   "property": "C92",
   "status": "partial",
   "theorems": [
    "Mixtera.F32.c92_totals",
    "Mixtera.F32.c92_weights",
    "Mixtera.F32.c92_accepted",
    "Mixtera.F32.c92_no_losses",
    "Mixtera.F32.c92_ignored",
    "Mixtera.F32.c92_stuck"
   ],
   "note": "For any history: c92_totals bounds the accumulators with a factor (1 + 2^-23) per report. For up to a million reports and domains, averages in [2^-40, 2^40] and counts below 2^53: c92_weights, c92_no_losses, c92_accepted (the sum passes np.isclose). For long histories the code does not have the property: c92_ignored (a loss below half the last place of the total never counts), c92_stuck (a domain with the same average as another gets a fifth of the chunk)."
  },
  {
   "property": "C93",
   "status": "proved",
   "theorems": [
    "Mixtera.Mixing.c93_next",
    "Mixtera.Mixing.c93_average",
    "Mixtera.Mixing.c93_initial"
   ],
   "note": "c93_next holds for any algorithm (what is raised is ignored, as the server does); it composes the machine of C90 with the one of C10, without the restriction of C10 since feedback changes the mixture object in place. Numbers are rational (C89, C92 are about rounding). A best-effort chunk may have other shares where data has run out (C03, C11)."
  },
  {
   "property": "C94",
   "status": "partial",
   "theorems": [
    "Mixtera.Mixing.c94_learnt_partial",
    "Mixtera.Mixing.c94_next_partial",
    "Mixtera.Mixing.c94_average_partial",
    "Mixtera.Mixing.c94_rows_partial",
    "Mixtera.Mixing.c94_resumes",
    "Mixtera.Mixing.c94_stale",
    "Mixtera.Mixing.c94_early"
   ],
   "note": "The code does not have the full property: the mixture in force and the step can be old ones after a restart (c94_stale), and a checkpoint before the first chunk forgets all reports and even the job's mixture (c94_early). Proved for lives of any length without such early checkpoints: the algorithm is exactly the one of the uninterrupted history (c94_learnt_partial), the first report with which the algorithm decides on a mixture makes the whole mixture the one of that history (c94_next_partial; with averaging its shares are the average losses over all reports that remain, c94_average_partial), until then the rows are those of the last chunk before the checkpoint (c94_rows_partial); restoring always succeeds (c94_resumes). Every request is answered with a chunk (running out of data is C13); chunk contents are not in this model."
  },
  {
   "property": "C95",
   "status": "partial",
   "theorems": [
    "Mixtera.c95_ids_while_running",
    "Mixtera.c95_restored_answers_partial",
    "Mixtera.c95_restored_chunks_partial",
    "Mixtera.c95_many_restores_partial",
    "Mixtera.c95_same_domains_same_ids",
    "Mixtera.c95_other_ids",
    "Mixtera.c95_other_mixture"
   ],
   "note": "The ids while the job runs are proved without restriction (c95_ids_while_running). For the restored job: whatever the first mixture, chunks and mixture log are those of the uninterrupted job if at least one chunk was taken (c95_restored_chunks_partial), and this for any number of restores, each from a checkpoint right after a chunk (c95_many_restores_partial). The restored job's ids are those of the first mixture (c95_restored_answers_partial, for first mixtures that know all domains of the job's; in general the first mixture's ids are kept and others added), so they are the job's if both have the same domains (c95_same_domains_same_ids) and else not (c95_other_ids, a bug: execute_query resets the ids, from_checkpoint does not). Before the first chunk the restored job has the wrong mixture (c95_other_mixture). The restrictions of C13 (unanswered requests, unnoticed mixture changes) remain."
  }
 ]
}