'Mixtera.c01_serve_refines' depends on axioms: [propext, Quot.sound]
'Mixtera.c01_concatenation' depends on axioms: [propext, Quot.sound]
'Mixtera.c01_order' depends on axioms: [propext, Classical.choice, Quot.sound]
'Mixtera.c02_strict_chunk' depends on axioms: [propext, Classical.choice, Quot.sound]
'Mixtera.c03_best_effort_chunk' depends on axioms: [propext, Classical.choice, Quot.sound]
'Mixtera.c04_delivered_subperm' depends on axioms: [propext, Classical.choice, Quot.sound]
'Mixtera.c04_no_duplicates' depends on axioms: [propext, Classical.choice, Quot.sound]
'Mixtera.c05_listed_under_matching_key' depends on axioms: [propext, Classical.choice, Quot.sound]
'Mixtera.c06_ranges_sorted_disjoint' depends on axioms: [propext, Classical.choice, Quot.sound]
'Mixtera.c06_ranges_readable' depends on axioms: [propext, Classical.choice, Quot.sound]
'Mixtera.c06_files_listed' depends on axioms: [propext, Classical.choice, Quot.sound]
'Mixtera.c07_delivers_everything' depends on axioms: [propext, Classical.choice, Quot.sound]
'Mixtera.c07_chunk_shape' depends on axioms: [propext, Classical.choice, Quot.sound]
'Mixtera.c07_terminates_partial' depends on axioms: [propext, Classical.choice, Quot.sound]
'Mixtera.c07_endless_loop' depends on axioms: [propext, Classical.choice, Quot.sound]
'Mixtera.c07_endless_every_even' depends on axioms: [propext, Classical.choice, Quot.sound]
'Mixtera.c07_ends_iff_odd' depends on axioms: [propext, Classical.choice, Quot.sound]
'Mixtera.c08_schedule_independent' depends on axioms: [propext, Classical.choice, Quot.sound]
'Mixtera.c09_dictionary_order_irrelevant' depends on axioms: [propext, Classical.choice, Quot.sound]
'Mixtera.c10_update_applies_partial' depends on axioms: [propext, Classical.choice, Quot.sound]
'Mixtera.c10_feedback_applies_partial' depends on axioms: [propext, Classical.choice, Quot.sound]
'Mixtera.c10_update_ignored_after_none' depends on axioms: [propext, Classical.choice, Quot.sound]
'Mixtera.c11_best_effort_exhausts' depends on axioms: [propext, Classical.choice, Quot.sound]
'Mixtera.c11_best_effort_short' depends on axioms: [propext, Classical.choice, Quot.sound]
'Mixtera.c11_best_effort_delivers' depends on axioms: [propext, Classical.choice, Quot.sound]
'Mixtera.c12_strict_exhausts' depends on axioms: [propext, Classical.choice, Quot.sound]
'Mixtera.c12_strict_short' depends on axioms: [propext, Classical.choice, Quot.sound]
'Mixtera.c12_strict_delivers' depends on axioms: [propext, Classical.choice, Quot.sound]
'Mixtera.c13_restore_continues_partial' depends on axioms: [propext, Classical.choice, Quot.sound]
'Mixtera.c13_restore_fails_after_none' depends on axioms: [propext, Classical.choice, Quot.sound]
'Mixtera.c13_restore_diverges_unnoticed' depends on axioms: [propext, Classical.choice, Quot.sound]
'Mixtera.c13_restore_loses_pending_update' depends on axioms: [propext, Classical.choice, Quot.sound]
'Mixtera.c13_restore_from_files_partial' depends on axioms: [propext, Classical.choice, Quot.sound]
'Mixtera.c13_restore_schedule_repeats' depends on axioms: [propext, Classical.choice, Quot.sound]
'Mixtera.c14_chunk_keys_have_ids_partial' depends on axioms: [propext, Classical.choice, Quot.sound]
'Mixtera.c14_chunk_keys_known_partial' depends on axioms: [propext, Classical.choice, Quot.sound]
'Mixtera.c14_key_without_id' depends on axioms: [propext, Classical.choice, Quot.sound]
'Mixtera.c14_key_ids' depends on axioms: [propext, Classical.choice, Quot.sound]
'Mixtera.c14_order_independent' depends on axioms: [propext, Quot.sound]
'Mixtera.c15_construction' depends on axioms: [propext, Quot.sound]
'Mixtera.c15_zero_groups' does not depend on any axioms
'Mixtera.c15_nodes_see_same_chunks' depends on axioms: [propext, Classical.choice, Quot.sound]
'Mixtera.c16_partition' depends on axioms: [propext, Classical.choice, Quot.sound]
'Mixtera.c17_refines_unbounded_memory' depends on axioms: [propext, Classical.choice, Quot.sound]
'Mixtera.c17_cache_contents' depends on axioms: [propext, Classical.choice, Quot.sound]
'Mixtera.c17_cache_bound' depends on axioms: [propext, Classical.choice, Quot.sound]
'Mixtera.c17_single_node' depends on axioms: [propext, Classical.choice, Quot.sound]
'Mixtera.c17_no_internal_error' depends on axioms: [propext, Classical.choice, Quot.sound]
'Mixtera.c18_exhausted_unchanged' depends on axioms: [propext]
'Mixtera.c18_others_unaffected' depends on axioms: [propext]
'Mixtera.c19_rounds_partial' depends on axioms: [propext, Classical.choice, Quot.sound]
'Mixtera.c19_failed_validation_is_final' depends on axioms: [propext, Classical.choice, Quot.sound]
'Mixtera.c19_unknown_node_counts' does not depend on any axioms
'Mixtera.c19_fresh_after_restore' depends on axioms: [propext, Quot.sound]
'Mixtera.c20_resume' depends on axioms: [propext, Classical.choice, Quot.sound]
'Mixtera.c20_skip_is_largest_report' depends on axioms: [propext, Classical.choice, Quot.sound]
'Mixtera.c20_checkpoint_succeeds' depends on axioms: [propext, Classical.choice, Quot.sound]
'Mixtera.c20_checkpoint_after_restart_fails' depends on axioms: [propext]
'Mixtera.c21_static' depends on axioms: [propext, Classical.choice, Quot.sound]
'Mixtera.c21_static_renormalised' depends on axioms: [propext, Classical.choice, Quot.sound]
'Mixtera.c21_static_rejects' depends on axioms: [propext, Classical.choice, Quot.sound]
'Mixtera.c21_rounding_slack' depends on axioms: [propext, Classical.choice, Quot.sound]
'Mixtera.c21_tolerance' depends on axioms: [propext, Classical.choice, Quot.sound]
'Mixtera.c22_leaf_weights' depends on axioms: [propext, Classical.choice, Quot.sound]
'Mixtera.c22_rows' depends on axioms: [propext, Classical.choice, Quot.sound]
'Mixtera.c22_unnormalised_overfull' depends on axioms: [propext, Classical.choice, Quot.sound]
'Mixtera.c22_same_leaf_twice' depends on axioms: [propext, Classical.choice, Quot.sound]
'Mixtera.c22_no_components' depends on axioms: [propext, Classical.choice, Quot.sound]
'Mixtera.c23_index_order' depends on axioms: [propext, Classical.choice, Quot.sound]
'Mixtera.c23_restored' depends on axioms: [propext, Classical.choice, Quot.sound]
'Mixtera.c23_inferring' depends on axioms: [propext, Classical.choice, Quot.sound]
'Mixtera.c23_without_samples' depends on axioms: [propext, Classical.choice, Quot.sound]
'Mixtera.c24_current' depends on axioms: [propext, Classical.choice, Quot.sound]
'Mixtera.c24_never_back' depends on axioms: [propext, Classical.choice, Quot.sound]
'Mixtera.c24_process_index' depends on axioms: [propext, Classical.choice, Quot.sound]
'Mixtera.c24_current_informed' depends on axioms: [propext, Classical.choice, Quot.sound]
'Mixtera.c24_later_inferring_uninformed' depends on axioms: [propext, Classical.choice, Quot.sound]
'Mixtera.c24_rows_not_adjusted' does not depend on any axioms
'Mixtera.c24_chunks' depends on axioms: [propext, Classical.choice, Quot.sound]
'Mixtera.c24_strictness_ignored' depends on axioms: [propext, Classical.choice, Quot.sound]
'Mixtera.c25_update' depends on axioms: [propext, Classical.choice, Quot.sound]
'Mixtera.c25_distribution_accepted' depends on axioms: [propext, Classical.choice, Quot.sound]
'Mixtera.c25_not_distribution' depends on axioms: [propext, Classical.choice, Quot.sound]
'Mixtera.c25_rows_sum' depends on axioms: [propext, Classical.choice, Quot.sound]
'Mixtera.c25_initial_not_adjusted' depends on axioms: [propext, Quot.sound]
'Mixtera.c25_zero_rows' depends on axioms: [propext, Classical.choice, Quot.sound]
'Mixtera.c26_strict_total_order' depends on axioms: [propext, Classical.choice, Quot.sound]
'Mixtera.c26_generator_order' depends on axioms: [propext, Classical.choice, Quot.sound]
'Mixtera.c26_canonical_form' depends on axioms: [propext, Classical.choice, Quot.sound]
'Mixtera.c27_same_contents_same_text' depends on axioms: [propext, Classical.choice, Quot.sound]
'Mixtera.c27_text_iff_contents_partial' depends on axioms: [propext, Classical.choice, Quot.sound]
'Mixtera.c27_colon_collision' depends on axioms: [propext, Classical.choice, Quot.sound]
'Mixtera.c27_empty_collision' depends on axioms: [propext, Classical.choice, Quot.sound]
'Mixtera.c28_match_iff' depends on axioms: [propext, Quot.sound]
'Mixtera.c28_same_contents_match' depends on axioms: [propext, Quot.sound]
'Mixtera.c28_monotone' depends on axioms: [propext, Quot.sound]
'Mixtera.c28_order_independent' depends on axioms: [propext, Quot.sound]
'Mixtera.c28_not_an_equivalence' depends on axioms: [propext]
'Mixtera.c29_merge_sorted_lists' depends on axioms: [propext, Classical.choice, Quot.sound]
'Mixtera.c30_distribute_by_ratio' depends on axioms: [propext, Classical.choice, Quot.sound]
'Mixtera.c30_distribute_by_ratio_small' depends on axioms: [propext, Classical.choice, Quot.sound]
'Mixtera.c30_distribute_rejects' depends on axioms: [propext, Classical.choice, Quot.sound]
'Mixtera.c31_round_trip' depends on axioms: [propext, Classical.choice, Quot.sound]
'Mixtera.c31_empty_key_lost' depends on axioms: [propext]
'Mixtera.c32_coverage' depends on axioms: [propext, Classical.choice, Quot.sound]
'Mixtera.c32_sorted_disjoint_maximal' depends on axioms: [propext, Classical.choice, Quot.sound]
'Mixtera.c32_maximal_runs' depends on axioms: [propext, Classical.choice, Quot.sound]
'Mixtera.c32_scan_order' depends on axioms: [propext, Classical.choice, Quot.sound]
'Mixtera.c33_cpp_index' depends on axioms: [propext, Classical.choice, Quot.sound]
'Mixtera.c33_rejects' depends on axioms: [propext, Classical.choice, Quot.sound]
'Mixtera.c33_index_partial' depends on axioms: [propext, Classical.choice, Quot.sound]
'Mixtera.c33_thread_independent' depends on axioms: [propext, Classical.choice, Quot.sound]
'Mixtera.c33_value_order_loses' depends on axioms: [propext, Classical.choice, Quot.sound]
'Mixtera.c33_selected_samples_partial' depends on axioms: [propext, Classical.choice, Quot.sound]
'Mixtera.c33_any_values' depends on axioms: [propext, Classical.choice, Quot.sound]
'Mixtera.c33_any_values_sorted' depends on axioms: [propext, Classical.choice, Quot.sound]
'Mixtera.c33_any_survivor' depends on axioms: [propext, Classical.choice, Quot.sound]
'Mixtera.c33_complete_iff' depends on axioms: [propext, Classical.choice, Quot.sound]
'Mixtera.c34_round_trip_partial' depends on axioms: [propext, Quot.sound]
'Mixtera.c34_separators' depends on axioms: [propext, Classical.choice, Quot.sound]
'Mixtera.c34_round_trip_iff' depends on axioms: [propext, Classical.choice, Quot.sound]
'Mixtera.c35_exact_meaning' depends on axioms: [propext, Classical.choice, Quot.sound]
'Mixtera.c35_or_of_ands_partial' depends on axioms: [propext, Classical.choice, Quot.sound]
'Mixtera.c35_empty_select_ignored' depends on axioms: [propext, Classical.choice, Quot.sound]
'Mixtera.c35_none_in_list' depends on axioms: [propext, Classical.choice, Quot.sound]
'Mixtera.c35_ordering_on_list_column' depends on axioms: [propext, Classical.choice, Quot.sound]
'Mixtera.c36_keeps_others' depends on axioms: [propext, Classical.choice, Quot.sound]
'Mixtera.c36_stored' depends on axioms: [propext, Classical.choice, Quot.sound]
'Mixtera.c36_second_hit' depends on axioms: [propext, Classical.choice, Quot.sound]
'Mixtera.c36_text_identifies_query' depends on axioms: [propext, Classical.choice, Quot.sound]
'Mixtera.c36_hit' depends on axioms: [propext, Classical.choice, Quot.sound]
'Mixtera.c36_current_result_partial' depends on axioms: [propext, Classical.choice, Quot.sound]
'Mixtera.c36_crashed_remove' depends on axioms: [propext, Classical.choice, Quot.sound]
'Mixtera.c36_race' depends on axioms: [propext, Classical.choice, Quot.sound]
'Mixtera.c36_lost_update' depends on axioms: [propext, Classical.choice, Quot.sound]
'Mixtera.c36_torn_metadata_blocks' depends on axioms: [propext, Classical.choice, Quot.sound]
'Mixtera.c37_only_that_dataset' depends on axioms: [propext, Classical.choice, Quot.sound]
'Mixtera.c37_crash' depends on axioms: [propext, Classical.choice, Quot.sound]
'Mixtera.c37_register_iff' depends on axioms: [propext, Classical.choice, Quot.sound]
'Mixtera.c37_register_adds' depends on axioms: [propext, Classical.choice, Quot.sound]
'Mixtera.c37_register_taken' depends on axioms: [propext, Classical.choice, Quot.sound]
'Mixtera.c37_no_files_keeps_name' depends on axioms: [propext, Classical.choice, Quot.sound]
'Mixtera.c37_remove' depends on axioms: [propext, Classical.choice, Quot.sound]
'Mixtera.c37_round_trip' depends on axioms: [propext, Classical.choice, Quot.sound]
'Mixtera.c38_round_robin' depends on axioms: [propext, Classical.choice, Quot.sound]
'Mixtera.c38_every_sample_once' depends on axioms: [propext, Classical.choice, Quot.sound]
'Mixtera.c39_window_samples' depends on axioms: [propext, Classical.choice, Quot.sound]
'Mixtera.c39_full_window' depends on axioms: [propext, Classical.choice, Quot.sound]
'Mixtera.c39_no_repeats' depends on axioms: [propext, Classical.choice, Quot.sound]
'Mixtera.c39_strict' depends on axioms: [propext, Classical.choice, Quot.sound]
'Mixtera.c39_best_effort_partial' depends on axioms: [propext, Classical.choice, Quot.sound]
'Mixtera.c39_best_effort_stuck' depends on axioms: [propext, Classical.choice, Quot.sound]
'Mixtera.c39_counts' depends on axioms: [propext, Classical.choice, Quot.sound]
'Mixtera.c39_small_share_stuck' depends on axioms: [propext, Classical.choice, Quot.sound]
'Mixtera.c40_skip' depends on axioms: [propext, Quot.sound]
'Mixtera.c40_index' depends on axioms: [propext, Quot.sound]
'Mixtera.c40_resume' depends on axioms: [propext, Quot.sound]
'Mixtera.c41_deterministic_partial' depends on axioms: [propext, Classical.choice, Quot.sound]
'Mixtera.c41_all_samples_partial' depends on axioms: [propext, Classical.choice, Quot.sound]
'Mixtera.c41_no_wrong_samples' depends on axioms: [propext, Quot.sound]
'Mixtera.c41_partitions' depends on axioms: [propext, Quot.sound]
'Mixtera.c41_like_one_process_partial' depends on axioms: [propext, Classical.choice, Quot.sound]
'Mixtera.c41_workload' depends on axioms: [propext, Quot.sound]
'Mixtera.c41_chunk_samples_partial' depends on axioms: [propext, Classical.choice, Quot.sound]
'Mixtera.c41_timeout_race' depends on axioms: [propext]
'Mixtera.c41_crash_loses' depends on axioms: [propext]
'Mixtera.c41_marker_loses' depends on axioms: [propext]
'Mixtera.c41_slow_reader_partial' depends on axioms: [propext, Quot.sound]
'Mixtera.c41_process_counts' depends on axioms: [propext, Classical.choice, Quot.sound]
'Mixtera.c42_windows' depends on axioms: [propext, Classical.choice, Quot.sound]
'Mixtera.c42_covers' depends on axioms: [propext, Classical.choice, Quot.sound]
'Mixtera.c43_same_samples_partial' depends on axioms: [propext, Classical.choice, Quot.sound]
'Mixtera.c43_terminates_partial' depends on axioms: [propext, Classical.choice, Quot.sound]
'Mixtera.c43_exception_hangs' depends on axioms: [propext]
'Mixtera.c44_same_partial' depends on axioms: [propext]
'Mixtera.c44_none' depends on axioms: [propext]
'Mixtera.c44_exception' depends on axioms: [propext]
'Mixtera.c45_lines' depends on axioms: [propext, Classical.choice, Quot.sound]
'Mixtera.c45_rejects' depends on axioms: [propext, Quot.sound]
'Mixtera.c45_web' depends on axioms: [propext, Classical.choice, Quot.sound]
'Mixtera.c45_web_missing' depends on axioms: [propext, Classical.choice, Quot.sound]
'Mixtera.c46_rows' depends on axioms: [propext, Classical.choice, Quot.sound]
'Mixtera.c46_unsorted_loses' depends on axioms: [propext]
'Mixtera.Net.c47_int' depends on axioms: [propext, Classical.choice, Quot.sound]
'Mixtera.Net.c47_bytes_partial' depends on axioms: [propext, Classical.choice, Quot.sound]
'Mixtera.Net.c47_empty_bytes' depends on axioms: [propext, Classical.choice, Quot.sound]
'Mixtera.Net.c47_coded_partial' depends on axioms: [propext, Classical.choice, Quot.sound]
'Mixtera.Net.c47_float' depends on axioms: [propext, Classical.choice, Quot.sound]
'Mixtera.Net.c47_array_partial' depends on axioms: [propext, Classical.choice, Quot.sound]
'Mixtera.Net.c47_sign_bit' depends on axioms: [propext, Classical.choice, Quot.sound]
'Mixtera.Net.c47_too_long' depends on axioms: [propext, Quot.sound]
'Mixtera.Net.c47_conversation_partial' depends on axioms: [propext, Classical.choice, Quot.sound]
'Mixtera.Net.c48_read_bytes' depends on axioms: [propext, Classical.choice, Quot.sound]
'Mixtera.Net.c48_fragmentation' depends on axioms: [propext, Classical.choice, Quot.sound]
'Mixtera.Net.c48_delays' depends on axioms: [propext, Classical.choice, Quot.sound]
'Mixtera.Net.c48_cut_partial' depends on axioms: [propext, Classical.choice, Quot.sound]
'Mixtera.Net.c48_cut_after_header' depends on axioms: [propext, Classical.choice, Quot.sound]
'Mixtera.Net.c48_closed' depends on axioms: [propext, Classical.choice, Quot.sound]
'Mixtera.Mixing.c49_accumulate' depends on axioms: [propext, Classical.choice, Quot.sound]
'Mixtera.Mixing.c49_newer_mixture' depends on axioms: [propext, Quot.sound]
'Mixtera.Mixing.c49_half_applied' depends on axioms: [propext, Classical.choice, Quot.sound]
'Mixtera.Mixing.c49_algorithms' depends on axioms: [propext, Classical.choice, Quot.sound]
'Mixtera.Mixing.c50_mixture_partial' depends on axioms: [propext, Classical.choice, Quot.sound]
'Mixtera.Mixing.c50_below_minimum' depends on axioms: [propext, Classical.choice, Quot.sound]
'Mixtera.Mixing.c50_undisturbed' depends on axioms: [propext, Classical.choice, Quot.sound]
'Mixtera.Mixing.c50_new_domain_fails' depends on axioms: [propext, Classical.choice, Quot.sound]
'Mixtera.Mixing.c50_short_report_fails' depends on axioms: [propext, Classical.choice, Quot.sound]
'Mixtera.Meta.c51_reserved' depends on axioms: [propext, Classical.choice, Quot.sound]
'Mixtera.Meta.c51_accepts_partial' depends on axioms: [propext, Classical.choice, Quot.sound]
'Mixtera.Meta.c51_required' depends on axioms: [propext, Classical.choice, Quot.sound]
'Mixtera.Meta.c51_undeclared' depends on axioms: [propext, Classical.choice, Quot.sound]
'Mixtera.Meta.c51_reserved_name' depends on axioms: [propext, Classical.choice, Quot.sound]
'Mixtera.Meta.c51_empty_list' depends on axioms: [propext]
'Mixtera.Meta.c51_imagenet_missing' depends on axioms: [propext, Classical.choice, Quot.sound]
'Mixtera.Srv.c52_first_wins' depends on axioms: [propext, Classical.choice, Quot.sound]
'Mixtera.Srv.c52_at_most_one' depends on axioms: [propext, Classical.choice, Quot.sound]
'Mixtera.Srv.c52_jobs_separate' depends on axioms: [propext, Classical.choice, Quot.sound]
'Mixtera.Srv.c52_status_success' depends on axioms: [propext, Classical.choice, Quot.sound]
'Mixtera.Srv.c52_no_deadlock' depends on axioms: [propext, Classical.choice, Quot.sound]
'Mixtera.Srv.c52_status_misleading' depends on axioms: [propext]
'Mixtera.Srv.c52_local_race' depends on axioms: [propext]
'Mixtera.Calc.c53_results_partial' depends on axioms: [propext, Classical.choice, Quot.sound]
'Mixtera.Calc.c53_batch_size' depends on axioms: [propext, Classical.choice, Quot.sound]
'Mixtera.Calc.c53_succeeds' depends on axioms: [propext, Quot.sound]
'Mixtera.Calc.c53_parallel_refused' depends on axioms: [propext, Classical.choice, Quot.sound]
'Mixtera.Calc.c53_never_stored' depends on axioms: [propext, Classical.choice, Quot.sound]
'Mixtera.Mixing.c54_average' depends on axioms: [propext, Classical.choice, Quot.sound]
'Mixtera.Mixing.c54_returned' depends on axioms: [propext, Classical.choice, Quot.sound]
'Mixtera.Meta.c55_numbering' depends on axioms: [propext, Classical.choice, Quot.sound]
'Mixtera.Meta.c55_batches' depends on axioms: [propext, Classical.choice, Quot.sound]
'Mixtera.Meta.c55_same_sample' depends on axioms: [propext, Classical.choice, Quot.sound]
'Mixtera.Srv.c56_coherent' depends on axioms: [propext, Classical.choice, Quot.sound]
'Mixtera.Srv.c56_restored' depends on axioms: [propext, Classical.choice, Quot.sound]
'Mixtera.Srv.c56_failed' depends on axioms: [propext, Classical.choice, Quot.sound]
'Mixtera.Srv.c56_early_status' depends on axioms: [propext]
'Mixtera.Srv.c56_switching' depends on axioms: [propext]
'Mixtera.Net.c60_request' depends on axioms: [propext, Classical.choice, Quot.sound]
'Mixtera.Net.c60_cut' depends on axioms: [propext, Classical.choice, Quot.sound]
'Mixtera.Net.c60_reply' depends on axioms: [propext, Classical.choice, Quot.sound]
'Mixtera.Net.c60_call' depends on axioms: [propext, Classical.choice, Quot.sound]
'Mixtera.Net.c60_handler_raises' depends on axioms: [propext, Classical.choice, Quot.sound]
'Mixtera.Net.c60_any_network' depends on axioms: [propext, Classical.choice, Quot.sound]
'Mixtera.Net.c60_acts_on_cut_request' depends on axioms: [propext]
'Mixtera.c61_told' depends on axioms: [propext, Classical.choice, Quot.sound]
'Mixtera.c61_accepted' depends on axioms: [propext, Classical.choice, Quot.sound]
'Mixtera.c61_kept' depends on axioms: [propext, Classical.choice, Quot.sound]
'Mixtera.c61_stay' depends on axioms: [propext, Classical.choice, Quot.sound]
'Mixtera.c61_not_told_again' depends on axioms: [propext, Classical.choice, Quot.sound]
'Mixtera.Net.c57_same_as_local' depends on axioms: [propext, Classical.choice, Quot.sound]
'Mixtera.Net.c57_any_network' depends on axioms: [propext, Classical.choice, Quot.sound]
'Mixtera.Net.c57_stream' depends on axioms: [propext, Classical.choice, Quot.sound]
'Mixtera.Net.c57_lost_chunk' depends on axioms: [propext]
'Mixtera.Net.c58_lines' depends on axioms: [propext]
'Mixtera.Net.c58_rows' depends on axioms: [propext, Classical.choice, Quot.sound]
'Mixtera.Net.c58_same_samples' depends on axioms: [propext, Classical.choice, Quot.sound]
'Mixtera.Net.c58_any_network' depends on axioms: [propext, Classical.choice, Quot.sound]
'Mixtera.Net.c58_silently_missing' depends on axioms: [propext, Classical.choice, Quot.sound]
'Mixtera.Net.c58_phantom_line' depends on axioms: [propext, Classical.choice, Quot.sound]
'Mixtera.Torch.c59_current_id' depends on axioms: [propext, Classical.choice, Quot.sound]
'Mixtera.Torch.c59_monotone' depends on axioms: [propext, Quot.sound]
'Mixtera.Torch.c59_feedback' depends on axioms: [propext, Classical.choice, Quot.sound]
'Mixtera.Torch.c59_gone_while_streaming' does not depend on any axioms
'Mixtera.Torch.c62_resume_partial' depends on axioms: [propext, Classical.choice, Quot.sound]
'Mixtera.Torch.c62_no_gap_partial' depends on axioms: [propext, Classical.choice, Quot.sound]
'Mixtera.Torch.c62_stale_status_loses' depends on axioms: [propext]
'Mixtera.Torch.c62_prefetched_lost' depends on axioms: [propext, Quot.sound]
'Mixtera.c63_index_partial' depends on axioms: [propext, Classical.choice, Quot.sound]
'Mixtera.c63_training_partial' depends on axioms: [propext, Classical.choice, Quot.sound]
'Mixtera.c63_complete_partial' depends on axioms: [propext, Classical.choice, Quot.sound]
'Mixtera.c63_value_order_loses' depends on axioms: [propext, Classical.choice, Quot.sound]
'Mixtera.c63_index_any_values' depends on axioms: [propext, Classical.choice, Quot.sound]
'Mixtera.c63_index_value_orders' depends on axioms: [propext, Classical.choice, Quot.sound]
'Mixtera.c63_training_value_orders' depends on axioms: [propext, Classical.choice, Quot.sound]
'Mixtera.c63_training_any_values' depends on axioms: [propext, Classical.choice, Quot.sound]
'Mixtera.c63_complete_any_values' depends on axioms: [propext, Classical.choice, Quot.sound]
'Mixtera.c63_shared_text_unreadable' depends on axioms: [propext, Classical.choice, Quot.sound]
'Mixtera.Mixing.c64_fitted_history' depends on axioms: [propext, Classical.choice, Quot.sound]
'Mixtera.Mixing.c64_recorded' depends on axioms: [propext, Classical.choice, Quot.sound]
'Mixtera.Mixing.c64_v2_catches_up' depends on axioms: [propext, Quot.sound]
'Mixtera.Mixing.c64_credit_only_newer' depends on axioms: [propext, Classical.choice, Quot.sound]
'Mixtera.Mixing.c64_v3_waits' depends on axioms: [propext, Classical.choice, Quot.sound]
'Mixtera.Mixing.c64_new_laws_answer' depends on axioms: [propext, Classical.choice, Quot.sound]
'Mixtera.Shm.c65_status' depends on axioms: [propext, Quot.sound]
'Mixtera.Shm.c65_unlinked' depends on axioms: [propext, Classical.choice, Quot.sound]
'Mixtera.Shm.c65_last_unlinks' depends on axioms: [propext, Classical.choice, Quot.sound]
'Mixtera.Shm.c65_fork_again' depends on axioms: [propext, Quot.sound]
'Mixtera.Shm.c65_spawn_once' depends on axioms: [propext]
'Mixtera.Shm.c65_in_main_once' depends on axioms: [propext]
'Mixtera.Shm.c65_too_few' depends on axioms: [propext, Classical.choice, Quot.sound]
'Mixtera.Shm.c65_too_many' depends on axioms: [propext, Classical.choice, Quot.sound]
'Mixtera.Shm.c65_unlinked_once' depends on axioms: [propext]
'Mixtera.HF.c66_accepted' depends on axioms: [propext, Classical.choice, Quot.sound]
'Mixtera.HF.c66_intended' depends on axioms: [propext, Classical.choice, Quot.sound]
'Mixtera.HF.c66_distinct' depends on axioms: [propext, Classical.choice, Quot.sound]
'Mixtera.HF.c66_unsplit_raises' depends on axioms: [propext, Classical.choice, Quot.sound]
'Mixtera.HF.c66_wrong_number' depends on axioms: [propext, Classical.choice, Quot.sound]
'Mixtera.Reg.c67_true' depends on axioms: [propext, Quot.sound]
'Mixtera.Reg.c67_own_task' depends on axioms: [propext, Quot.sound]
'Mixtera.Reg.c67_false_partial' depends on axioms: [propext, Quot.sound]
'Mixtera.Reg.c67_next_poll' depends on axioms: [propext, Quot.sound]
'Mixtera.Reg.c67_restart_waits_forever' depends on axioms: [propext, Quot.sound]
'Mixtera.Reg.c67_lost_answer' depends on axioms: [propext, Quot.sound]
'Mixtera.Reg.c67_wait' depends on axioms: [propext, Quot.sound]
'Mixtera.c69_ids' depends on axioms: [propext, Classical.choice, Quot.sound]
'Mixtera.c69_monotone' depends on axioms: [propext, Classical.choice, Quot.sound]
'Mixtera.c69_first' depends on axioms: [propext, Classical.choice, Quot.sound]
'Mixtera.Find.c68_sound' depends on axioms: [propext]
'Mixtera.Find.c68_complete' depends on axioms: [propext, Quot.sound]
'Mixtera.Find.c68_decides_partial' depends on axioms: [propext, Classical.choice, Quot.sound]
'Mixtera.Find.c68_endless_partial' depends on axioms: [propext, Quot.sound]
'Mixtera.Find.c68_wrapped' depends on axioms: [propext, Classical.choice, Quot.sound]
'Mixtera.Find.c68_recover' depends on axioms: [propext, Quot.sound]
'Mixtera.Find.c68_direct' depends on axioms: [propext]
'Mixtera.Find.c68_found_partial' depends on axioms: [propext, Classical.choice, Quot.sound]
'Mixtera.Find.c68_not_installed' depends on axioms: [propext]
'Mixtera.Find.c68_nested_partial' depends on axioms: [propext, Quot.sound]
'Mixtera.CkRun.c70_barrier' depends on axioms: [propext, Classical.choice, Quot.sound]
'Mixtera.CkRun.c70_id_file' depends on axioms: [propext, Classical.choice, Quot.sound]
'Mixtera.CkRun.c70_durable' depends on axioms: [propext, Classical.choice, Quot.sound]
'Mixtera.CkRun.c70_restorable_partial' depends on axioms: [propext, Classical.choice, Quot.sound]
'Mixtera.CkRun.c70_starts' depends on axioms: [propext, Classical.choice, Quot.sound]
'Mixtera.CkRun.c70_restore_complete' depends on axioms: [propext, Quot.sound]
'Mixtera.CkRun.c70_next_number' depends on axioms: [propext, Quot.sound]
'Mixtera.CkRun.c70_first_unfinished_partial' depends on axioms: [propext, Quot.sound]
'Mixtera.CkRun.c70_other_query_partial' depends on axioms: [propext, Quot.sound]
'Mixtera.CkRun.c70_id_before_data_partial' depends on axioms: [propext, Quot.sound]
'Mixtera.CkRun.c70_uncached_partial' depends on axioms: [propext, Quot.sound]
'Mixtera.CkRun.c70_cache_removed_partial' depends on axioms: [propext, Classical.choice, Quot.sound]
'Mixtera.CkRun.c70_cache_replaced_partial' depends on axioms: [propext, Quot.sound]
'Mixtera.Files.c71_directory' depends on axioms: [propext, Classical.choice, Quot.sound]
'Mixtera.Files.c71_spelling' depends on axioms: [propext, Classical.choice, Quot.sound]
'Mixtera.Files.c71_file' depends on axioms: [propext, Classical.choice, Quot.sound]
'Mixtera.Files.c71_missing' depends on axioms: [propext, Classical.choice, Quot.sound]
'Mixtera.Files.c71_relative' depends on axioms: [propext, Classical.choice, Quot.sound]
'Mixtera.Files.c71_scheme_partial' depends on axioms: [propext, Classical.choice, Quot.sound]
'Mixtera.Files.c71_registers' depends on axioms: [propext, Classical.choice, Quot.sound]
'Mixtera.Web.c72_partition' depends on axioms: [propext, Classical.choice, Quot.sound]
'Mixtera.Web.c72_one_key' depends on axioms: [propext, Classical.choice, Quot.sound]
'Mixtera.Web.c72_maximal' depends on axioms: [propext, Classical.choice, Quot.sound]
'Mixtera.Web.c72_item_partial' depends on axioms: [propext, Classical.choice, Quot.sound]
'Mixtera.Web.c72_succeeds' depends on axioms: [propext, Classical.choice, Quot.sound]
'Mixtera.Web.c72_fails' depends on axioms: [propext, Classical.choice, Quot.sound]
'Mixtera.Web.c72_range' depends on axioms: [propext, Classical.choice, Quot.sound]
'Mixtera.Web.c72_same' depends on axioms: [propext, Classical.choice, Quot.sound]
'Mixtera.Web.c72_gz_unknown' depends on axioms: [propext, Classical.choice, Quot.sound]
'Mixtera.Web.c72_repeated_loses' depends on axioms: [propext, Classical.choice, Quot.sound]
'Mixtera.Meta.c73_slim' depends on axioms: [propext, Classical.choice, Quot.sound]
'Mixtera.Meta.c73_pile' depends on axioms: [propext, Classical.choice, Quot.sound]
'Mixtera.Meta.c73_fineweb' depends on axioms: [propext, Classical.choice, Quot.sound]
'Mixtera.Meta.c73_coco' depends on axioms: [propext, Classical.choice, Quot.sound]
'Mixtera.Meta.c73_redpajama' depends on axioms: [propext, Classical.choice, Quot.sound]
'Mixtera.Meta.c73_null_meta' depends on axioms: [propext, Classical.choice, Quot.sound]
'Mixtera.Meta.c73_factory' depends on axioms: [propext, Quot.sound]
'Mixtera.Mixing.c74_mixture' depends on axioms: [propext, Classical.choice, Quot.sound]
'Mixtera.Mixing.c74_slope' depends on axioms: [propext, Classical.choice, Quot.sound]
'Mixtera.Mixing.c74_preference' depends on axioms: [propext, Classical.choice, Quot.sound]
'Mixtera.Mixing.c75_fitted' depends on axioms: [propext, Classical.choice, Quot.sound]
'Mixtera.Mixing.c75_succeeds' depends on axioms: [propext, Classical.choice, Quot.sound]
'Mixtera.Mixing.c75_isolated' depends on axioms: [propext, Classical.choice, Quot.sound]
'Mixtera.Mixing.c75_defined' depends on axioms: [propext, Classical.choice, Quot.sound]
'Mixtera.Mixing.c75_mixture' depends on axioms: [propext, Classical.choice, Quot.sound]
'Mixtera.Mixing.c75_undisturbed' depends on axioms: [propext, Classical.choice, Quot.sound]
'Mixtera.Mixing.c75_too_little' depends on axioms: [propext, Classical.choice, Quot.sound]
'Mixtera.Mixing.c75_first_fit_empty_partial' depends on axioms: [propext, Classical.choice, Quot.sound]
'Mixtera.Mixing.c75_exact' depends on axioms: [propext, Classical.choice, Quot.sound]
'Mixtera.Mixing.c75_range' depends on axioms: [propext, Classical.choice, Quot.sound]
'Mixtera.Mixing.c75_beats_guesses' depends on axioms: [propext, Classical.choice, Quot.sound]
'Mixtera.c76_listed' depends on axioms: [propext, Classical.choice, Quot.sound]
'Mixtera.c76_configures_partial' depends on axioms: [propext, Classical.choice, Quot.sound]
'Mixtera.c76_settings' depends on axioms: [propext, Classical.choice, Quot.sound]
'Mixtera.c76_mixture' depends on axioms: [propext, Classical.choice, Quot.sound]
'Mixtera.c76_zero_row_fails' depends on axioms: [propext, Classical.choice, Quot.sound]
'Mixtera.c76_single_process' depends on axioms: [propext, Quot.sound]
'Mixtera.c76_read_partial' depends on axioms: [propext, Classical.choice, Quot.sound]
'Mixtera.c76_windows_partial' depends on axioms: [propext, Classical.choice, Quot.sound]
'Mixtera.Net.c77_connected' depends on axioms: [propext, Quot.sound]
'Mixtera.Net.c77_unreachable' depends on axioms: [propext, Quot.sound]
'Mixtera.Net.c77_exception_partial' depends on axioms: [propext, Quot.sound]
'Mixtera.Net.c77_once' depends on axioms: [propext, Quot.sound]
'Mixtera.Net.c77_exception_lost' depends on axioms: [propext]
'Mixtera.Net.c77_call' depends on axioms: [propext, Quot.sound]
'Mixtera.Net.c77_positive' depends on axioms: [propext, Classical.choice, Quot.sound]
'Mixtera.Net.c77_unreachable_value' depends on axioms: [propext, Quot.sound]
'Mixtera.Net.c77_no_answer' depends on axioms: [propext, Quot.sound]
'Mixtera.Net.c77_restore_silent' depends on axioms: [propext, Quot.sound]
'Mixtera.Net.c77_idle' depends on axioms: [propext, Classical.choice, Quot.sound]
'Mixtera.c78_scan_order_partial' depends on axioms: [propext, Classical.choice, Quot.sound]
'Mixtera.c78_database_partial' depends on axioms: [propext, Classical.choice, Quot.sound]
'Mixtera.c78_inferring_partial' depends on axioms: [propext, Classical.choice, Quot.sound]
'Mixtera.c78_inferring_varies' depends on axioms: [propext, Classical.choice, Quot.sound]
'Mixtera.c78_key_order' depends on axioms: [propext, Classical.choice, Quot.sound]
'Mixtera.c78_same_chunks_partial' depends on axioms: [propext, Classical.choice, Quot.sound]
'Mixtera.c78_reading' depends on axioms: [propext, Classical.choice, Quot.sound]
'Mixtera.c78_read_once_partial' depends on axioms: [propext, Classical.choice, Quot.sound]
'Mixtera.c78_resets_generator' depends on axioms: [propext, Classical.choice, Quot.sound]
'Mixtera.c78_chunk_order_matters' depends on axioms: [propext, Classical.choice, Quot.sound]
'Mixtera.c78_database_iff' depends on axioms: [propext, Classical.choice, Quot.sound]
'Mixtera.c78_value_orders_vary' depends on axioms: [propext, Classical.choice, Quot.sound]
'Mixtera.Torch.c79_restored_source_partial' depends on axioms: [propext, Classical.choice, Quot.sound]
'Mixtera.Torch.c79_restarts_partial' depends on axioms: [propext, Classical.choice, Quot.sound]
'Mixtera.Torch.c79_restart_repeats_partial' depends on axioms: [propext, Classical.choice, Quot.sound]
'Mixtera.Torch.c79_restarts_complete_partial' depends on axioms: [propext, Classical.choice, Quot.sound]
'Mixtera.Torch.c79_once' depends on axioms: [propext, Classical.choice, Quot.sound]
'Mixtera.Torch.c79_replicas' depends on axioms: [propext, Classical.choice, Quot.sound]
'Mixtera.Torch.c79_key_ids' depends on axioms: [propext, Classical.choice, Quot.sound]
'Mixtera.Torch.c79_failures' depends on axioms: [propext, Classical.choice, Quot.sound]
'Mixtera.Torch.c79_complete' depends on axioms: [propext, Classical.choice, Quot.sound]
'Mixtera.Torch.c79_composition' depends on axioms: [propext, Classical.choice, Quot.sound]
'Mixtera.Torch.c79_simple_reading' depends on axioms: [propext, Classical.choice, Quot.sound]
'Mixtera.Torch.c79_any_streams' depends on axioms: [propext, Classical.choice, Quot.sound]
'Mixtera.Torch.c79_reader_processes_partial' depends on axioms: [propext, Classical.choice, Quot.sound]
'Mixtera.Torch.c79_any_reading' depends on axioms: [propext, Classical.choice, Quot.sound]
'Mixtera.Torch.c79_database_partial' depends on axioms: [propext, Classical.choice, Quot.sound]
'Mixtera.Torch.c79_database_complete_partial' depends on axioms: [propext, Classical.choice, Quot.sound]
'Mixtera.Torch.c79_database_any_values' depends on axioms: [propext, Classical.choice, Quot.sound]
'Mixtera.Torch.c79_database_complete_any_values' depends on axioms: [propext, Classical.choice, Quot.sound]
'Mixtera.Torch.c79_database_value_orders' depends on axioms: [propext, Classical.choice, Quot.sound]
'Mixtera.c80_log_partial' depends on axioms: [propext, Classical.choice, Quot.sound]
'Mixtera.c80_ids_partial' depends on axioms: [propext, Classical.choice, Quot.sound]
'Mixtera.c80_chunk_idx' depends on axioms: [propext, Classical.choice, Quot.sound]
'Mixtera.c80_curr_chunk_idx_partial' depends on axioms: [propext, Classical.choice, Quot.sound]
'Mixtera.c80_schedule_rewrites_log' depends on axioms: [propext, Classical.choice, Quot.sound]
'Mixtera.Jobs.c81_isolation' depends on axioms: [propext, Classical.choice, Quot.sound]
'Mixtera.Jobs.c81_running' depends on axioms: [propext, Classical.choice, Quot.sound]
'Mixtera.Jobs.c81_checkpoints_partial' depends on axioms: [propext, Classical.choice, Quot.sound]
'Mixtera.Jobs.c81_shared_mixture_partial' depends on axioms: [propext, Classical.choice, Quot.sound]
'Mixtera.Jobs.c81_checkpoint_of_other_data_partial' depends on axioms: [propext, Classical.choice, Quot.sound]
'Mixtera.c82_reused_like_fresh' depends on axioms: [propext, Classical.choice, Quot.sound]
'Mixtera.c82_reused_table_partial' depends on axioms: [propext, Classical.choice, Quot.sound]
'Mixtera.c82_execute_query_partial' depends on axioms: [propext, Classical.choice, Quot.sound]
'Mixtera.Torch.c83_restarts_partial' depends on axioms: [propext, Classical.choice, Quot.sound]
'Mixtera.Torch.c83_restarts_complete_partial' depends on axioms: [propext, Classical.choice, Quot.sound]
'Mixtera.c83_no_dangling' depends on axioms: [propext, Classical.choice, Quot.sound]
'Mixtera.c83_through_cache_partial' depends on axioms: [propext, Classical.choice, Quot.sound]
'Mixtera.c83_trained_records_partial' depends on axioms: [propext, Classical.choice, Quot.sound]
'Mixtera.c83_concurrent_dangling' depends on axioms: [propext, Classical.choice, Quot.sound]
'Mixtera.Torch.c83_training_run_partial' depends on axioms: [propext, Classical.choice, Quot.sound]
'Mixtera.Torch.c83_training_complete_partial' depends on axioms: [propext, Classical.choice, Quot.sound]
'Mixtera.Typed.c84_register_iff' depends on axioms: [propext, Classical.choice, Quot.sound]
'Mixtera.Typed.c84_register_adds' depends on axioms: [propext, Classical.choice, Quot.sound]
'Mixtera.Typed.c84_type_for_ever' depends on axioms: [propext, Classical.choice, Quot.sound]
'Mixtera.Typed.c84_unchanged_partial' depends on axioms: [propext, Classical.choice, Quot.sound]
'Mixtera.Typed.c84_history_partial' depends on axioms: [propext, Classical.choice, Quot.sound]
'Mixtera.Typed.c84_conflict' depends on axioms: [propext, Classical.choice, Quot.sound]
'Mixtera.Typed.c84_fineweb_after_redpajama' depends on axioms: [propext, Classical.choice, Quot.sound]
'Mixtera.Typed.c84_redpajama_after_fineweb' depends on axioms: [propext, Classical.choice, Quot.sound]
'Mixtera.Typed.c84_list_as_text' depends on axioms: [propext, Classical.choice, Quot.sound]
'Mixtera.Opening.c85_complete_file' depends on axioms: [propext, Classical.choice, Quot.sound]
'Mixtera.Opening.c85_reopen' depends on axioms: [propext]
'Mixtera.Opening.c85_missing' depends on axioms: [propext]
'Mixtera.Opening.c85_first_open' does not depend on any axioms
'Mixtera.Opening.c85_first_open_crash' depends on axioms: [propext, Quot.sound]
'Mixtera.Opening.c85_reopen_any_time_partial' depends on axioms: [propext, Classical.choice, Quot.sound]
'Mixtera.Opening.c85_never_repaired' depends on axioms: [propext, Classical.choice, Quot.sound]
'Mixtera.Opening.c85_usable_iff' depends on axioms: [propext, Classical.choice, Quot.sound]
'Mixtera.Opening.c85_false_but_listed' depends on axioms: [propext, Classical.choice, Quot.sound]
'Mixtera.Opening.c85_nothing_listed' depends on axioms: [propext, Quot.sound]
'Mixtera.Opening.c85_late_first_opening' depends on axioms: [propext, Quot.sound]
'Mixtera.F64.c86_static' depends on axioms: [propext, Classical.choice, Quot.sound]
'Mixtera.F64.c86_static_loop' depends on axioms: [propext, Classical.choice, Quot.sound]
'Mixtera.F64.c86_sum_check' depends on axioms: [propext, Classical.choice, Quot.sound]
'Mixtera.F64.c86_inferring' depends on axioms: [propext, Classical.choice, Quot.sound]
'Mixtera.F64.c86_redistribute' depends on axioms: [propext, Classical.choice, Quot.sound]
'Mixtera.F64.c86_redistribute_loop' depends on axioms: [propext, Classical.choice, Quot.sound]
'Mixtera.F64.c86_hierarchical_partial' depends on axioms: [propext, Classical.choice, Quot.sound]
'Mixtera.F64.c86_hierarchical_off_by_one' depends on axioms: [propext, Classical.choice, Quot.sound]
'Mixtera.F64.c87_window_counts' depends on axioms: [propext, Classical.choice, Quot.sound]
'Mixtera.F64.c87_strict' depends on axioms: [propext, Classical.choice, Quot.sound]
'Mixtera.F64.c87_best_effort_partial' depends on axioms: [propext, Classical.choice, Quot.sound]
'Mixtera.F64.c87_one_sample_stuck' depends on axioms: [propext, Classical.choice, Quot.sound]
'Mixtera.F64.c87_whole_chunk_off_by_one' depends on axioms: [propext, Classical.choice, Quot.sound]
'Mixtera.F64.c87_readers' depends on axioms: [propext, Classical.choice, Quot.sound]
'Mixtera.F64.c87_inferred' depends on axioms: [propext, Classical.choice, Quot.sound]
'Mixtera.F64.c87_inferred_loop' depends on axioms: [propext, Classical.choice, Quot.sound]
'Mixtera.c88_restored_partial' depends on axioms: [propext, Classical.choice, Quot.sound]
'Mixtera.c88_restore_crash_partial' depends on axioms: [propext, Classical.choice, Quot.sound]
'Mixtera.c88_continued_partial' depends on axioms: [propext, Classical.choice, Quot.sound]
'Mixtera.c88_crash_partial' depends on axioms: [propext, Classical.choice, Quot.sound]
'Mixtera.c88_crash_idx' depends on axioms: [propext, Classical.choice, Quot.sound]
'Mixtera.c88_log_torn' depends on axioms: [propext, Classical.choice, Quot.sound]
'Mixtera.F64.c89_shares' depends on axioms: [propext, Classical.choice, Quot.sound]
'Mixtera.F64.c89_every_domain' depends on axioms: [propext, Classical.choice, Quot.sound]
'Mixtera.F64.c89_small_chunk' depends on axioms: [propext, Classical.choice, Quot.sound]
'Mixtera.Mixing.c90_step' depends on axioms: [propext, Classical.choice, Quot.sound]
'Mixtera.Mixing.c90_silent' depends on axioms: [propext, Classical.choice, Quot.sound]
'Mixtera.Mixing.c90_accepted' depends on axioms: [propext, Classical.choice, Quot.sound]
'Mixtera.Mixing.c90_average' depends on axioms: [propext, Classical.choice, Quot.sound]
'Mixtera.Mixing.c90_initial' depends on axioms: [propext, Classical.choice, Quot.sound]
'Mixtera.Mixing.c90_ado' depends on axioms: [propext, Classical.choice, Quot.sound]
'Mixtera.Mixing.c91_restored' depends on axioms: [propext, Classical.choice, Quot.sound]
'Mixtera.Mixing.c91_forgets' depends on axioms: [propext, Classical.choice, Quot.sound]
'Mixtera.Mixing.c91_kept_partial' depends on axioms: [propext, Classical.choice, Quot.sound]
'Mixtera.Mixing.c91_rows' depends on axioms: [propext, Classical.choice, Quot.sound]
'Mixtera.Mixing.c91_average' depends on axioms: [propext, Classical.choice, Quot.sound]
'Mixtera.Mixing.c91_reports_lost' depends on axioms: [propext, Classical.choice, Quot.sound]
'Mixtera.F32.c92_totals' depends on axioms: [propext, Classical.choice, Quot.sound]
'Mixtera.F32.c92_weights' depends on axioms: [propext, Classical.choice, Quot.sound]
'Mixtera.F32.c92_accepted' depends on axioms: [propext, Classical.choice, Quot.sound]
'Mixtera.F32.c92_no_losses' depends on axioms: [propext, Classical.choice, Quot.sound]
'Mixtera.F32.c92_ignored' depends on axioms: [propext, Classical.choice, Quot.sound]
'Mixtera.F32.c92_stuck' depends on axioms: [propext, Classical.choice, Quot.sound]
'Mixtera.Mixing.c93_next' depends on axioms: [propext, Classical.choice, Quot.sound]
'Mixtera.Mixing.c93_average' depends on axioms: [propext, Classical.choice, Quot.sound]
'Mixtera.Mixing.c93_initial' depends on axioms: [propext, Classical.choice, Quot.sound]
'Mixtera.Mixing.c94_learnt_partial' depends on axioms: [propext, Classical.choice, Quot.sound]
'Mixtera.Mixing.c94_next_partial' depends on axioms: [propext, Classical.choice, Quot.sound]
'Mixtera.Mixing.c94_average_partial' depends on axioms: [propext, Classical.choice, Quot.sound]
'Mixtera.Mixing.c94_rows_partial' depends on axioms: [propext, Classical.choice, Quot.sound]
'Mixtera.Mixing.c94_resumes' depends on axioms: [propext, Classical.choice, Quot.sound]
'Mixtera.Mixing.c94_stale' depends on axioms: [propext, Classical.choice, Quot.sound]
'Mixtera.Mixing.c94_early' depends on axioms: [propext, Classical.choice, Quot.sound]
'Mixtera.c95_ids_while_running' depends on axioms: [propext, Classical.choice, Quot.sound]
'Mixtera.c95_restored_answers_partial' depends on axioms: [propext, Classical.choice, Quot.sound]
'Mixtera.c95_restored_chunks_partial' depends on axioms: [propext, Classical.choice, Quot.sound]
'Mixtera.c95_many_restores_partial' depends on axioms: [propext, Classical.choice, Quot.sound]
'Mixtera.c95_same_domains_same_ids' depends on axioms: [propext, Classical.choice, Quot.sound]
'Mixtera.c95_other_ids' depends on axioms: [propext, Classical.choice, Quot.sound]
'Mixtera.c95_other_mixture' depends on axioms: [propext, Classical.choice, Quot.sound] 