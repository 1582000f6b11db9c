# Axioms of each property theorem (output of `#print axioms`)

| theorem | axioms |
|---|---|
| `Bridge.C01_length_roundtrip` | propext, Classical.choice, Quot.sound |
| `Bridge.C01_varint_roundtrip` | propext, Classical.choice, Quot.sound |
| `Bridge.C02_varint_minimal` | propext, Classical.choice, Quot.sound |
| `Bridge.C03_stream_injective` | propext, Classical.choice, Quot.sound |
| `Bridge.C03_stream_roundtrip` | propext, Classical.choice, Quot.sound |
| `Bridge.C04_correct_iff_signed` | propext, Classical.choice, Quot.sound |
| `Bridge.C04_unsigned_char_truncates` | propext, Quot.sound |
| `Bridge.C05_assertion_exact` | propext, Classical.choice, Quot.sound |
| `Bridge.C05_overlong_is_ub` | propext, Quot.sound |
| `Bridge.C05_parseLengthAt_any` | propext, Classical.choice, Quot.sound |
| `Bridge.C05_parseLength_any` | propext, Classical.choice, Quot.sound |
| `Bridge.C06_big_endian_write` | propext, Classical.choice, Quot.sound |
| `Bridge.C06_numbers_portable` | propext, Classical.choice, Quot.sound |
| `Bridge.C07_serialize_parse` | propext, Classical.choice, Quot.sound |
| `Bridge.C08_dictionary_transparent` | propext, Classical.choice, Quot.sound |
| `Bridge.C08_dictionary_transparent_parallel` | propext, Classical.choice, Quot.sound |
| `Bridge.C09_in_situ_same` | propext, Classical.choice, Quot.sound |
| `Bridge.C10_any_content` | propext, Classical.choice, Quot.sound |
| `Bridge.C10_in_situ_points_into_buffer` | propext, Classical.choice, Quot.sound |
| `Bridge.C10_owning_holds_no_view` | propext, Classical.choice, Quot.sound |
| `Bridge.C11_in_situ_custom_throws` | propext, Classical.choice, Quot.sound |
| `Bridge.C11_owning_parse_keeps_custom` | propext, Classical.choice, Quot.sound |
| `Bridge.C12_parallel_same` | propext, Classical.choice, Quot.sound |
| `Bridge.C13_any_two_schedules` | propext, Quot.sound |
| `Bridge.C13_every_schedule_ends` | propext, Classical.choice, Quot.sound |
| `Bridge.C13_every_schedule_right` | propext, Classical.choice, Quot.sound |
| `Bridge.C13_schedule_independent` | propext, Quot.sound |
| `Bridge.C14_split_blocks` | propext, Classical.choice, Quot.sound |
| `Bridge.C15_paths_preserved` | propext, Classical.choice, Quot.sound |
| `Bridge.C16_duplicate_keys_flip` | propext, Quot.sound |
| `Bridge.C16_insert_history` | propext, Classical.choice, Quot.sound |
| `Bridge.C16_lookup_before_and_after` | propext, Classical.choice, Quot.sound |
| `Bridge.C17_two_round_trips` | propext, Classical.choice, Quot.sound |
| `Bridge.C18_array_is_a_sequence` | propext, Classical.choice, Quot.sound |
| `Bridge.C19_map_is_an_entry_log` | propext, Classical.choice, Quot.sound |
| `Bridge.C19_size_counts_inserts` | propext |
| `Bridge.C20_array_observers` | propext, Quot.sound |
| `Bridge.C20_downcasts` | propext, Quot.sound |
| `Bridge.C20_map_observers` | propext, Quot.sound |
| `Bridge.C20_no_container` | propext, Quot.sound |
| `Bridge.C20_null_propagates` | propext, Quot.sound |
| `Bridge.C20_paths_never_fault` | propext, Quot.sound |
| `Bridge.C21_leaf_is_its_value` | propext, Quot.sound |
| `Bridge.C21_nothing_to_read` | propext, Quot.sound |
| `Bridge.C21_typed_reads` | propext, Quot.sound |
| `Bridge.C21_typed_reads_in_situ` | propext, Quot.sound |
| `Bridge.C22_last_value_wins` | propext, Quot.sound |
| `Bridge.C22_last_view_wins` | propext, Quot.sound |
| `Bridge.C22_self_assignment_is_ub` | propext, Quot.sound |
| `Bridge.C22_self_assignment_of_numbers` | propext, Quot.sound |
| `Bridge.C23_payload_leaks` | propext, Quot.sound |
| `Bridge.C23_replaced_payloads_are_released` | propext, Quot.sound |
| `Bridge.C24_get_leaves_a_null_child` | propext, Quot.sound |
| `Bridge.C24_null_children_never_succeed` | propext, Classical.choice, Quot.sound |
| `Bridge.C24_only_null_children_are_ub` | propext, Classical.choice, Quot.sound |
| `Bridge.C24_unset_values_throw` | propext, Classical.choice, Quot.sound |
| `Bridge.C24_valid_trees_succeed` | propext, Classical.choice, Quot.sound |
| `Bridge.C25_layout` | propext, Classical.choice, Quot.sound |
| `Bridge.C26_cut_accepted` | propext, Classical.choice, Quot.sound |
| `Bridge.C26_cut_exact` | propext, Classical.choice, Quot.sound |
| `Bridge.C26_cut_in_dictionary_reads_outside` | propext, Classical.choice, Quot.sound |
| `Bridge.C26_cut_main` | propext, Classical.choice, Quot.sound |
| `Bridge.C26_cut_never_wrong` | propext, Classical.choice, Quot.sound |
| `Bridge.C26_cut_split_table_loses_data` | propext, Classical.choice, Quot.sound |
| `Bridge.C26_unsplit_exact` | propext, Classical.choice, Quot.sound |
| `Bridge.C27_trailing_bytes_ignored` | propext, Classical.choice, Quot.sound |
| `Bridge.C28_accepted_is_document` | propext, Classical.choice, Quot.sound |
| `Bridge.C28_parallel_accepted_is_document` | propext, Classical.choice, Quot.sound |
| `Bridge.C28_parsers_can_disagree` | propext, Classical.choice, Quot.sound |
| `Bridge.C28_too_short` | propext, Quot.sound |
| `Bridge.C28_total_beyond_content` | propext, Classical.choice, Quot.sound |
| `Bridge.C28_unknown_data_type` | propext, Quot.sound |
| `Bridge.C28_unknown_flag` | propext, Quot.sound |
| `Bridge.C28_unknown_kind` | propext, Quot.sound |
| `Bridge.C28_unknown_mode` | propext, Quot.sound |
| `Bridge.C29_aborts` | propext, Classical.choice, Quot.sound |
| `Bridge.C29_faults` | propext, Classical.choice, Quot.sound |
| `Bridge.C29_never_returns` | propext, Quot.sound |
| `Bridge.C29_outcomes` | propext, Classical.choice, Quot.sound |
| `Bridge.C29_overruns_stack` | propext, Classical.choice, Quot.sound |
| `Bridge.C29_reads_out_of_bounds` | propext, Classical.choice, Quot.sound |
| `Bridge.C29_shifts_too_far` | propext, Classical.choice, Quot.sound |
| `Bridge.C29_terminates` | propext, Classical.choice, Quot.sound |
| `Bridge.C29_view_outside_content` | propext, Classical.choice, Quot.sound |
| `Bridge.C30_assertion_build_aborts` | propext, Classical.choice, Quot.sound |
| `Bridge.C30_length_field` | propext, Classical.choice, Quot.sound |
| `Bridge.C30_normal_parse_rejects` | propext, Classical.choice, Quot.sound |
| `Bridge.C30_parallel_truncates` | propext, Classical.choice, Quot.sound |
| `Bridge.C31_ids` | propext, Classical.choice, Quot.sound |
| `Bridge.C31_injective` | propext, Classical.choice, Quot.sound |
| `Bridge.C32_foreign_table` | propext, Quot.sound |
| `Bridge.C32_table_roundtrip` | propext, Classical.choice, Quot.sound |
| `Bridge.C33_ideal_before_lookup` | propext, Classical.choice, Quot.sound |
| `Bridge.C33_lookup_sees_snapshot` | propext, Classical.choice, Quot.sound |
| `Bridge.C33_reconstructed_reuses_ids` | propext, Quot.sound |
| `Bridge.C33_stale` | propext, Classical.choice, Quot.sound |
| `Bridge.C34_bound_is_exact` | propext, Classical.choice, Quot.sound |
| `Bridge.C34_reconstructed_ids_are_new` | propext, Classical.choice, Quot.sound |
| `Bridge.C34_request_ids` | propext, Classical.choice, Quot.sound |
| `Bridge.C34_wrap` | propext, Quot.sound |
| `Bridge.C35_duplicate_rejected` | propext, Quot.sound |
| `Bridge.C35_table_roundtrip` | propext, Classical.choice, Quot.sound |
| `Bridge.Pool.C36_distinct_live_slots` | propext, Classical.choice, Quot.sound |
| `Bridge.Pool.C36_self_merge_faults` | propext, Quot.sound |
| `Bridge.Pool.C37_destroys_exactly_once` | propext, Classical.choice, Quot.sound |
| `Bridge.Pool.C37_memory_returned` | propext, Classical.choice, Quot.sound |
| `Bridge.Pool.C37_no_destruction_unless_asked` | propext, Classical.choice, Quot.sound |
| `Bridge.C38_any_content_extendable` | propext, Classical.choice, Quot.sound |
| `Bridge.C38_any_split_content_dangles` | propext, Classical.choice, Quot.sound |
| `Bridge.C38_normal_extendable` | propext, Classical.choice, Quot.sound |
| `Bridge.C38_split_parallel_dangles` | propext, Classical.choice, Quot.sound |
| `Bridge.C38_unsplit_extendable` | propext, Classical.choice, Quot.sound |
| `Bridge.TP.C39_at_most_once` | propext, Classical.choice, Quot.sound |
| `Bridge.TP.C39_dropped_after_stop` | propext, Quot.sound |
| `Bridge.TP.C39_exactly_once_when_idle` | propext, Classical.choice, Quot.sound |
| `Bridge.TP.C39_exactly_once_when_stopped` | propext, Classical.choice, Quot.sound |
| `Bridge.TP.C39_one_worker_in_order` | propext, Classical.choice, Quot.sound |
| `Bridge.TP.C39_taken_in_order` | propext, Classical.choice, Quot.sound |
| `Bridge.TP.C40_drains` | propext, Classical.choice, Quot.sound |
| `Bridge.TP.C40_every_schedule_drains` | propext, Classical.choice, Quot.sound |
| `Bridge.TP.C40_no_lost_wakeup` | propext, Classical.choice, Quot.sound |
| `Bridge.TP.C40_no_workers_no_progress` | propext, Quot.sound |
| `Bridge.TP.C40_steps_bounded` | propext, Quot.sound |
| `Bridge.C41_no_race` | propext, Classical.choice, Quot.sound |
| `Bridge.C41_race_with_two_root_blocks` | propext, Classical.choice, Quot.sound |
| `Bridge.C42_array_pattern_calls` | propext, Quot.sound |
| `Bridge.C42_data_pattern` | propext, Quot.sound |
| `Bridge.C42_default_array_pattern` | propext, Quot.sound |
| `Bridge.C42_map_pattern_calls` | propext, Quot.sound |
| `Bridge.C42_match_iff_satisfies` | propext, Quot.sound |
| `Bridge.C42_never_faults` | propext, Quot.sound |
| `Bridge.C42_or_and` | propext, Quot.sound |
| `Bridge.C42_owning_or_in_situ` | propext, Quot.sound |
| `Bridge.C43_duplicate_keys_differ` | propext, Quot.sound |
| `Bridge.C43_match_survives_round_trip` | propext, Classical.choice, Quot.sound |
| `Bridge.C44_first_unset_slot` | propext, Classical.choice, Quot.sound |
| `Bridge.C44_fresh_array_pattern_faults` | propext, Classical.choice, Quot.sound |
| `Bridge.C45_dump_after_get_faults` | propext, Classical.choice, Quot.sound |
| `Bridge.C45_dump_after_round_trip` | propext, Classical.choice, Quot.sound |
| `Bridge.C45_dump_determines_shape` | propext, Classical.choice, Quot.sound |
| `Bridge.C45_dump_text` | propext, Classical.choice, Quot.sound |
| `Bridge.C45_line_count` | propext, Classical.choice, Quot.sound |
| `Bridge.C45_negative_level_throws` | propext, Classical.choice, Quot.sound |
| `Bridge.C46_adaptor_shows_container` | propext, Classical.choice, Quot.sound |
| `Bridge.C46_copies` | propext, Quot.sound |
| `Bridge.C46_round_trip_shows_container` | propext, Classical.choice, Quot.sound |
| `Bridge.C47_accepted_types` | propext, Quot.sound |
| `Bridge.C47_custom_selected_but_does_not_compile` | propext, Quot.sound |
| `Bridge.C47_nested_bytes_rejected` | propext, Quot.sound |
| `Bridge.C47_overload_fits_value` | propext |
| `Bridge.C48_aligned_for_every_type` | propext, Classical.choice, Quot.sound |
| `Bridge.C48_index` | propext, Classical.choice, Quot.sound |
| `Bridge.C48_library_variants` | none |
| `Bridge.C48_maximum` | propext, Quot.sound |
| `Bridge.C48_not_exist` | propext |
| `Bridge.C48_unique` | propext |
| `Bridge.C48_valid_type` | propext, Classical.choice, Quot.sound |
| `Bridge.C49_deterministic` | propext, Classical.choice, Quot.sound |
| `Bridge.C50_injective` | propext, Classical.choice, Quot.sound |
| `Bridge.C51_character_array_views` | propext, Quot.sound |
| `Bridge.C51_character_arrays` | propext |
| `Bridge.C51_round_trip` | propext, Classical.choice, Quot.sound |
| `Bridge.C52_empty_vector_view` | propext |
| `Bridge.C52_hardened_library` | propext, Classical.choice, Quot.sound |
| `Bridge.C53_document_format` | propext, Classical.choice, Quot.sound |
| `Bridge.C54_destroying_a_nested_pattern_faults` | propext, Classical.choice, Quot.sound |
| `Bridge.C55_custom_roundtrip` | propext, Classical.choice, Quot.sound |
| `Bridge.C55_no_other_place` | propext, Quot.sound |
| `Bridge.C55_types_not_distinguished` | propext, Quot.sound |
| `Bridge.C56_first_count_wins` | propext, Classical.choice, Quot.sound |
| `Bridge.C56_history_irrelevant` | propext, Classical.choice, Quot.sound |
| `Bridge.C56_zero_first_blocks_all` | propext, Classical.choice, Quot.sound |
| `Bridge.Owner.C57_exception_leaves_no_orphans` | propext, Classical.choice, Quot.sound |
| `Bridge.Owner.C57_history_exactly_once` | propext, Classical.choice, Quot.sound |
| `Bridge.Owner.C57_owned_by_caller` | propext, Classical.choice, Quot.sound |
| `Bridge.Owner.C57_same_outcome` | propext, Quot.sound |
| `Bridge.C58_at_most_n_run` | propext, Quot.sound |
| `Bridge.C58_every_execution_ends` | propext, Quot.sound |
| `Bridge.C58_first_come_first_served` | propext, Classical.choice, Quot.sound |
| `Bridge.C58_never_stuck` | propext, Quot.sound |
| `Bridge.C58_no_workers` | propext, Quot.sound |
| `Bridge.C58_outcome_independent` | propext, Quot.sound |
| `Bridge.C58_parallel_parse_completes` | propext, Classical.choice, Quot.sound |
| `Bridge.C58_workers_never_block` | propext, Quot.sound |
| `Bridge.C59_recursive_parse` | propext, Quot.sound |
| `Bridge.C59_same_exception` | propext, Classical.choice, Quot.sound |
| `Bridge.C59_same_object` | propext, Classical.choice, Quot.sound |
| `Bridge.C59_serialize` | propext, Classical.choice, Quot.sound |
| `Bridge.C59_serialize_asserts` | propext, Classical.choice, Quot.sound |
| `Bridge.C60_end_to_end` | propext, Classical.choice, Quot.sound |
| `Bridge.C61_accepted_iff` | propext, Classical.choice, Quot.sound |
| `Bridge.C61_accepted_value` | propext, Classical.choice, Quot.sound |
| `Bridge.C61_checked_value` | propext, Classical.choice, Quot.sound |
| `Bridge.C61_one_reading` | propext, Classical.choice, Quot.sound |
| `Bridge.C61_readable_value` | propext, Classical.choice, Quot.sound |
| `Bridge.C62_bomb` | propext, Classical.choice, Quot.sound |
| `Bridge.C62_dump` | propext, Classical.choice, Quot.sound |
| `Bridge.C62_parse_accepted` | propext, Classical.choice, Quot.sound |
| `Bridge.C62_parse_same_or_overflow` | propext, Classical.choice, Quot.sound |
| `Bridge.C62_parse_written` | propext, Classical.choice, Quot.sound |
| `Bridge.C62_serialize` | propext, Classical.choice, Quot.sound |
| `Bridge.C63_accepted_iff` | propext, Classical.choice, Quot.sound |
| `Bridge.C63_accepted_value` | propext, Classical.choice, Quot.sound |
| `Bridge.C63_checked_value` | propext, Classical.choice, Quot.sound |
| `Bridge.C63_one_reading` | propext, Classical.choice, Quot.sound |
| `Bridge.C63_readable_value` | propext, Classical.choice, Quot.sound |
| `Bridge.C64_dictionary_quadratic` | propext, Classical.choice, Quot.sound |
| `Bridge.Owner.C64_objects_made` | propext, Classical.choice, Quot.sound |
| `Bridge.C64_parallel_explodes` | propext, Classical.choice, Quot.sound |
| `Bridge.C64_recursive_linear` | propext, Classical.choice, Quot.sound |
| `Bridge.C64_result_size` | propext, Classical.choice, Quot.sound |
| `Bridge.C64_written_size` | propext, Classical.choice, Quot.sound |
| `Bridge.C65_poisoned_tree_not_serializable` | propext, Quot.sound |
| `Bridge.C65_throwing_assignment_poisons` | propext, Quot.sound |
| `Bridge.C65_throwing_get_passes_on` | propext, Quot.sound |
| `Bridge.TP.C66_identity` | propext, Classical.choice, Quot.sound |
| `Bridge.TP.C66_second_stop_does_not_wait` | propext, Quot.sound |
| `Bridge.TP.C66_stop_always_returns` | propext, Classical.choice, Quot.sound |
| `Bridge.TP.C66_stop_can_return` | propext, Classical.choice, Quot.sound |
| `Bridge.TP.C66_stop_in_task_never_returns` | propext, Classical.choice, Quot.sound |
| `Bridge.TP.C66_stop_returns_after_all` | propext, Classical.choice, Quot.sound |
| `Bridge.Heap.C67_calls_return` | propext, Classical.choice, Quot.sound |
| `Bridge.Heap.C67_heap_is_graph` | propext, Classical.choice, Quot.sound |
| `Bridge.Heap.C68_calls_to_document` | propext, Classical.choice, Quot.sound |
| `Bridge.Heap.C68_cycles` | propext, Classical.choice, Quot.sound |
| `Bridge.Heap.C68_one_owner` | propext, Classical.choice, Quot.sound |
| `Bridge.Heap.C68_owned_is_tree` | propext, Classical.choice, Quot.sound |
| `Bridge.Heap.C68_serialize_ends` | propext, Classical.choice, Quot.sound |
| `Bridge.Heap.C68_trees_unfold` | propext, Classical.choice, Quot.sound |
| `Bridge.Heap.C69_assigned` | propext, Classical.choice, Quot.sound |
| `Bridge.Heap.C69_freed` | propext, Classical.choice, Quot.sound |
| `Bridge.Heap.C69_insert_needs_its_pool` | propext, Quot.sound |
| `Bridge.Heap.C69_moved` | propext, Classical.choice, Quot.sound |
| `Bridge.Heap.C69_possible` | propext, Quot.sound |
| `Bridge.Heap.C70_needs_pool` | propext, Quot.sound |
| `Bridge.Heap.C70_parse_builds` | propext, Classical.choice, Quot.sound |
| `Bridge.Heap.C70_same_failure` | propext, Classical.choice, Quot.sound |
| `Bridge.Heap.C70_write_and_read` | propext, Classical.choice, Quot.sound |
| `Bridge.Heap.C71_dictionary_race` | propext, Quot.sound |
| `Bridge.Heap.C71_dictionary_read_by_use` | propext, Quot.sound |
| `Bridge.Heap.C71_every_run_ends` | propext, Classical.choice, Quot.sound |
| `Bridge.Heap.C71_insert_is_ub` | propext, Classical.choice, Quot.sound |
| `Bridge.Heap.C71_needs_pool` | propext, Classical.choice, Quot.sound |
| `Bridge.Heap.C71_no_fault` | propext, Classical.choice, Quot.sound |
| `Bridge.Heap.C71_no_race` | propext, Classical.choice, Quot.sound |
| `Bridge.Heap.C71_no_race_one_block` | propext, Classical.choice, Quot.sound |
| `Bridge.Heap.C71_no_race_without_dictionary` | propext, Classical.choice, Quot.sound |
| `Bridge.Heap.C71_no_race_written` | propext, Classical.choice, Quot.sound |
| `Bridge.Heap.C71_no_workers` | propext, Quot.sound |
| `Bridge.Heap.C71_not_split` | propext, Quot.sound |
| `Bridge.Heap.C71_rest_untouched` | propext, Classical.choice, Quot.sound |
| `Bridge.Heap.C71_same_failure` | propext, Classical.choice, Quot.sound |
| `Bridge.Heap.C71_same_result` | propext, Classical.choice, Quot.sound |
| `Bridge.Heap.C71_table_built_by_use` | propext, Quot.sound |
| `Bridge.Heap.C71_write_and_read` | propext, Classical.choice, Quot.sound |
| `Bridge.Heap.C72_all_finish` | propext, Classical.choice, Quot.sound |
| `Bridge.Heap.C72_as_if_alone` | propext, Classical.choice, Quot.sound |
| `Bridge.Heap.C72_others_untouched` | propext, Classical.choice, Quot.sound |
| `Bridge.Heap.C72_own_faults_only` | propext, Classical.choice, Quot.sound |
| `Bridge.Heap.C72_rest` | propext, Classical.choice, Quot.sound |
| `Bridge.Heap.C72_schedule_irrelevant` | propext, Classical.choice, Quot.sound |
| `Bridge.Heap.C72_sharing_matters` | propext, Classical.choice, Quot.sound |
| `Bridge.C73_all_complete` | propext, Classical.choice, Quot.sound |
| `Bridge.C73_as_if_alone` | propext, Classical.choice, Quot.sound |
| `Bridge.C73_at_most_n_run` | propext, Classical.choice, Quot.sound |
| `Bridge.C73_deadlock_without_check` | propext, Classical.choice, Quot.sound |
| `Bridge.C73_every_execution_ends` | propext, Classical.choice, Quot.sound |
| `Bridge.C73_fewer_tasks_than_workers` | propext, Classical.choice, Quot.sound |
| `Bridge.C73_never_stuck` | propext, Classical.choice, Quot.sound |
| `Bridge.C73_one_queue` | propext, Classical.choice, Quot.sound |
| `Bridge.C73_refused_exactly_on_workers` | propext, Classical.choice, Quot.sound |
| `Bridge.Heap.C74_all_finish` | propext, Classical.choice, Quot.sound |
| `Bridge.Heap.C74_as_if_alone` | propext, Classical.choice, Quot.sound |
| `Bridge.Heap.C74_documents_stay` | propext, Classical.choice, Quot.sound |
| `Bridge.Heap.C74_own_faults_only` | propext, Classical.choice, Quot.sound |
| `Bridge.Heap.C74_same_text` | propext, Classical.choice, Quot.sound |
| `Bridge.Heap.C74_schedule_irrelevant` | propext, Classical.choice, Quot.sound |
| `Bridge.Heap.C74_writer_matters` | propext, Classical.choice, Quot.sound |
| `Bridge.Pool.C75_bad_alloc_changes_nothing` | propext, Quot.sound |
| `Bridge.Pool.C75_exceptions_only` | propext, Classical.choice, Quot.sound |
| `Bridge.Pool.C75_interrupted_twice` | propext, Quot.sound |
| `Bridge.Pool.C75_memory_returned` | propext, Classical.choice, Quot.sound |
| `Bridge.Pool.C75_nothing_lost` | propext, Classical.choice, Quot.sound |
| `Bridge.Pool.C75_null_is_not_checked` | propext, Quot.sound |
| `Bridge.Pool.C75_same_as_without` | propext, Quot.sound |
| `Bridge.C76_accepted_edit` | propext, Classical.choice, Quot.sound |
| `Bridge.C76_dictionary_not_editable` | propext, Classical.choice, Quot.sound |
| `Bridge.C76_only_shown_bytes` | propext, Classical.choice, Quot.sound |
| `Bridge.C76_overlapping_blocks` | propext, Classical.choice, Quot.sound |
| `Bridge.C76_overwrite_string` | propext, Classical.choice, Quot.sound |
| `Bridge.C76_owning_unaffected` | propext, Classical.choice, Quot.sound |
| `Bridge.C76_parallel_edit` | propext, Classical.choice, Quot.sound |
| `Bridge.C76_parallel_overwrite_string` | propext, Classical.choice, Quot.sound |
| `Bridge.C76_shape_stays` | propext, Classical.choice, Quot.sound |
| `Bridge.C76_strings_apart` | propext, Classical.choice, Quot.sound |
| `Bridge.C76_written_edit` | propext, Classical.choice, Quot.sound |
| `Bridge.Owner.C77_any_accepted_content` | propext, Classical.choice, Quot.sound |
| `Bridge.Owner.C77_holders_are_in_the_pool` | propext, Classical.choice, Quot.sound |
| `Bridge.Owner.C77_in_situ_holds_nothing` | propext, Classical.choice, Quot.sound |
| `Bridge.Owner.C77_owning_parse_leaks_the_document` | propext, Classical.choice, Quot.sound |
| `Bridge.Owner.C77_rounds_add_up` | propext, Classical.choice, Quot.sound |
| `Bridge.C78_length_at_most` | propext, Classical.choice, Quot.sound |
| `Bridge.C78_length_with_dictionary` | propext, Classical.choice, Quot.sound |
| `Bridge.C78_length_with_dictionary_at_least` | propext, Classical.choice, Quot.sound |
| `Bridge.C78_length_without_dictionary` | propext, Classical.choice, Quot.sound |
| `Bridge.C78_small_documents_fit` | propext, Classical.choice, Quot.sound |
| `Bridge.C78_small_documents_round_trip` | propext, Classical.choice, Quot.sound |
| `Bridge.C79_loaded_can_be_stored` | propext, Classical.choice, Quot.sound |
| `Bridge.C79_rewriting_settles` | propext, Classical.choice, Quot.sound |
| `Bridge.C80_as_if_alone` | propext, Classical.choice, Quot.sound |
| `Bridge.C80_call_after_stop_never_ends` | propext, Classical.choice, Quot.sound |
| `Bridge.C80_documents` | propext, Classical.choice, Quot.sound |
| `Bridge.C80_dropped_exactly_after_stop` | propext, Classical.choice, Quot.sound |
| `Bridge.C80_dropped_never_ends` | propext, Classical.choice, Quot.sound |
| `Bridge.C80_ends_unless_dropped` | propext, Classical.choice, Quot.sound |
| `Bridge.C80_every_execution_ends` | propext, Classical.choice, Quot.sound |
| `Bridge.C80_until_the_stop` | propext, Classical.choice, Quot.sound |
| `Bridge.Heap.C81_at_once` | propext, Classical.choice, Quot.sound |
| `Bridge.Heap.C81_can_finish` | propext, Classical.choice, Quot.sound |
| `Bridge.Heap.C81_ends` | propext, Classical.choice, Quot.sound |
| `Bridge.Heap.C81_finitely_many` | propext, Classical.choice, Quot.sound |
| `Bridge.Heap.C81_goes_on` | propext, Classical.choice, Quot.sound |
| `Bridge.Heap.C81_needs_pool` | propext |
| `Bridge.Heap.C81_no_fault` | propext, Classical.choice, Quot.sound |
| `Bridge.Heap.C81_no_race_between` | propext, Classical.choice, Quot.sound |
| `Bridge.Heap.C81_no_race_inside` | propext, Classical.choice, Quot.sound |
| `Bridge.Heap.C81_outcome` | propext, Classical.choice, Quot.sound |
| `Bridge.Heap.C81_program_apart` | propext, Classical.choice, Quot.sound |
| `Bridge.Heap.C81_result` | propext, Classical.choice, Quot.sound |
| `Bridge.Heap.C81_undisturbed` | propext, Classical.choice, Quot.sound |
| `Bridge.Heap.C81_unnoticed` | propext, Classical.choice, Quot.sound |
| `Bridge.Owner.C82_document_or_bad_alloc` | propext, Quot.sound |
| `Bridge.Owner.C82_enough_memory` | propext, Quot.sound |
| `Bridge.Owner.C82_exception_leaves_no_orphans` | propext, Classical.choice, Quot.sound |
| `Bridge.Owner.C82_failure` | propext, Quot.sound |
| `Bridge.Owner.C82_history_exactly_once` | propext, Classical.choice, Quot.sound |
| `Bridge.Owner.C82_in_situ_needs_no_text` | propext, Quot.sound |
| `Bridge.Owner.C82_returned_is_complete` | propext, Quot.sound |
| `Bridge.Owner.C82_written_document` | propext, Classical.choice, Quot.sound |
| `Bridge.Heap.C83_calls_to_document` | propext, Classical.choice, Quot.sound |
| `Bridge.Heap.C83_graph` | propext, Classical.choice, Quot.sound |
| `Bridge.Heap.C83_one_owner` | propext, Classical.choice, Quot.sound |
| `Bridge.Heap.C83_refused_changes_nothing` | propext, Classical.choice, Quot.sound |
| `Bridge.Heap.C83_retry` | propext, Classical.choice, Quot.sound |
| `Bridge.Heap.C83_serialize_consumes` | propext, Classical.choice, Quot.sound |
| `Bridge.TP.C84_at_rest` | propext, Classical.choice, Quot.sound |
| `Bridge.C84_construction` | propext, Classical.choice, Quot.sound |
| `Bridge.TP.C84_drains_or_ends` | propext, Classical.choice, Quot.sound |
| `Bridge.C84_enough_threads` | propext, Classical.choice, Quot.sound |
| `Bridge.TP.C84_exception_ends_everything` | propext, Quot.sound |
| `Bridge.C84_first_parallel_call` | propext, Classical.choice, Quot.sound |
| `Bridge.C84_lost_is_last` | propext, Classical.choice, Quot.sound |
| `Bridge.TP.C84_no_exception_no_end` | propext, Classical.choice, Quot.sound |
| `Bridge.C84_one_worker_never_lost` | propext, Classical.choice, Quot.sound |
| `Bridge.C84_refused_calls_leave_no_trace` | propext, Classical.choice, Quot.sound |
| `Bridge.TP.C84_refused_push` | propext, Quot.sound |
| `Bridge.C84_unaffected` | propext, Classical.choice, Quot.sound |
| `Bridge.C84_written_document` | propext, Classical.choice, Quot.sound |
| `Bridge.C85_not_in_a_dictionary` | propext, Quot.sound |
| `Bridge.C85_numbers` | propext, Classical.choice, Quot.sound |
| `Bridge.C85_numbers_alike` | propext |
| `Bridge.C85_one_place_changes` | propext, Classical.choice, Quot.sound |
| `Bridge.C85_overwriting` | propext, Classical.choice, Quot.sound |
| `Bridge.C85_same_shape_same_length` | propext, Classical.choice, Quot.sound |
| `Bridge.C86_any_chunks` | propext, Classical.choice, Quot.sound |
| `Bridge.C86_at_any_time` | propext, Classical.choice, Quot.sound |
| `Bridge.C86_chunks_do_not_matter` | propext, Quot.sound |
| `Bridge.C86_each_parses` | propext, Classical.choice, Quot.sound |
| `Bridge.C86_end_is_found` | propext, Classical.choice, Quot.sound |
| `Bridge.C86_good_before_bad` | propext, Classical.choice, Quot.sound |
| `Bridge.C86_incomplete_is_noticed` | propext, Classical.choice, Quot.sound |
| `Bridge.C86_prefix_free` | propext, Classical.choice, Quot.sound |
| `Bridge.C86_streams_are_unique` | propext, Classical.choice, Quot.sound |
| `Bridge.C86_the_length_in_front_is_short` | propext, Classical.choice, Quot.sound |
