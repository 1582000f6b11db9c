{"claims": [
 {"property": "C01", "status": "proved", "theorems": ["Bridge.C01_varint_roundtrip", "Bridge.C01_length_roundtrip"], "note": ""},
 {"property": "C02", "status": "proved", "theorems": ["Bridge.C02_varint_minimal"], "note": ""},
 {"property": "C03", "status": "proved", "theorems": ["Bridge.C03_stream_roundtrip", "Bridge.C03_stream_injective"], "note": ""},
 {"property": "C04", "status": "proved", "theorems": ["Bridge.C04_unsigned_char_truncates", "Bridge.C04_correct_iff_signed"], "note": ""},
 {"property": "C05", "status": "proved", "theorems": ["Bridge.C05_assertion_exact", "Bridge.C05_parseLength_any", "Bridge.C05_parseLengthAt_any", "Bridge.C05_overlong_is_ub"], "note": ""},
 {"property": "C06", "status": "proved", "theorems": ["Bridge.C06_big_endian_write", "Bridge.C06_numbers_portable"], "note": ""},
 {"property": "C07", "status": "proved", "theorems": ["Bridge.C07_serialize_parse"], "note": ""},
 {"property": "C08", "status": "proved", "theorems": ["Bridge.C08_dictionary_transparent", "Bridge.C08_dictionary_transparent_parallel"], "note": ""},
 {"property": "C09", "status": "proved", "theorems": ["Bridge.C09_in_situ_same"], "note": ""},
 {"property": "C10", "status": "proved", "theorems": ["Bridge.C10_any_content", "Bridge.C10_in_situ_points_into_buffer", "Bridge.C10_owning_holds_no_view"], "note": ""},
 {"property": "C11", "status": "proved", "theorems": ["Bridge.C11_in_situ_custom_throws", "Bridge.C11_owning_parse_keeps_custom"], "note": ""},
 {"property": "C12", "status": "proved", "theorems": ["Bridge.C12_parallel_same"], "note": ""},
 {"property": "C13", "status": "proved", "theorems": ["Bridge.C13_schedule_independent", "Bridge.C13_any_two_schedules", "Bridge.C13_every_schedule_ends", "Bridge.C13_every_schedule_right"], "note": ""},
 {"property": "C14", "status": "proved", "theorems": ["Bridge.C14_split_blocks"], "note": ""},
 {"property": "C15", "status": "proved", "theorems": ["Bridge.C15_paths_preserved"], "note": ""},
 {"property": "C16", "status": "proved", "theorems": ["Bridge.C16_insert_history", "Bridge.C16_lookup_before_and_after", "Bridge.C16_duplicate_keys_flip"], "note": ""},
 {"property": "C17", "status": "proved", "theorems": ["Bridge.C17_two_round_trips"], "note": ""},
 {"property": "C18", "status": "proved", "theorems": ["Bridge.C18_array_is_a_sequence"], "note": ""},
 {"property": "C19", "status": "proved", "theorems": ["Bridge.C19_map_is_an_entry_log", "Bridge.C19_size_counts_inserts"], "note": ""},
 {"property": "C20", "status": "proved", "theorems": ["Bridge.C20_array_observers", "Bridge.C20_map_observers", "Bridge.C20_no_container", "Bridge.C20_downcasts", "Bridge.C20_paths_never_fault", "Bridge.C20_null_propagates"], "note": ""},
 {"property": "C21", "status": "proved", "theorems": ["Bridge.C21_typed_reads", "Bridge.C21_typed_reads_in_situ", "Bridge.C21_leaf_is_its_value", "Bridge.C21_nothing_to_read"], "note": ""},
 {"property": "C22", "status": "proved", "theorems": ["Bridge.C22_last_value_wins", "Bridge.C22_self_assignment_is_ub", "Bridge.C22_self_assignment_of_numbers", "Bridge.C22_last_view_wins"], "note": ""},
 {"property": "C23", "status": "proved", "theorems": ["Bridge.C23_payload_leaks", "Bridge.C23_replaced_payloads_are_released"], "note": ""},
 {"property": "C24", "status": "proved", "theorems": ["Bridge.C24_valid_trees_succeed", "Bridge.C24_unset_values_throw", "Bridge.C24_only_null_children_are_ub", "Bridge.C24_null_children_never_succeed", "Bridge.C24_get_leaves_a_null_child"], "note": ""},
 {"property": "C25", "status": "proved", "theorems": ["Bridge.C25_layout"], "note": ""},
 {"property": "C26", "status": "proved", "theorems": ["Bridge.C26_cut_main", "Bridge.C26_cut_never_wrong", "Bridge.C26_cut_in_dictionary_reads_outside", "Bridge.C26_cut_split_table_loses_data", "Bridge.C26_cut_exact", "Bridge.C26_cut_accepted", "Bridge.C26_unsplit_exact"], "note": "C26_cut_exact decides every cut of every document; the parallel parser on accepted cuts of split documents is only described by a counterexample (C26_cut_split_table_loses_data) and by C63. The claim that every proper prefix throws is refuted (C26_cut_accepted, C26_cut_in_dictionary_reads_outside)."},
 {"property": "C27", "status": "proved", "theorems": ["Bridge.C27_trailing_bytes_ignored"], "note": ""},
 {"property": "C28", "status": "proved", "theorems": ["Bridge.C28_too_short", "Bridge.C28_unknown_mode", "Bridge.C28_total_beyond_content", "Bridge.C28_unknown_flag", "Bridge.C28_unknown_kind", "Bridge.C28_unknown_data_type", "Bridge.C28_accepted_is_document", "Bridge.C28_parallel_accepted_is_document", "Bridge.C28_parsers_can_disagree"], "note": ""},
 {"property": "C29", "status": "proved", "theorems": ["Bridge.C29_reads_out_of_bounds", "Bridge.C29_overruns_stack", "Bridge.C29_aborts", "Bridge.C29_shifts_too_far", "Bridge.C29_never_returns", "Bridge.C29_view_outside_content", "Bridge.C29_terminates", "Bridge.C29_faults", "Bridge.C29_outcomes"], "note": "C29_outcomes lists every way Parse of arbitrary bytes can end. The wish that it returns or throws is false of the code and refuted by concrete inputs (C29_reads_out_of_bounds, C29_overruns_stack, C29_aborts, C29_shifts_too_far, C29_never_returns, C29_view_outside_content)."},
 {"property": "C30", "status": "proved", "theorems": ["Bridge.C30_length_field", "Bridge.C30_normal_parse_rejects", "Bridge.C30_parallel_truncates", "Bridge.C30_assertion_build_aborts"], "note": ""},
 {"property": "C31", "status": "proved", "theorems": ["Bridge.C31_ids", "Bridge.C31_injective"], "note": ""},
 {"property": "C32", "status": "proved", "theorems": ["Bridge.C32_foreign_table", "Bridge.C32_table_roundtrip"], "note": ""},
 {"property": "C33", "status": "proved", "theorems": ["Bridge.C33_lookup_sees_snapshot", "Bridge.C33_stale", "Bridge.C33_ideal_before_lookup", "Bridge.C33_reconstructed_reuses_ids"], "note": ""},
 {"property": "C34", "status": "proved", "theorems": ["Bridge.C34_request_ids", "Bridge.C34_bound_is_exact", "Bridge.C34_reconstructed_ids_are_new", "Bridge.C34_wrap"], "note": ""},
 {"property": "C35", "status": "proved", "theorems": ["Bridge.C35_table_roundtrip", "Bridge.C35_duplicate_rejected"], "note": ""},
 {"property": "C36", "status": "proved", "theorems": ["Bridge.Pool.C36_distinct_live_slots", "Bridge.Pool.C36_self_merge_faults"], "note": ""},
 {"property": "C37", "status": "proved", "theorems": ["Bridge.Pool.C37_destroys_exactly_once", "Bridge.Pool.C37_no_destruction_unless_asked", "Bridge.Pool.C37_memory_returned"], "note": ""},
 {"property": "C38", "status": "proved", "theorems": ["Bridge.C38_any_content_extendable", "Bridge.C38_any_split_content_dangles", "Bridge.C38_normal_extendable", "Bridge.C38_unsplit_extendable", "Bridge.C38_split_parallel_dangles"], "note": ""},
 {"property": "C39", "status": "proved", "theorems": ["Bridge.TP.C39_taken_in_order", "Bridge.TP.C39_at_most_once", "Bridge.TP.C39_exactly_once_when_idle", "Bridge.TP.C39_exactly_once_when_stopped", "Bridge.TP.C39_dropped_after_stop", "Bridge.TP.C39_one_worker_in_order"], "note": ""},
 {"property": "C40", "status": "proved", "theorems": ["Bridge.TP.C40_no_lost_wakeup", "Bridge.TP.C40_steps_bounded", "Bridge.TP.C40_drains", "Bridge.TP.C40_every_schedule_drains", "Bridge.TP.C40_no_workers_no_progress"], "note": ""},
 {"property": "C41", "status": "proved", "theorems": ["Bridge.C41_no_race", "Bridge.C41_race_with_two_root_blocks"], "note": ""},
 {"property": "C42", "status": "proved", "theorems": ["Bridge.C42_match_iff_satisfies", "Bridge.C42_owning_or_in_situ", "Bridge.C42_never_faults", "Bridge.C42_map_pattern_calls", "Bridge.C42_array_pattern_calls", "Bridge.C42_default_array_pattern", "Bridge.C42_or_and", "Bridge.C42_data_pattern"], "note": ""},
 {"property": "C43", "status": "proved", "theorems": ["Bridge.C43_match_survives_round_trip", "Bridge.C43_duplicate_keys_differ"], "note": ""},
 {"property": "C44", "status": "proved", "theorems": ["Bridge.C44_fresh_array_pattern_faults", "Bridge.C44_first_unset_slot"], "note": ""},
 {"property": "C45", "status": "proved", "theorems": ["Bridge.C45_dump_text", "Bridge.C45_dump_determines_shape", "Bridge.C45_line_count", "Bridge.C45_dump_after_round_trip", "Bridge.C45_negative_level_throws", "Bridge.C45_dump_after_get_faults"], "note": ""},
 {"property": "C46", "status": "proved", "theorems": ["Bridge.C46_adaptor_shows_container", "Bridge.C46_round_trip_shows_container", "Bridge.C46_copies"], "note": ""},
 {"property": "C47", "status": "proved", "theorems": ["Bridge.C47_accepted_types", "Bridge.C47_nested_bytes_rejected", "Bridge.C47_custom_selected_but_does_not_compile", "Bridge.C47_overload_fits_value"], "note": ""},
 {"property": "C48", "status": "proved", "theorems": ["Bridge.C48_index", "Bridge.C48_valid_type", "Bridge.C48_not_exist", "Bridge.C48_unique", "Bridge.C48_maximum", "Bridge.C48_aligned_for_every_type", "Bridge.C48_library_variants"], "note": ""},
 {"property": "C49", "status": "proved", "theorems": ["Bridge.C49_deterministic"], "note": ""},
 {"property": "C50", "status": "proved", "theorems": ["Bridge.C50_injective"], "note": ""},
 {"property": "C51", "status": "proved", "theorems": ["Bridge.C51_character_arrays", "Bridge.C51_round_trip", "Bridge.C51_character_array_views"], "note": ""},
 {"property": "C52", "status": "proved", "theorems": ["Bridge.C52_hardened_library", "Bridge.C52_empty_vector_view"], "note": ""},
 {"property": "C53", "status": "proved", "theorems": ["Bridge.C53_document_format"], "note": ""},
 {"property": "C54", "status": "proved", "theorems": ["Bridge.C54_destroying_a_nested_pattern_faults"], "note": ""},
 {"property": "C55", "status": "proved", "theorems": ["Bridge.C55_custom_roundtrip", "Bridge.C55_types_not_distinguished", "Bridge.C55_no_other_place"], "note": ""},
 {"property": "C56", "status": "proved", "theorems": ["Bridge.C56_first_count_wins", "Bridge.C56_history_irrelevant", "Bridge.C56_zero_first_blocks_all"], "note": ""},
 {"property": "C57", "status": "proved", "theorems": ["Bridge.Owner.C57_same_outcome", "Bridge.Owner.C57_owned_by_caller", "Bridge.Owner.C57_exception_leaves_no_orphans", "Bridge.Owner.C57_history_exactly_once"], "note": ""},
 {"property": "C58", "status": "proved", "theorems": ["Bridge.C58_at_most_n_run", "Bridge.C58_first_come_first_served", "Bridge.C58_workers_never_block", "Bridge.C58_never_stuck", "Bridge.C58_every_execution_ends", "Bridge.C58_outcome_independent", "Bridge.C58_no_workers", "Bridge.C58_parallel_parse_completes"], "note": ""},
 {"property": "C59", "status": "proved", "theorems": ["Bridge.C59_recursive_parse", "Bridge.C59_same_object", "Bridge.C59_same_exception", "Bridge.C59_serialize", "Bridge.C59_serialize_asserts"], "note": ""},
 {"property": "C60", "status": "proved", "theorems": ["Bridge.C60_end_to_end"], "note": ""},
 {"property": "C61", "status": "proved", "theorems": ["Bridge.C61_accepted_value", "Bridge.C61_one_reading", "Bridge.C61_accepted_iff", "Bridge.C61_readable_value", "Bridge.C61_checked_value"], "note": ""},
 {"property": "C62", "status": "proved", "theorems": ["Bridge.C62_parse_same_or_overflow", "Bridge.C62_parse_accepted", "Bridge.C62_parse_written", "Bridge.C62_serialize", "Bridge.C62_dump", "Bridge.C62_bomb"], "note": ""},
 {"property": "C63", "status": "proved", "theorems": ["Bridge.C63_accepted_value", "Bridge.C63_accepted_iff", "Bridge.C63_readable_value", "Bridge.C63_checked_value", "Bridge.C63_one_reading"], "note": ""},
 {"property": "C64", "status": "proved", "theorems": ["Bridge.C64_parallel_explodes", "Bridge.C64_recursive_linear", "Bridge.C64_result_size", "Bridge.C64_written_size", "Bridge.C64_dictionary_quadratic", "Bridge.Owner.C64_objects_made"], "note": "The bounds are proved for the recursive parser on arbitrary bytes and for both parsers on written documents; for the parallel parser on arbitrary bytes the bound is refuted (C64_parallel_explodes: exponential)."},
 {"property": "C65", "status": "proved", "theorems": ["Bridge.C65_throwing_assignment_poisons", "Bridge.C65_poisoned_tree_not_serializable", "Bridge.C65_throwing_get_passes_on"], "note": "The wish that a failed assignment leaves a usable object is false of the code; the theorems say what the object can still be used for."},
 {"property": "C66", "status": "proved", "theorems": ["Bridge.TP.C66_stop_returns_after_all", "Bridge.TP.C66_stop_in_task_never_returns", "Bridge.TP.C66_stop_can_return", "Bridge.TP.C66_stop_always_returns", "Bridge.TP.C66_identity", "Bridge.TP.C66_second_stop_does_not_wait"], "note": "The wish that every Stop waits is refuted by C66_second_stop_does_not_wait; C66_stop_in_task_never_returns is the limit for tasks."},
 {"property": "C67", "status": "proved", "theorems": ["Bridge.Heap.C67_heap_is_graph", "Bridge.Heap.C67_calls_return"], "note": ""},
 {"property": "C68", "status": "proved", "theorems": ["Bridge.Heap.C68_one_owner", "Bridge.Heap.C68_owned_is_tree", "Bridge.Heap.C68_serialize_ends", "Bridge.Heap.C68_calls_to_document", "Bridge.Heap.C68_trees_unfold", "Bridge.Heap.C68_cycles"], "note": ""},
 {"property": "C69", "status": "proved", "theorems": ["Bridge.Heap.C69_freed", "Bridge.Heap.C69_moved", "Bridge.Heap.C69_assigned", "Bridge.Heap.C69_possible", "Bridge.Heap.C69_insert_needs_its_pool"], "note": ""},
 {"property": "C70", "status": "proved", "theorems": ["Bridge.Heap.C70_parse_builds", "Bridge.Heap.C70_same_failure", "Bridge.Heap.C70_needs_pool", "Bridge.Heap.C70_write_and_read"], "note": ""},
 {"property": "C71", "status": "proved", "theorems": ["Bridge.Heap.C71_no_fault", "Bridge.Heap.C71_no_race", "Bridge.Heap.C71_no_race_without_dictionary", "Bridge.Heap.C71_table_built_by_use", "Bridge.Heap.C71_dictionary_read_by_use", "Bridge.Heap.C71_no_race_one_block", "Bridge.Heap.C71_no_race_written", "Bridge.Heap.C71_rest_untouched", "Bridge.Heap.C71_every_run_ends", "Bridge.Heap.C71_same_result", "Bridge.Heap.C71_same_failure", "Bridge.Heap.C71_not_split", "Bridge.Heap.C71_no_workers", "Bridge.Heap.C71_needs_pool", "Bridge.Heap.C71_insert_is_ub", "Bridge.Heap.C71_write_and_read", "Bridge.Heap.C71_dictionary_race"], "note": ""},
 {"property": "C72", "status": "proved", "theorems": ["Bridge.Heap.C72_as_if_alone", "Bridge.Heap.C72_rest", "Bridge.Heap.C72_own_faults_only", "Bridge.Heap.C72_all_finish", "Bridge.Heap.C72_schedule_irrelevant", "Bridge.Heap.C72_others_untouched", "Bridge.Heap.C72_sharing_matters"], "note": ""},
 {"property": "C73", "status": "proved", "theorems": ["Bridge.C73_at_most_n_run", "Bridge.C73_as_if_alone", "Bridge.C73_never_stuck", "Bridge.C73_every_execution_ends", "Bridge.C73_refused_exactly_on_workers", "Bridge.C73_all_complete", "Bridge.C73_one_queue", "Bridge.C73_fewer_tasks_than_workers", "Bridge.C73_deadlock_without_check"], "note": "the check of syncAwait (async_simple) is an assumption, a parameter of the model; C66 proves that currentThreadInExecutor is true exactly on workers"},
 {"property": "C74", "status": "proved", "theorems": ["Bridge.Heap.C74_as_if_alone", "Bridge.Heap.C74_own_faults_only", "Bridge.Heap.C74_all_finish", "Bridge.Heap.C74_documents_stay", "Bridge.Heap.C74_same_text", "Bridge.Heap.C74_schedule_irrelevant", "Bridge.Heap.C74_writer_matters"], "note": "A call is one step of a thread. `Sharing` is the discipline of the threads, stated on their programs; `readers_sharing` is an instance, C74_writer_matters shows that it is needed."},
 {"property": "C75", "status": "proved", "theorems": ["Bridge.Pool.C75_nothing_lost", "Bridge.Pool.C75_memory_returned", "Bridge.Pool.C75_bad_alloc_changes_nothing", "Bridge.Pool.C75_exceptions_only", "Bridge.Pool.C75_null_is_not_checked", "Bridge.Pool.C75_same_as_without", "Bridge.Pool.C75_interrupted_twice"], "note": "Growth of the vector fails before any block is moved (std::vector). `CarefulFrom` is the discipline of C75_exceptions_only; C75_interrupted_twice shows that it is needed."},
 {"property": "C76", "status": "proved", "theorems": ["Bridge.C76_written_edit", "Bridge.C76_accepted_edit", "Bridge.C76_overwrite_string", "Bridge.C76_strings_apart", "Bridge.C76_parallel_edit", "Bridge.C76_parallel_overwrite_string", "Bridge.C76_shape_stays", "Bridge.C76_only_shown_bytes", "Bridge.C76_owning_unaffected", "Bridge.C76_dictionary_not_editable", "Bridge.C76_overlapping_blocks"], "note": "The buffer-and-parser agreement is for contents without dictionary: the recursive parser on whatever it accepts, the parallel parser on whatever Serialize writes (C76_parallel_edit); C76_overlapping_blocks shows why not on whatever it accepts; shape, untouched bytes and the owning parse are for both parsers and both formats. C76_dictionary_not_editable shows why the dictionary is left out. `Obj.reread` is what the views of a tree show when the buffer holds other bytes (Model/Reread.lean)."},
 {"property": "C77", "status": "proved", "theorems": ["Bridge.Owner.C77_owning_parse_leaks_the_document", "Bridge.Owner.C77_rounds_add_up", "Bridge.Owner.C77_any_accepted_content", "Bridge.Owner.C77_in_situ_holds_nothing", "Bridge.Owner.C77_holders_are_in_the_pool"], "note": "Storage is counted by std::string and std::vector<char> object whose destructor never runs; short strings that std::string keeps inside itself lose no heap memory. The storage of objects of a Parse that throws is not counted. The root map that stays in the pool is the witness `root` (its objects are exactly what the parse added to the pool)."},
 {"property": "C78", "status": "proved", "theorems": ["Bridge.C78_length_without_dictionary", "Bridge.C78_length_with_dictionary", "Bridge.C78_length_with_dictionary_at_least", "Bridge.C78_length_at_most", "Bridge.C78_small_documents_fit", "Bridge.C78_small_documents_round_trip"], "note": "The lower bounds are exact (an empty array reaches them in both formats); the upper bounds charge five bytes for every varint. The measures (text, nodes, entries, strings, blobs) are in Spec/Size.lean."},
 {"property": "C79", "status": "proved", "theorems": ["Bridge.C79_loaded_can_be_stored", "Bridge.C79_rewriting_settles"], "note": "Completeness of what an accepted content yields is unconditional for the recursive parser; for a split content parsed in parallel it rests on the soundness of that parser (C28), hence below 4 GiB and, in situ, without numbers that claim more than 8 bytes. An accepted content without a 'root' entry yields a null pointer, which must not be handed to Serialize (C24)."},
 {"property": "C80", "status": "proved", "theorems": ["Bridge.C80_as_if_alone", "Bridge.C80_dropped_exactly_after_stop", "Bridge.C80_until_the_stop", "Bridge.C80_dropped_never_ends", "Bridge.C80_call_after_stop_never_ends", "Bridge.C80_every_execution_ends", "Bridge.C80_ends_unless_dropped", "Bridge.C80_documents"], "note": "As in C73 the run is over every interleaving of the steps of all calls; a worker that goes on with a task whose blocks are done is the one that finished the last block, or the task enters the queue again (both are in the model). What Stop itself waits for is C66."},
 {"property": "C81", "status": "proved", "theorems": ["Bridge.Heap.C81_no_fault", "Bridge.Heap.C81_no_race_inside", "Bridge.Heap.C81_no_race_between", "Bridge.Heap.C81_program_apart", "Bridge.Heap.C81_undisturbed", "Bridge.Heap.C81_unnoticed", "Bridge.Heap.C81_result", "Bridge.Heap.C81_outcome", "Bridge.Heap.C81_at_once", "Bridge.Heap.C81_needs_pool", "Bridge.Heap.C81_goes_on", "Bridge.Heap.C81_can_finish", "Bridge.Heap.C81_finitely_many", "Bridge.Heap.C81_ends"], "note": "The calls of the threads are those of C72 (each a step of its own); C81_needs_pool is the one obligation of the caller. C81_ends assumes only that a step that stays possible is taken at some time."},
 {"property": "C82", "status": "proved", "theorems": ["Bridge.Owner.C82_enough_memory", "Bridge.Owner.C82_returned_is_complete", "Bridge.Owner.C82_failure", "Bridge.Owner.C82_document_or_bad_alloc", "Bridge.Owner.C82_written_document", "Bridge.Owner.C82_exception_leaves_no_orphans", "Bridge.Owner.C82_history_exactly_once", "Bridge.Owner.C82_in_situ_needs_no_text"], "note": "Nothing is assumed of which requests are refused; where a refusal and an error of the content could both come first, the model lets the refusal come first. Memory of the thread pool's queue and inside async_simple is not part of the model."},
 {"property": "C83", "status": "proved", "theorems": ["Bridge.Heap.C83_graph", "Bridge.Heap.C83_one_owner", "Bridge.Heap.C83_calls_to_document", "Bridge.Heap.C83_refused_changes_nothing", "Bridge.Heap.C83_retry", "Bridge.Heap.C83_serialize_consumes"], "note": "A refusal is an exception: aligned_alloc returning null and an interrupted BridgePool::Merge are C75, a refused assignment to a Data is C65 (the leaf is then unusable), and the objects that a refused Parse leaves in the pool are C82. No call of the program frees a pool in C83_graph and C83_calls_to_document, as in C67 and C68."},
 {"property": "C84", "status": "proved", "theorems": ["Bridge.C84_construction", "Bridge.C84_unaffected", "Bridge.C84_first_parallel_call", "Bridge.C84_refused_calls_leave_no_trace", "Bridge.C84_lost_is_last", "Bridge.C84_one_worker_never_lost", "Bridge.C84_enough_threads", "Bridge.C84_written_document", "Bridge.TP.C84_refused_push", "Bridge.TP.C84_no_exception_no_end", "Bridge.TP.C84_exception_ends_everything", "Bridge.TP.C84_at_rest", "Bridge.TP.C84_drains_or_ends"], "note": "That syncAwait asks the executor for its pool on the calling thread, before it starts the coroutine, is assumed of async_simple. A pool of zero workers needs no thread and is never refused (C40, C56: it never runs anything). Memory refused inside async_simple is not modelled."},
 {"property": "C85", "status": "proved", "theorems": ["Bridge.C85_one_place_changes", "Bridge.C85_overwriting", "Bridge.C85_numbers_alike", "Bridge.C85_numbers", "Bridge.C85_same_shape_same_length", "Bridge.C85_not_in_a_dictionary"], "note": "The place of the value is not computed in the theorem: there is one position for all values of the type and length. Overwriting with a value of another length is not covered."},
 {"property": "C86", "status": "proved", "theorems": ["Bridge.C86_end_is_found", "Bridge.C86_incomplete_is_noticed", "Bridge.C86_any_chunks", "Bridge.C86_at_any_time", "Bridge.C86_good_before_bad", "Bridge.C86_chunks_do_not_matter", "Bridge.C86_streams_are_unique", "Bridge.C86_prefix_free", "Bridge.C86_each_parses", "Bridge.C86_the_length_in_front_is_short"], "note": "The receiver is not in the repository; it is specified in Spec/Stream.lean from the layout of a document only, and uses nothing of the library. Documents of 4 GiB and more are excepted (C30)."}
]}
