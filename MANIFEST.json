{"claims": [
{"property": "C01", "status": "proved", "theorems": ["Zones.Props.C01_exact_convolution"], "note": ""},
{"property": "C02", "status": "proved", "theorems": ["Zones.Props.C02_block_splitting_invisible"], "note": ""},
{"property": "C03", "status": "proved", "theorems": ["Zones.Props.C03_reset_restores_fresh_behaviour"], "note": ""},
{"property": "C04", "status": "proved", "theorems": ["Zones.Props.C04_unrouted_outputs_are_silent", "Zones.Props.C04_outputs_depend_only_on_routed_inputs", "Zones.Props.C04_no_channels_is_silence"], "note": ""},
{"property": "C05", "status": "proved", "theorems": ["Zones.Props.C05_uniform_is_exact"], "note": ""},
{"property": "C06", "status": "proved", "theorems": ["Zones.Props.C06_uniform_reset"], "note": ""},
{"property": "C07", "status": "proved", "theorems": ["Zones.Props.C07_nonuniform_is_exact"], "note": ""},
{"property": "C08", "status": "proved", "theorems": ["Zones.Props.C08_delay_plus_convolution", "Zones.Props.C08_multichannel"], "note": ""},
{"property": "C09", "status": "proved", "theorems": ["Zones.Props.C09_forward_is_bitreversed_dft", "Zones.Props.C09_bitrev_spec"], "note": ""},
{"property": "C10", "status": "proved", "theorems": ["Zones.Props.C10_inverse_undoes_forward", "Zones.Props.C10_forward_undoes_inverse"], "note": ""},
{"property": "C11", "status": "proved", "theorems": ["Zones.Props.C11_forward_steps_any_order", "Zones.Props.C11_inverse_steps_any_order", "Zones.Props.C11_too_many_steps_do_nothing"], "note": ""},
{"property": "C12", "status": "proved", "theorems": ["Zones.Props.C12_decompose_then_transform", "Zones.Props.C12_transform_then_recompose"], "note": ""},
{"property": "C13", "status": "proved", "theorems": ["Zones.Props.C13_forward_schedule_complete"], "note": ""},
{"property": "C14", "status": "proved", "theorems": ["Zones.Props.C14_inverse_schedule_delivers"], "note": ""},
{"property": "C15", "status": "proved", "theorems": ["Zones.Props.C15_product_is_circular_convolution", "Zones.Props.C15_zero_padded_product_is_linear_convolution"], "note": ""},
{"property": "C16", "status": "proved", "theorems": ["Zones.Props.C16_scheme_covers_impulse_response", "Zones.Props.C16_any_tables"], "note": ""},
{"property": "C17", "status": "proved", "theorems": ["Zones.Props.C17_enough_clearance"], "note": ""},
{"property": "C18", "status": "proved", "theorems": ["Zones.Props.C18_construction_in_range", "Zones.Props.C18_empty_impulse_response_is_undefined"], "note": ""},
{"property": "C19", "status": "proved", "theorems": ["Zones.Props.C19_partition_count_exact", "Zones.Props.C19_fails_beyond", "Zones.Props.C19_scheme_drops_tap"], "note": ""},
{"property": "C20", "status": "proved", "theorems": ["Zones.Props.C20_nearest_scheme", "Zones.Props.C20_order_irrelevant", "Zones.Props.C20_adjusted_at_its_end"], "note": ""},
{"property": "C21", "status": "proved", "theorems": ["Zones.Props.C21_transforms_fit_the_stage", "Zones.Props.C21_load_is_level"], "note": ""},
{"property": "C22", "status": "proved", "theorems": ["Zones.Props.C22_groups_are_binary_decomposition"], "note": ""},
{"property": "C23", "status": "proved", "theorems": ["Zones.Props.C23_copy_at_delay", "Zones.Props.C23_add_at_delay", "Zones.Props.C23_read_at_delay", "Zones.Props.C23_advance", "Zones.Props.C23_sub_block"], "note": ""},
{"property": "C24", "status": "proved", "theorems": ["Zones.Props.C24_frequency_delay_line"], "note": ""},
{"property": "C25", "status": "proved", "theorems": ["Zones.Props.C25_stages_rotate", "Zones.Props.C25_stages_independent"], "note": ""},
{"property": "C26", "status": "proved", "theorems": ["Zones.Props.C26_no_undefined_behaviour"], "note": ""},
{"property": "C27", "status": "proved", "theorems": ["Zones.Props.C27_internal_block_size", "Zones.Props.C27_cast", "Zones.Props.C27_nontermination"], "note": ""},
{"property": "C28", "status": "proved", "theorems": ["Zones.Props.C28_short_routing_is_undefined", "Zones.Props.C28_extra_entries_are_ignored"], "note": ""},
{"property": "C29", "status": "proved", "theorems": ["Zones.Props.C29_bounded_fifo", "Zones.Props.C29_has_pending"], "note": ""},
{"property": "C30", "status": "proved", "theorems": ["Zones.Props.C30_in_order_exactly_once", "Zones.Props.C30_no_conflict", "Zones.Props.C30_service_is_complete", "Zones.Props.C30_refused_only_when_full", "Zones.Props.C30_each_step_is_atomic", "Zones.Props.C30_executions_are_atomic"], "note": ""},
{"property": "C31", "status": "proved", "theorems": ["Zones.Props.C31_format", "Zones.Props.C31_format_unique", "Zones.Props.C31_load_order", "Zones.Props.C31_no_older_load_later"], "note": ""},
{"property": "C32", "status": "proved", "theorems": ["Zones.Props.C32_newest_finally_plays"], "note": ""},
{"property": "C33", "status": "proved", "theorems": ["Zones.Props.C33_crossfade", "Zones.Props.C33_exact", "Zones.Props.C33_hard_switch_after_reset"], "note": ""},
{"property": "C34", "status": "proved", "theorems": ["Zones.Props.C34_in_out_fade", "Zones.Props.C34_exact"], "note": ""},
{"property": "C35", "status": "proved", "theorems": ["Zones.Props.C35_fade_choice", "Zones.Props.C35_next_fade"], "note": ""},
{"property": "C36", "status": "proved", "theorems": ["Zones.Props.C36_made", "Zones.Props.C36_exactly_one_place", "Zones.Props.C36_all_destroyed_once"], "note": ""},
{"property": "C37", "status": "proved", "theorems": ["Zones.Props.C37_audio_thread_frees", "Zones.Props.C37_reset_frees"], "note": ""},
{"property": "C38", "status": "proved", "theorems": ["Zones.Props.C38_reset_restarts_newest", "Zones.Props.C38_reset_exact", "Zones.Props.C38_reset_while_queued", "Zones.Props.C38_quiet_resets_suffice"], "note": ""},
{"property": "C39", "status": "proved", "theorems": ["Zones.Props.C39_clear_makes_transparent", "Zones.Props.C39_clear_while_queued"], "note": ""},
{"property": "C40", "status": "proved", "theorems": ["Zones.Props.C40_true_only_while_outstanding", "Zones.Props.C40_true_while_outstanding", "Zones.Props.C40_reset_hides_load", "Zones.Props.C40_stays_true_after_foreign_load"], "note": ""},
{"property": "C41", "status": "proved", "theorems": ["Zones.Props.C41_engine_stays_transparent", "Zones.Props.C41_load_before_prepare_ignored"], "note": ""},
{"property": "C42", "status": "proved", "theorems": ["Zones.Props.C42_transparent_concurrent", "Zones.Props.C42_transparent_without_response", "Zones.Props.C42_first_response_plays_at_once"], "note": ""},
{"property": "C43", "status": "proved", "theorems": ["Zones.Props.C43_safe_destruction", "Zones.Props.C43_destruction_during_load", "Zones.Props.C43_destruction_before_callback"], "note": ""},
{"property": "C44", "status": "proved", "theorems": ["Zones.Props.C44_load_cancels_everyone", "Zones.Props.C44_otherwise_independent"], "note": ""},
{"property": "C45", "status": "proved", "theorems": ["Zones.Props.C45_steady_state", "Zones.Props.C45_converges_to_newest"], "note": ""},
{"property": "C46", "status": "proved", "theorems": ["Zones.Props.C46_linear", "Zones.Props.C46_time_invariant"], "note": ""},
{"property": "C47", "status": "proved", "theorems": ["Zones.Props.C47_response_ends"], "note": ""},
{"property": "C48", "status": "proved", "theorems": ["Zones.Props.C48_pointwise", "Zones.Props.C48_shape_mismatch", "Zones.Props.C48_float_view", "Zones.Props.C48_no_aliasing", "Zones.Props.C48_write_channel"], "note": ""},
{"property": "C49", "status": "proved", "theorems": ["Zones.Props.C49_defined", "Zones.Props.C49_large_block_during_crossfade", "Zones.Props.C49_large_block_otherwise"], "note": ""},
{"property": "C50", "status": "proved", "theorems": ["Zones.Props.C50_convolver_passes", "Zones.Props.C50_uniform_passes", "Zones.Props.C50_nonuniform_passes"], "note": ""},
{"property": "C51", "status": "proved", "theorems": ["Zones.Props.C51_push_never_waits", "Zones.Props.C51_service_never_waits", "Zones.Props.C51_next_step_exists"], "note": ""},
{"property": "C52", "status": "proved", "theorems": ["Zones.Props.C52_sequential", "Zones.Props.C52_sequential_in_call", "Zones.Props.C52_call_finds_what_waits"], "note": ""},
{"property": "C53", "status": "proved", "theorems": ["Zones.Props.C53_audio_calls_never_wait", "Zones.Props.C53_bounded_steps"], "note": ""},
{"property": "C54", "status": "proved", "theorems": ["Zones.Props.C54_lock_gets_released", "Zones.Props.C54_load_in_listener_deadlocks"], "note": ""},
{"property": "C55", "status": "proved", "theorems": ["Zones.Props.C55_not_lost", "Zones.Props.C55_refused_only_if_full", "Zones.Props.C55_can_be_delivered"], "note": ""},
{"property": "C56", "status": "proved", "theorems": ["Zones.Props.C56_output_is_convolution_with_load", "Zones.Props.C56_end_to_end"], "note": ""},
{"property": "C57", "status": "proved", "theorems": ["Zones.Props.C57_generator_returns_viable_partitionings", "Zones.Props.C57_generator_returns_nothing_for_short_lengths"], "note": ""},
{"property": "C58", "status": "proved", "theorems": ["Zones.Props.C58_generator_is_optimal"], "note": ""},
{"property": "C59", "status": "proved", "theorems": ["Zones.Props.C59_generated_tables_are_playable"], "note": ""},
{"property": "C60", "status": "proved", "theorems": ["Zones.Props.C60_compiled_tables_are_optimal", "Zones.Props.C60_compiled_tables_cost_what_the_generator_finds"], "note": ""},
{"property": "C61", "status": "proved", "theorems": ["Zones.Props.C61_loads_end", "Zones.Props.C61_last_load_arrives"], "note": ""},
{"property": "C62", "status": "proved", "theorems": ["Zones.Props.C62_delivered_is_picked_up"], "note": ""},
{"property": "C63", "status": "proved", "theorems": ["Zones.Props.C63_finally_convolution"], "note": ""},
{"property": "C64", "status": "proved", "theorems": ["Zones.Props.C64_replaced_is_destroyed", "Zones.Props.C64_listeners_are_told"], "note": ""},
{"property": "C65", "status": "proved", "theorems": ["Zones.Props.C65_scheme_is_not_wasteful"], "note": ""},
{"property": "C66", "status": "proved", "theorems": ["Zones.Props.C66_no_int_overflow", "Zones.Props.C66_every_sample_once", "Zones.Props.C66_overflow_is_reported"], "note": ""},
{"property": "C67", "status": "proved", "theorems": ["Zones.Props.C67_distributed_forward_is_bit_exact", "Zones.Props.C67_distributed_inverse_is_bit_exact"], "note": ""},
{"property": "C68", "status": "proved", "theorems": ["Zones.Props.C68_equal_channels_give_equal_outputs", "Zones.Props.C68_other_channels_do_not_matter"], "note": ""},
{"property": "C69", "status": "proved", "theorems": ["Zones.Props.C69_forward_error", "Zones.Props.C69_inverse_error", "Zones.Props.C69_round_trip_error"], "note": ""},
{"property": "C70", "status": "proved", "theorems": ["Zones.Props.C70_uniform_error", "Zones.Props.C70_time_distributed_error"], "note": ""},
{"property": "C71", "status": "proved", "theorems": ["Zones.Props.C71_rounding_error_bounded", "Zones.Props.C71_rounding_error_absolute"], "note": ""},
{"property": "C72", "status": "proved", "theorems": ["Zones.Props.C72_reset_forgets_rounding_errors"], "note": ""},
{"property": "C73", "status": "proved", "theorems": ["Zones.Props.C73_silence_is_exact"], "note": ""},
{"property": "C74", "status": "proved", "theorems": ["Zones.Props.C74_crossfade", "Zones.Props.C74_in_out_fade", "Zones.Props.C74_fade_choice", "Zones.Props.C74_next_fade"], "note": ""},
{"property": "C75", "status": "proved", "theorems": ["Zones.Props.C75_settled_output", "Zones.Props.C75_crossfade", "Zones.Props.C75_in_out_fade"], "note": ""},
{"property": "C76", "status": "proved", "theorems": ["Zones.Props.C76_converges_to_newest", "Zones.Props.C76_concurrent", "Zones.Props.C76_end_to_end", "Zones.Props.C76_finally"], "note": ""},
{"property": "C77", "status": "proved", "theorems": ["Zones.Props.C77_no_data_race", "Zones.Props.C77_in_order_exactly_once", "Zones.Props.C77_service_is_complete", "Zones.Props.C77_refused_only_when_full", "Zones.Props.C77_next_step_exists", "Zones.Props.C77_includes_sequential"], "note": ""},
{"property": "C78", "status": "proved", "theorems": ["Zones.Props.C78_level_bounded", "Zones.Props.C78_silence_stays_silent", "Zones.Props.C78_bound_attained", "Zones.Props.C78_concurrent"], "note": ""},
{"property": "C79", "status": "proved", "theorems": ["Zones.Props.C79_level_bounded_in_float", "Zones.Props.C79_concurrent"], "note": ""},
{"property": "C80", "status": "proved", "theorems": ["Zones.Props.C80_past_is_forgotten", "Zones.Props.C80_tail_ends", "Zones.Props.C80_concurrent", "Zones.Props.C80_silence_concurrent"], "note": ""},
{"property": "C81", "status": "proved", "theorems": ["Zones.Props.C81_past_is_forgotten_in_float", "Zones.Props.C81_tail_ends_in_float", "Zones.Props.C81_concurrent", "Zones.Props.C81_silence_concurrent"], "note": ""},
{"property": "C82", "status": "proved", "theorems": ["Zones.Props.C82_no_races", "Zones.Props.C82_destructor", "Zones.Props.C82_example"], "note": ""},
{"property": "C83", "status": "proved", "theorems": ["Zones.Props.C83_prepare_races", "Zones.Props.C83_reset_races", "Zones.Props.C83_destructor_races", "Zones.Props.C83_prepare_example", "Zones.Props.C83_destructor_example"], "note": ""},
{"property": "C84", "status": "proved", "theorems": ["Zones.Props.C84_whole_blocks_are_exact", "Zones.Props.C84_clear_schemes_are_exact", "Zones.Props.C84_one_block_less_is_wrong", "Zones.Props.C84_exact_iff_clear", "Zones.Props.C84_generated_tables_can_be_wrong"], "note": ""},
{"property": "C85", "status": "proved", "theorems": ["Zones.Props.C85_reference", "Zones.Props.C85_concurrent"], "note": ""},
{"property": "C86", "status": "proved", "theorems": ["Zones.Props.C86_reference", "Zones.Props.C86_concurrent"], "note": ""},
{"property": "C87", "status": "proved", "theorems": ["Zones.Props.C87_exact", "Zones.Props.C87_period", "Zones.Props.C87_worst_block"], "note": ""},
{"property": "C88", "status": "proved", "theorems": ["Zones.Props.C88_generator_minimises_executed_operations", "Zones.Props.C88_near_optimal"], "note": ""},
{"property": "C89", "status": "proved", "theorems": ["Zones.Props.C89_fixed_memory", "Zones.Props.C89_linear_memory"], "note": ""},
{"property": "C90", "status": "proved", "theorems": ["Zones.Props.C90_process_runs", "Zones.Props.C90_others_run_nothing", "Zones.Props.C90_arrivals_run_nothing", "Zones.Props.C90_notebooks_are_only_written", "Zones.Props.C90_once_per_block"], "note": ""},
{"property": "C91", "status": "proved", "theorems": ["Zones.Props.C91_memory_is_finite", "Zones.Props.C91_memory_is_finite_after_reset"], "note": ""},
{"property": "C92", "status": "proved", "theorems": ["Zones.Props.C92_only_the_pieces_matter", "Zones.Props.C92_only_the_pieces_matter_after_reset", "Zones.Props.C92_block_lengths_do_not_matter"], "note": ""},
{"property": "C93", "status": "proved", "theorems": ["Zones.Props.C93_bounded_with_underflow_and_overflow", "Zones.Props.C93_noise_floor", "Zones.Props.C93_binary32"], "note": ""},
{"property": "C94", "status": "proved", "theorems": ["Zones.Props.C94_bits_depend_on_recent_input", "Zones.Props.C94_reproducible", "Zones.Props.C94_reset_forgets", "Zones.Props.C94_concurrent", "Zones.Props.C94_concurrent_recent", "Zones.Props.C94_concurrent_reset"], "note": ""},
{"property": "C95", "status": "proved", "theorems": ["Zones.Props.C95_concurrent_reset", "Zones.Props.C95_bad_values_pass", "Zones.Props.C95_bad_values_gone_after_reset", "Zones.Props.C95_engine_bad_values_pass", "Zones.Props.C95_engine_reset_removes_bad_values", "Zones.Props.C95_concurrent"], "note": ""},
{"property": "C96", "status": "proved", "theorems": ["Zones.Props.C96_right_after_bad_values"], "note": ""},
{"property": "C97", "status": "proved", "theorems": ["Zones.Props.C97_engine_recovers", "Zones.Props.C97_concurrent", "Zones.Props.C97_finally"], "note": ""},
{"property": "C98", "status": "proved", "theorems": ["Zones.Props.C98_long_responses", "Zones.Props.C98_no_int_overflow", "Zones.Props.C98_last_sample_lost"], "note": ""},
{"property": "C99", "status": "proved", "theorems": ["Zones.Props.C99_convolvers_of_an_engine", "Zones.Props.C99_one_job_of_an_engine", "Zones.Props.C99_system_is_bounded", "Zones.Props.C99_memory_is_bounded"], "note": ""},
{"property": "C100", "status": "proved", "theorems": ["Zones.Props.C100_values", "Zones.Props.C100_exact", "Zones.Props.C100_owns", "Zones.Props.C100_no_leak", "Zones.Props.C100_delay_line", "Zones.Props.C100_copies_alias"], "note": ""},
{"property": "C101", "status": "proved", "theorems": ["Zones.Props.C101_copied", "Zones.Props.C101_never_read"], "note": ""},
{"property": "C102", "status": "proved", "theorems": ["Zones.Props.C102_linear_causal", "Zones.Props.C102_causal", "Zones.Props.C102_silent", "Zones.Props.C102_concurrent", "Zones.Props.C102_concurrent_causal"], "note": ""},
{"property": "C103", "status": "proved", "theorems": ["Zones.Props.C103_splitting", "Zones.Props.C103_crossfades", "Zones.Props.C103_rest_is_silent", "Zones.Props.C103_concurrent", "Zones.Props.C103_concurrent_crossfades"], "note": ""},
{"property": "C104", "status": "proved", "theorems": ["Zones.Props.C104_engine_cost", "Zones.Props.C104_counters_are_only_written"], "note": ""},
{"property": "C105", "status": "proved", "theorems": ["Zones.Props.C105_pieces_matter", "Zones.Props.C105_multiples", "Zones.Props.C105_concurrent"], "note": "responses arrive one at a time with crossfades that are over within their signals; in/out fades and superseded arrivals depend on where blocks end (C103)"},
{"property": "C106", "status": "proved", "theorems": ["Zones.Props.C106_as_if_waited", "Zones.Props.C106_exactly_one_place", "Zones.Props.C106_lost_only_by_kill", "Zones.Props.C106_all_but_one_destroyed", "Zones.Props.C106_never_waits", "Zones.Props.C106_kill_leaks"], "note": ""},
{"property": "C107", "status": "proved", "theorems": ["Zones.Props.C107_first_channels", "Zones.Props.C107_reference", "Zones.Props.C107_rounded", "Zones.Props.C107_concurrent", "Zones.Props.C107_too_few"], "note": ""},
{"property": "C108", "status": "proved", "theorems": ["Zones.Props.C108_listeners_change_nothing", "Zones.Props.C108_listeners_are_up_to_date", "Zones.Props.C108_called_once_for_each_load", "Zones.Props.C108_loads_are_counted_once", "Zones.Props.C108_removed_is_not_called", "Zones.Props.C108_listeners_prevent_nothing", "Zones.Props.C108_reset_is_not_announced"], "note": ""}
]}
