# Axioms each property theorem depends on

Generated by `tools/gen_axioms.py` from `#print axioms`.

## none

`C38_builders`, `C55_counterexample`, `C81_cursor`, `C81_colours_differ`

## propext

`C20_before`, `C20_move_assign`, `C20_run`, `C20_destroyed`, `C21_counterexample`, `C21_always_ub`, `C29_back_ub`, `C36_no_digit`, `C38_derive`, `C44_codes`, `C45_shown`, `C75_example_args`, `C98_exact`, `C98_partial`

## Quot.sound, propext

`C20_after`, `C20_moved_from`, `C20_ownership`, `C20_first`, `C21_partial`, `C28_dead`, `C29_counterexample`, `C30_null`, `C33_counterexample`, `C36_reads`, `C39_lines`, `C39_total`, `C39_chunks`, `C39_end`, `C40_visible`, `C41_least`, `C45_only`, `C55_partial`, `C55_exact`, `C55_distinct`, `C76_partial`, `C92_not_before`, `C92_exact`, `C92_on_schedule`, `C98_paths`, `C98_left`, `C98_replace`, `C98_add`, `C99_total`, `C102_whole`, `C111_remains`, `C111_cycle`

## Classical.choice, Quot.sound, propext

`C01_ordering`, `C01_transitive`, `C02_at_most_once`, `C02_one_record`, `C02_no_double_record`, `C03_resource_exclusivity`, `C03_tasks`, `C04_thread_limit`, `C04_sequential`, `C05_failed_dependency`, `C05_transitive`, `C05_only_if`, `C05_root`, `C06_status_meaning`, `C06_retcode`, `C07_local`, `C07_schedule_independence`, `C08_executed_iff_stale`, `C08_not_skipped`, `C08_pass`, `C09_exact`, `C09_detected`, `C10_reported_cycle`, `C11_completes`, `C11_no_deadlock`, `C11_ticks_sequential`, `C12_no_assert`, `C13_stats`, `C13_final`, `C14_work_conserving`, `C14_one_start_per_tick`, `C14_scheduled_is_started`, `C15_prologue`, `C15_node_history`, `C15_complete`, `C15_after_execution`, `C16_counterexample`, `C16_partial`, `C16_exact`, `C16_earlier`, `C16_real`, `C17_as_failed_task`, `C17_not_execution_failure`, `C17_partial`, `C17_default_std`, `C17_counterexample`, `C17_exact`, `C18_delivery_exact`, `C18_joined`, `C18_nothing_new`, `C18_delivered`, `C18_inval_throws`, `C18_only_reasons`, `C19_return_exact`, `C19_destroy`, `C19_returns`, `C20_record_stable`, `C21_always_ub_exec`, `C21_absorbing`, `C22_selected`, `C22_defined`, `C22_executed`, `C23_edges`, `C23_empty`, `C24_visits`, `C24_once`, `C24_order`, `C24_distinct`, `C25_for_each_add_dep`, `C25_run_each_after`, `C25_add_dep_to_each`, `C25_run_after_all_of`, `C25_invalidated_by_all_of`, `C26_declared`, `C26_run_after_all_of`, `C26_add_dep_to_each`, `C26_add_dep_selects`, `C26_run_each_after`, `C26_for_each_add_dep`, `C26_for_each_add_dep_selects`, `C27_ub`, `C27_partial`, `C27_counterexample`, `C27_exact`, `C28_sequence`, `C28_alive`, `C28_disjoint`, `C29_partial`, `C29_first`, `C30_node`, `C30_header`, `C30_distinct`, `C30_order`, `C31_safe`, `C31_destroy`, `C31_no_leak`, `C32_clear_if`, `C33_construct`, `C33_partial`, `C33_assign_leaks`, `C34_stale`, `C34_missing_input`, `C34_missing_input_ignored`, `C35_exact`, `C35_no_output`, `C35_partial`, `C35_unnoticed`, `C35_inverted`, `C35_counterexample`, `C36_recorded`, `C36_round_trip`, `C36_written`, `C36_only`, `C36_failed_again`, `C36_full`, `C37_throws`, `C37_retcode`, `C37_output`, `C37_messages`, `C40_text`, `C41_exact`, `C41_partial`, `C41_counterexample`, `C42_exact`, `C42_partial`, `C42_counts`, `C42_counterexample`, `C43_partial`, `C43_lt_breaks`, `C43_counterexample`, `C43_exact`, `C44_run_members`, `C44_chunk_members`, `C44_exec_members`, `C44_injective`, `C44_task_not_exported`, `C44_run_only`, `C45_execution`, `C46_partial`, `C46_reusable`, `C46_counterexample`, `C46_exact`, `C47_lines`, `C47_pairs`, `C47_complete`, `C47_partial`, `C47_declared`, `C47_run_after_only`, `C47_counterexample`, `C47_dependency_counterexample`, `C47_exact`, `C47_text`, `C48_names`, `C48_words`, `C49_times`, `C49_covers`, `C50_summary`, `C50_sum`, `C50_faithful`, `C51_counterexample`, `C51_always_ub`, `C51_partial`, `C51_exact`, `C52_existing`, `C53_refines`, `C54_up_to_date`, `C55_ambiguous`, `C56_exact`, `C56_partial`, `C56_forgotten`, `C56_counterexample`, `C56_counterexample_full`, `C57_partial`, `C57_summary_off`, `C57_counterexample`, `C58_suite_never`, `C58_partial`, `C58_counterexample`, `C59_erase`, `C59_history`, `C59_once`, `C59_engine`, `C60_up_to_date`, `C60_nothing_to_do`, `C60_null_build`, `C60_run_after_counterexample`, `C61_incremental`, `C62_exact`, `C62_forgotten`, `C62_partial`, `C62_counterexample`, `C63_ordered`, `C63_resource`, `C63_reported`, `C63_started`, `C63_transitive`, `C64_delivery_exact`, `C64_thrown`, `C64_nothing_new`, `C64_delivered`, `C64_only`, `C65_on_tick`, `C66_true`, `C66_explained`, `C67_callable_runs`, `C67_reason`, `C68_start`, `C68_end`, `C68_summary`, `C69_partial`, `C69_counterexample`, `C69_exact`, `C69_exact_example`, `C70_meaning`, `C70_handle`, `C70_run`, `C71_still`, `C71_throws`, `C71_queries`, `C71_no_was_right`, `C71_yes_is_right`, `C71_grow_throws`, `C71_execution`, `C71_rewritten_counterexample`, `C71_late_counterexample`, `C71_unreadable_counterexample`, `C72_explained`, `C73_all_ok`, `C73_dep`, `C73_depf`, `C73_filter`, `C73_cyclic_invalidation`, `C73_cyclic_after`, `C73_process`, `C73_corner_cases`, `C74_run_log`, `C74_stderr`, `C74_verbose`, `C75_discarded`, `C75_readme`, `C75_example_set`, `C75_example`, `C75_example_zero`, `C75_reads`, `C75_shown`, `C76_sequence`, `C76_clean`, `C76_undefined`, `C76_counterexample`, `C76_exact`, `C77_counterexample`, `C77_stuck`, `C77_failed`, `C77_partial`, `C77_failed_exact`, `C77_exact`, `C78_same`, `C78_schedule`, `C78_prefix`, `C79_prompt`, `C79_ticks`, `C80_alone`, `C80_same_results`, `C80_progress`, `C80_turns`, `C80_partial`, `C80_exact`, `C80_counterexample`, `C81_start`, `C81_end`, `C81_summary`, `C81_no_leak`, `C82_not_repeated`, `C82_not_lost`, `C82_exact`, `C82_partial`, `C82_points`, `C82_completed`, `C82_counterexample`, `C82_torn`, `C83_makespan`, `C83_lower_bound`, `C83_twice_optimal`, `C84_exact`, `C84_moment`, `C84_next`, `C84_partial`, `C84_counterexample`, `C85_race`, `C85_ordered`, `C85_no_race`, `C85_set`, `C85_calls`, `C85_twice`, `C86_partial`, `C86_others`, `C86_unmixed`, `C86_read`, `C86_exact`, `C86_counterexample`, `C86_cut`, `C87_parallel`, `C87_exact`, `C87_needed`, `C88_partial`, `C88_exact`, `C88_never_more`, `C88_counterexample`, `C89_repair`, `C90_local`, `C91_build`, `C91_build_all`, `C91_build_chain`, `C91_cycle_calls`, `C91_cycle_depth`, `C91_find`, `C91_cycle_cmps`, `C91_search`, `C91_invalidation`, `C91_chain`, `C92_busy`, `C92_ticks`, `C92_start_ticks`, `C92_start`, `C92_end`, `C92_null`, `C93_order`, `C93_search`, `C93_priority`, `C93_sequential`, `C94_partial`, `C94_one_thread`, `C94_counterexample`, `C94_counterexample_threads`, `C94_counterexample_order`, `C95_same`, `C95_every`, `C95_resources`, `C95_threads`, `C95_order`, `C95_no_race`, `C95_completes`, `C96_filter`, `C96_name`, `C96_nested`, `C96_line`, `C96_cut`, `C96_counterexample`, `C96_partial`, `C96_cmd`, `C96_json`, `C96_json_counterexample`, `C96_junit`, `C97_exact`, `C97_partial`, `C97_runs`, `C97_apart`, `C97_unordered`, `C97_overlap`, `C97_counterexample`, `C98_wf`, `C98_name`, `C98_edges`, `C98_results`, `C98_moved_ub`, `C98_moved_lost`, `C98_counterexample`, `C99_exact`, `C99_partial`, `C99_counterexample`, `C100_exact`, `C100_began`, `C100_partial`, `C100_after`, `C100_invalidated`, `C100_counterexample`, `C101_after_call`, `C101_between_calls`, `C101_history`, `C101_nothing_new`, `C101_delivered`, `C101_only`, `C102_part`, `C102_exact`, `C102_partial`, `C102_counterexample`, `C102_retry`, `C103_same`, `C103_tasks`, `C103_sharp`, `C104_ordered`, `C104_free`, `C104_every`, `C104_orders`, `C104_exact`, `C104_partial`, `C104_counterexample`, `C105_alone`, `C105_races`, `C105_partial`, `C105_exact`, `C105_sets`, `C105_counterexample`, `C106_cases`, `C106_report`, `C106_green`, `C106_names`, `C106_partial`, `C106_exact`, `C106_counterexample`, `C107_partial`, `C107_results`, `C107_completes`, `C107_counterexample`, `C107_leak`, `C107_relations`, `C108_calendar`, `C108_unique`, `C108_text`, `C108_sorts`, `C108_junit_sorts`, `C108_exact`, `C108_length`, `C108_file_times`, `C108_explanation`, `C108_json`, `C108_execution`, `C108_junit`, `C108_line`, `C108_line_same`, `C108_second`, `C109_reads`, `C109_counts`, `C109_grows`, `C109_report`, `C110_exact`, `C110_partial`, `C110_clean`, `C110_failure`, `C110_counterexample`, `C111_refines`, `C111_order`, `C111_results`, `C111_depf`, `C111_records`, `C111_completes`, `C112_silent`, `C112_exceptions`, `C113_results`, `C113_live`, `C113_bound`, `C113_safe`, `C113_meaning`, `C113_refines`, `C113_fine`, `C113_outcome`, `C113_tasks`, `C113_tasks_results`, `C114_reads`, `C114_last`, `C114_unused`, `C114_enough`, `C114_tasks`, `C114_exact`, `C114_dangling`, `C114_abandoned`, `C114_reports`, `C115_same`, `C115_possible`, `C115_ordered`, `C115_seqOrder`, `C115_orders`, `C116_others`, `C116_few`, `C116_after`, `C116_waits`, `C117_become`, `C117_statuses`, `C117_successes`, `C117_same`, `C117_orders`, `C118_complete`, `C118_agree`, `C118_stale`, `C118_before_run`, `C118_predicts`, `C118_run_log`, `C118_after_run`, `C119_only`, `C119_possible`, `C119_exact`, `C119_whole`, `C119_needed`, `C119_queue_tasks`, `C119_queue_fine`, `C119_queue_only`, `C119_queue_possible`, `C119_queue_exact`, `C119_queue_whole`, `C119_tasks`, `C119_fine`, `C120_duration_fine`, `C120_replay`, `C120_exact`, `C120_fine`, `C120_duration`, `C120_possible`, `C120_some`, `C121_exact`, `C121_monotone`, `C121_most`, `C121_threads`, `C121_fine`, `C122_most`, `C122_least`, `C122_none`, `C122_parallel`, `C122_twice`, `C122_any`, `C123_same`, `C123_serial`, `C123_isolated`, `C123_exists`, `C123_order`, `C123_build`, `C123_resource_counterexample`, `C124_fits`, `C124_unique`, `C124_same`, `C124_change`, `C124_date_counterexample`, `C124_settles`, `C124_honest`, `C124_builds`, `C124_clean`, `C124_possible`, `C124_run_after_counterexample`
