{
 "claims": [
  {
   "property": "C01",
   "status": "proved",
   "theorems": [
    "Joque.C01_ordering",
    "Joque.C01_transitive"
   ],
   "note": ""
  },
  {
   "property": "C02",
   "status": "proved",
   "theorems": [
    "Joque.C02_at_most_once",
    "Joque.C02_one_record",
    "Joque.C02_no_double_record"
   ],
   "note": ""
  },
  {
   "property": "C03",
   "status": "proved",
   "theorems": [
    "Joque.C03_resource_exclusivity",
    "Joque.C03_tasks"
   ],
   "note": ""
  },
  {
   "property": "C04",
   "status": "proved",
   "theorems": [
    "Joque.C04_thread_limit",
    "Joque.C04_sequential"
   ],
   "note": ""
  },
  {
   "property": "C05",
   "status": "proved",
   "theorems": [
    "Joque.C05_failed_dependency",
    "Joque.C05_transitive",
    "Joque.C05_only_if",
    "Joque.C05_root"
   ],
   "note": "Hypothesis REQUIRES \u2286 AFTER holds for every dag built from task sets (C23_empty)."
  },
  {
   "property": "C06",
   "status": "proved",
   "theorems": [
    "Joque.C06_status_meaning",
    "Joque.C06_retcode"
   ],
   "note": ""
  },
  {
   "property": "C07",
   "status": "proved",
   "theorems": [
    "Joque.C07_local",
    "Joque.C07_schedule_independence"
   ],
   "note": ""
  },
  {
   "property": "C08",
   "status": "proved",
   "theorems": [
    "Joque.C08_executed_iff_stale",
    "Joque.C08_not_skipped",
    "Joque.C08_pass"
   ],
   "note": ""
  },
  {
   "property": "C09",
   "status": "proved",
   "theorems": [
    "Joque.C09_exact",
    "Joque.C09_detected"
   ],
   "note": ""
  },
  {
   "property": "C10",
   "status": "proved",
   "theorems": [
    "Joque.C10_reported_cycle"
   ],
   "note": ""
  },
  {
   "property": "C11",
   "status": "proved",
   "theorems": [
    "Joque.C11_completes",
    "Joque.C11_no_deadlock",
    "Joque.C11_ticks_sequential"
   ],
   "note": ""
  },
  {
   "property": "C12",
   "status": "proved",
   "theorems": [
    "Joque.C12_no_assert"
   ],
   "note": ""
  },
  {
   "property": "C13",
   "status": "proved",
   "theorems": [
    "Joque.C13_stats",
    "Joque.C13_final"
   ],
   "note": ""
  },
  {
   "property": "C14",
   "status": "proved",
   "theorems": [
    "Joque.C14_work_conserving",
    "Joque.C14_one_start_per_tick",
    "Joque.C14_scheduled_is_started"
   ],
   "note": ""
  },
  {
   "property": "C15",
   "status": "proved",
   "theorems": [
    "Joque.C15_prologue",
    "Joque.C15_node_history",
    "Joque.C15_complete",
    "Joque.C15_after_execution"
   ],
   "note": ""
  },
  {
   "property": "C16",
   "status": "partial",
   "theorems": [
    "Joque.C16_counterexample",
    "Joque.C16_partial",
    "Joque.C16_exact",
    "Joque.C16_earlier",
    "Joque.C16_real"
   ],
   "note": "False for thread_count >= 2: run_coro's move assignment swaps the handles but not the node_ reference (counterexample theorem). C16_exact says when, for every thread_count and schedule: the node is right if and only if no task that began earlier was reported in an earlier resumption while this one was in flight; so the ordinary case of two overlapping tasks, of which the older one ends first, is the one that goes wrong. C16_earlier: the wrong node is that of a task which began earlier. Proved right for thread_count <= 1; for every thread_count the argument is at least a node of the graph (C16_real)."
  },
  {
   "property": "C17",
   "status": "partial",
   "theorems": [
    "Joque.C17_as_failed_task",
    "Joque.C17_not_execution_failure",
    "Joque.C17_partial",
    "Joque.C17_default_std",
    "Joque.C17_counterexample",
    "Joque.C17_exact"
   ],
   "note": "False for the default job_traits: a callable throwing std::exception yields run_result with uninitialised retcode (counterexample; C17_default_std shows it never gets its FAIL record). Proved for every other job; C17_as_failed_task shows a throwing job_iface::run is indistinguishable from one returning code 1. C17_exact: in an execution that ran to its end every job that was begun and threw has its FAIL record and is not of that kind."
  },
  {
   "property": "C18",
   "status": "proved",
   "theorems": [
    "Joque.C18_delivery_exact",
    "Joque.C18_joined",
    "Joque.C18_nothing_new",
    "Joque.C18_delivered",
    "Joque.C18_inval_throws",
    "Joque.C18_only_reasons"
   ],
   "note": ""
  },
  {
   "property": "C19",
   "status": "proved",
   "theorems": [
    "Joque.C19_return_exact",
    "Joque.C19_destroy",
    "Joque.C19_returns"
   ],
   "note": ""
  },
  {
   "property": "C20",
   "status": "proved",
   "theorems": [
    "Joque.C20_before",
    "Joque.C20_after",
    "Joque.C20_moved_from",
    "Joque.C20_move_assign",
    "Joque.C20_ownership",
    "Joque.C20_run",
    "Joque.C20_record_stable",
    "Joque.C20_destroyed",
    "Joque.C20_first"
   ],
   "note": ""
  },
  {
   "property": "C21",
   "status": "partial",
   "theorems": [
    "Joque.C21_counterexample",
    "Joque.C21_always_ub",
    "Joque.C21_always_ub_exec",
    "Joque.C21_partial",
    "Joque.C21_absorbing"
   ],
   "note": "False: tick() resumes at the final suspension point (undefined behaviour), for every finished execution. Proved: tick() on an empty handle does nothing and run() never resumes a finished execution."
  },
  {
   "property": "C22",
   "status": "proved",
   "theorems": [
    "Joque.C22_selected",
    "Joque.C22_defined",
    "Joque.C22_executed"
   ],
   "note": ""
  },
  {
   "property": "C23",
   "status": "proved",
   "theorems": [
    "Joque.C23_edges",
    "Joque.C23_empty"
   ],
   "note": ""
  },
  {
   "property": "C24",
   "status": "proved",
   "theorems": [
    "Joque.C24_visits",
    "Joque.C24_once",
    "Joque.C24_order",
    "Joque.C24_distinct"
   ],
   "note": ""
  },
  {
   "property": "C25",
   "status": "proved",
   "theorems": [
    "Joque.C25_for_each_add_dep",
    "Joque.C25_run_each_after",
    "Joque.C25_add_dep_to_each",
    "Joque.C25_run_after_all_of",
    "Joque.C25_invalidated_by_all_of"
   ],
   "note": ""
  },
  {
   "property": "C26",
   "status": "proved",
   "theorems": [
    "Joque.C26_declared",
    "Joque.C26_run_after_all_of",
    "Joque.C26_add_dep_to_each",
    "Joque.C26_add_dep_selects",
    "Joque.C26_run_each_after",
    "Joque.C26_for_each_add_dep",
    "Joque.C26_for_each_add_dep_selects"
   ],
   "note": ""
  },
  {
   "property": "C27",
   "status": "partial",
   "theorems": [
    "Joque.C27_ub",
    "Joque.C27_partial",
    "Joque.C27_counterexample",
    "Joque.C27_exact"
   ],
   "note": "False: tmp[&t] inserts into the unordered_map that insert_set is iterating; if that rehashes the iterator is invalid (counterexample; C27_ub: always undefined behaviour when every insertion rehashes). Proved when no insertion rehashes: the external task is scheduled, but named ''. C27_exact: undefined behaviour iff the insertion of one of the external dependencies rehashes."
  },
  {
   "property": "C28",
   "status": "proved",
   "theorems": [
    "Joque.C28_sequence",
    "Joque.C28_alive",
    "Joque.C28_dead",
    "Joque.C28_disjoint"
   ],
   "note": ""
  },
  {
   "property": "C29",
   "status": "partial",
   "theorems": [
    "Joque.C29_partial",
    "Joque.C29_first",
    "Joque.C29_back_ub",
    "Joque.C29_counterexample"
   ],
   "note": "False for back(): *++end() dereferences a null iterator on every list (C29_back_ub, counterexample). Proved: operator-- gives the previous element, and the end iterator at the first one."
  },
  {
   "property": "C30",
   "status": "proved",
   "theorems": [
    "Joque.C30_node",
    "Joque.C30_header",
    "Joque.C30_null",
    "Joque.C30_distinct",
    "Joque.C30_order"
   ],
   "note": ""
  },
  {
   "property": "C31",
   "status": "proved",
   "theorems": [
    "Joque.C31_safe",
    "Joque.C31_destroy",
    "Joque.C31_no_leak"
   ],
   "note": ""
  },
  {
   "property": "C32",
   "status": "proved",
   "theorems": [
    "Joque.C32_clear_if"
   ],
   "note": ""
  },
  {
   "property": "C33",
   "status": "partial",
   "theorems": [
    "Joque.C33_construct",
    "Joque.C33_partial",
    "Joque.C33_assign_leaks",
    "Joque.C33_counterexample"
   ],
   "note": "False for move assignment into a graph that has nodes: list_header's move assignment overwrites next, the old nodes leak (C33_assign_leaks: always; counterexample). Proved: move construction, and move assignment into an empty graph."
  },
  {
   "property": "C34",
   "status": "proved",
   "theorems": [
    "Joque.C34_stale",
    "Joque.C34_missing_input",
    "Joque.C34_missing_input_ignored"
   ],
   "note": ""
  },
  {
   "property": "C35",
   "status": "partial",
   "theorems": [
    "Joque.C35_exact",
    "Joque.C35_no_output",
    "Joque.C35_partial",
    "Joque.C35_unnoticed",
    "Joque.C35_inverted",
    "Joque.C35_counterexample"
   ],
   "note": "False: without inputs the answer is inverted (C35_inverted), and with libstdc++'s clock, whose epoch is after all file times, a missing output is never noticed when another one exists (C35_unnoticed); counterexample for both. Proved: no outputs; all outputs missing; epoch before all file times. C35_exact: when exactly a missing output goes unnoticed."
  },
  {
   "property": "C36",
   "status": "proved",
   "theorems": [
    "Joque.C36_recorded",
    "Joque.C36_round_trip",
    "Joque.C36_written",
    "Joque.C36_only",
    "Joque.C36_failed_again",
    "Joque.C36_full",
    "Joque.C36_reads",
    "Joque.C36_no_digit"
   ],
   "note": "For completed runs, on a device with room for the code. What happens when the process cannot be started, drained or waited for is C56; on a full device the code is cut off, and without a digit it reads as success (C36_full)."
  },
  {
   "property": "C37",
   "status": "proved",
   "theorems": [
    "Joque.C37_throws",
    "Joque.C37_retcode",
    "Joque.C37_output",
    "Joque.C37_messages"
   ],
   "note": ""
  },
  {
   "property": "C38",
   "status": "proved",
   "theorems": [
    "Joque.C38_derive",
    "Joque.C38_builders"
   ],
   "note": ""
  },
  {
   "property": "C39",
   "status": "proved",
   "theorems": [
    "Joque.C39_lines",
    "Joque.C39_total",
    "Joque.C39_chunks",
    "Joque.C39_end"
   ],
   "note": ""
  },
  {
   "property": "C40",
   "status": "proved",
   "theorems": [
    "Joque.C40_text",
    "Joque.C40_visible"
   ],
   "note": "One character per column is assumed (ASCII names); C40_visible needs a name without escape characters."
  },
  {
   "property": "C41",
   "status": "partial",
   "theorems": [
    "Joque.C41_exact",
    "Joque.C41_least",
    "Joque.C41_partial",
    "Joque.C41_counterexample"
   ],
   "note": "False for the record of an execution without tasks: runtime_sum dereferences the end iterator (counterexample theorem: such an execution finishes and hands that record to after_execution). Proved for every non-empty record. C41_exact: undefined iff the execution had no tasks."
  },
  {
   "property": "C42",
   "status": "partial",
   "theorems": [
    "Joque.C42_exact",
    "Joque.C42_partial",
    "Joque.C42_counts",
    "Joque.C42_counterexample"
   ],
   "note": "Undefined behaviour for the record of an execution without tasks (counterexample). For every other record, with names free of XML metacharacters, an independent XML reader recovers exactly the expected tree; counts proved for every record of every execution. C42_exact: no report iff the execution had no tasks."
  },
  {
   "property": "C43",
   "status": "partial",
   "theorems": [
    "Joque.C43_partial",
    "Joque.C43_lt_breaks",
    "Joque.C43_counterexample",
    "Joque.C43_exact"
   ],
   "note": "False: attribute values are not escaped. Counterexamples for quote, < and & in task and suite names; C43_lt_breaks shows every < does it. C43_exact: for a non-empty record, a reader gets the names of the suite and of all tasks back from the report if and only if none of them has a quote, <, & or a control character (whatever else the names do to the rest of the report)."
  },
  {
   "property": "C44",
   "status": "proved",
   "theorems": [
    "Joque.C44_run_members",
    "Joque.C44_chunk_members",
    "Joque.C44_codes",
    "Joque.C44_exec_members",
    "Joque.C44_injective",
    "Joque.C44_task_not_exported",
    "Joque.C44_run_only"
   ],
   "note": "The JSON library is abstracted to a tree with named members; std::format of time points is assumed injective."
  },
  {
   "property": "C45",
   "status": "proved",
   "theorems": [
    "Joque.C45_only",
    "Joque.C45_shown",
    "Joque.C45_execution"
   ],
   "note": ""
  },
  {
   "property": "C46",
   "status": "partial",
   "theorems": [
    "Joque.C46_partial",
    "Joque.C46_reusable",
    "Joque.C46_counterexample",
    "Joque.C46_exact"
   ],
   "note": "False with two or more threads (after_run may name another task, see C16) and after an execution that was abandoned before after_execution, whose nodes stay in the set (counterexamples). Proved for a fresh visitor as long as after_run names the right nodes; C46_exact: if the visitor shows all tasks, its set has been right up to some moment if and only if no task ended that outlived one begun before it (the condition of C16_exact). C46_reusable: the visitor is empty again after every finished execution."
  },
  {
   "property": "C47",
   "status": "partial",
   "theorems": [
    "Joque.C47_lines",
    "Joque.C47_pairs",
    "Joque.C47_complete",
    "Joque.C47_partial",
    "Joque.C47_declared",
    "Joque.C47_run_after_only",
    "Joque.C47_counterexample",
    "Joque.C47_dependency_counterexample",
    "Joque.C47_exact",
    "Joque.C47_text"
   ],
   "note": "False: the line lists the targets of all edges, so a dependency appears three times and a task that only invalidates appears although nothing orders the two (counterexamples, the latter with an execution in the other order). Proved: exact output for every dag, every task run after is listed, exact multiplicities for dags built by insert_set, and the claim itself for nodes with AFTER edges only. C47_exact: when the names differ and have no commas, the line is right if and only if the node has AFTER edges only, none of them twice. C47_text: print_dag puts each string on its own line."
  },
  {
   "property": "C48",
   "status": "proved",
   "theorems": [
    "Joque.C48_names",
    "Joque.C48_words"
   ],
   "note": ""
  },
  {
   "property": "C49",
   "status": "proved",
   "theorems": [
    "Joque.C49_times",
    "Joque.C49_covers"
   ],
   "note": ""
  },
  {
   "property": "C50",
   "status": "proved",
   "theorems": [
    "Joque.C50_summary",
    "Joque.C50_sum",
    "Joque.C50_faithful"
   ],
   "note": ""
  },
  {
   "property": "C51",
   "status": "partial",
   "theorems": [
    "Joque.C51_counterexample",
    "Joque.C51_always_ub",
    "Joque.C51_partial",
    "Joque.C51_exact"
   ],
   "note": "False: a task whose job is unset is dereferenced (undefined behaviour). Counterexample plus the theorem that it happens exactly when such a task is asked; proved that no UB arises when every job is set. Exactly which portion fails and how (undefined behaviour or the exception of a job asked earlier) is C51_exact."
  },
  {
   "property": "C52",
   "status": "proved",
   "theorems": [
    "Joque.C52_existing"
   ],
   "note": ""
  },
  {
   "property": "C53",
   "status": "proved",
   "theorems": [
    "Joque.C53_refines"
   ],
   "note": ""
  },
  {
   "property": "C54",
   "status": "proved",
   "theorems": [
    "Joque.C54_up_to_date"
   ],
   "note": ""
  },
  {
   "property": "C55",
   "status": "partial",
   "theorems": [
    "Joque.C55_partial",
    "Joque.C55_counterexample",
    "Joque.C55_exact",
    "Joque.C55_distinct",
    "Joque.C55_ambiguous"
   ],
   "note": "False: backslashes are not escaped (counterexample). C55_exact: two commands are shown alike if and only if they agree after joining each argument ending in a backslash with the next one; C55_distinct: commands without such an argument (the last one does not matter) are told apart; C55_ambiguous: the commands shown like some other one are exactly those with a blank in an argument or with such an argument."
  },
  {
   "property": "C56",
   "status": "partial",
   "theorems": [
    "Joque.C56_exact",
    "Joque.C56_partial",
    "Joque.C56_forgotten",
    "Joque.C56_counterexample",
    "Joque.C56_counterexample_full"
   ],
   "note": "False: a run that could not be started, drained or waited for leaves the retcode file as it was (C56_forgotten, counterexample), and on a full device the file is left empty, which reads as success (C56_counterexample_full). Proved for runs that completed on a device with room. C56_exact: forgotten iff the child did not run to its end and the file told success before, or it did and the device is full."
  },
  {
   "property": "C57",
   "status": "partial",
   "theorems": [
    "Joque.C57_partial",
    "Joque.C57_summary_off",
    "Joque.C57_counterexample"
   ],
   "note": "False for the summary line: format_exec_end passes a colour code as the status, which takes no room, so its text always starts four columns further left (C57_summary_off). Proved for all start and end lines of tasks."
  },
  {
   "property": "C58",
   "status": "partial",
   "theorems": [
    "Joque.C58_suite_never",
    "Joque.C58_partial",
    "Joque.C58_counterexample"
   ],
   "note": "False for the suite: std::format of chrono::seconds appends the unit, so the attribute is never a number (C58_suite_never). Partial: without the unit it is the decimal run time; the times of the tasks are passed through unchanged."
  },
  {
   "property": "C59",
   "status": "proved",
   "theorems": [
    "Joque.C59_erase",
    "Joque.C59_history",
    "Joque.C59_once",
    "Joque.C59_engine"
   ],
   "note": ""
  },
  {
   "property": "C60",
   "status": "proved",
   "theorems": [
    "Joque.C60_up_to_date",
    "Joque.C60_nothing_to_do",
    "Joque.C60_null_build",
    "Joque.C60_run_after_counterexample"
   ],
   "note": "Hypotheses: every process has inputs and outputs; inputs are sources or outputs of tasks in depends_on; successful children write all outputs; the file clock tells events apart; a process that says it is up to date has all its outputs (C35). C60_run_after_counterexample: run_after instead of depends_on is not enough."
  },
  {
   "property": "C61",
   "status": "proved",
   "theorems": [
    "Joque.C61_incremental"
   ],
   "note": ""
  },
  {
   "property": "C62",
   "status": "partial",
   "theorems": [
    "Joque.C62_exact",
    "Joque.C62_forgotten",
    "Joque.C62_partial",
    "Joque.C62_counterexample"
   ],
   "note": "False without a retcode file (a command that writes its output and then fails is considered up to date next time; C62_counterexample, C62_forgotten for a whole execution) and for runs that could not be started or waited for, or whose code found no room on the device (C56). Proved for processes with a retcode file whose child ran to its end and whose code was stored. C62_exact: when exactly a failure is forgotten."
  },
  {
   "property": "C63",
   "status": "proved",
   "theorems": [
    "Joque.C63_ordered",
    "Joque.C63_resource",
    "Joque.C63_reported",
    "Joque.C63_started",
    "Joque.C63_transitive"
   ],
   "note": ""
  },
  {
   "property": "C64",
   "status": "proved",
   "theorems": [
    "Joque.C64_delivery_exact",
    "Joque.C64_thrown",
    "Joque.C64_nothing_new",
    "Joque.C64_delivered",
    "Joque.C64_only"
   ],
   "note": ""
  },
  {
   "property": "C65",
   "status": "proved",
   "theorems": [
    "Joque.C65_on_tick"
   ],
   "note": ""
  },
  {
   "property": "C66",
   "status": "proved",
   "theorems": [
    "Joque.C66_true",
    "Joque.C66_explained"
   ],
   "note": ""
  },
  {
   "property": "C67",
   "status": "proved",
   "theorems": [
    "Joque.C67_callable_runs",
    "Joque.C67_reason"
   ],
   "note": ""
  },
  {
   "property": "C68",
   "status": "proved",
   "theorems": [
    "Joque.C68_start",
    "Joque.C68_end",
    "Joque.C68_summary"
   ],
   "note": ""
  },
  {
   "property": "C69",
   "status": "partial",
   "theorems": [
    "Joque.C69_partial",
    "Joque.C69_counterexample",
    "Joque.C69_exact",
    "Joque.C69_exact_example"
   ],
   "note": "Holds unless the visitor is verbose. Verbose: on_run_log writes its heading over the progress line without erasing the rest of it, so remnants stay on the screen (C69_counterexample). C69_exact: the screen is right if and only if every job whose log is printed over a progress line has a name of at least 65 characters plus two per digit of the number of tasks."
  },
  {
   "property": "C70",
   "status": "proved",
   "theorems": [
    "Joque.C70_meaning",
    "Joque.C70_handle",
    "Joque.C70_run"
   ],
   "note": ""
  },
  {
   "property": "C71",
   "status": "proved",
   "theorems": [
    "Joque.C71_still",
    "Joque.C71_throws",
    "Joque.C71_queries",
    "Joque.C71_no_was_right",
    "Joque.C71_yes_is_right",
    "Joque.C71_grow_throws",
    "Joque.C71_execution",
    "Joque.C71_rewritten_counterexample",
    "Joque.C71_late_counterexample",
    "Joque.C71_unreadable_counterexample"
   ],
   "note": ""
  },
  {
   "property": "C72",
   "status": "proved",
   "theorems": [
    "Joque.C72_explained"
   ],
   "note": ""
  },
  {
   "property": "C73",
   "status": "proved",
   "theorems": [
    "Joque.C73_all_ok",
    "Joque.C73_dep",
    "Joque.C73_depf",
    "Joque.C73_filter",
    "Joque.C73_cyclic_invalidation",
    "Joque.C73_cyclic_after",
    "Joque.C73_process",
    "Joque.C73_corner_cases"
   ],
   "note": ""
  },
  {
   "property": "C74",
   "status": "proved",
   "theorems": [
    "Joque.C74_run_log",
    "Joque.C74_stderr",
    "Joque.C74_verbose"
   ],
   "note": ""
  },
  {
   "property": "C75",
   "status": "proved",
   "theorems": [
    "Joque.C75_discarded",
    "Joque.C75_readme",
    "Joque.C75_example_set",
    "Joque.C75_example",
    "Joque.C75_example_zero",
    "Joque.C75_example_args",
    "Joque.C75_reads",
    "Joque.C75_shown"
   ],
   "note": ""
  },
  {
   "property": "C76",
   "status": "partial",
   "theorems": [
    "Joque.C76_partial",
    "Joque.C76_sequence",
    "Joque.C76_clean",
    "Joque.C76_undefined",
    "Joque.C76_counterexample",
    "Joque.C76_exact"
   ],
   "note": "False: if an execution is abandoned or fails while a task is in flight, `queued` keeps a pointer to a destroyed node, which the next execution follows (counterexample; C76_undefined says when). Proved when no execution is destroyed with tasks the visitor waits for; C76_clean says when that is the case. C76_exact: it never reads a destroyed node if and only if, whenever a task ends, the one with the lowest address among those it waits for exists."
  },
  {
   "property": "C77",
   "status": "partial",
   "theorems": [
    "Joque.C77_counterexample",
    "Joque.C77_stuck",
    "Joque.C77_failed",
    "Joque.C77_partial",
    "Joque.C77_failed_exact",
    "Joque.C77_exact"
   ],
   "note": "False: C77_counterexample. A node marked started or done makes the execution never finish (C77_stuck; in the example the assertion of exec.cpp:332 aborts it), a node marked failed makes every task requiring it DEPF although the task itself may be OK (C77_failed). C77_partial: the invalidated marks make no difference. C77_exact: the marks make no difference iff none is started or done and every task requiring a node marked failed is DEPF anyway."
  },
  {
   "property": "C78",
   "status": "proved",
   "theorems": [
    "Joque.C78_same",
    "Joque.C78_schedule",
    "Joque.C78_prefix"
   ],
   "note": "C78_same: an execution with one thread that is over has the callbacks, job executions, records and node marks of the sequential one. C78_schedule: hence two schedules give the same. C78_prefix: at every moment the observer has seen an initial part of the sequential sequence. With two threads the order depends on the schedule (example in Props/OneWorker.lean)."
  },
  {
   "property": "C79",
   "status": "proved",
   "theorems": [
    "Joque.C79_prompt",
    "Joque.C79_ticks"
   ],
   "note": ""
  },
  {
   "property": "C80",
   "status": "partial",
   "theorems": [
    "Joque.C80_alone",
    "Joque.C80_same_results",
    "Joque.C80_progress",
    "Joque.C80_turns",
    "Joque.C80_partial",
    "Joque.C80_exact",
    "Joque.C80_counterexample"
   ],
   "note": "(a) is proved. (b) is false: each execution keeps its own set of used resources, so with at least one thread a task of one can be executing while a task with the same resource is executed by the other (counterexample; C80_exact says when two given jobs can overlap). Proved if both executions have thread_count 0."
  },
  {
   "property": "C81",
   "status": "proved",
   "theorems": [
    "Joque.C81_start",
    "Joque.C81_end",
    "Joque.C81_summary",
    "Joque.C81_cursor",
    "Joque.C81_no_leak",
    "Joque.C81_colours_differ"
   ],
   "note": ""
  },
  {
   "property": "C82",
   "status": "partial",
   "theorems": [
    "Joque.C82_not_repeated",
    "Joque.C82_not_lost",
    "Joque.C82_exact",
    "Joque.C82_partial",
    "Joque.C82_points",
    "Joque.C82_completed",
    "Joque.C82_counterexample",
    "Joque.C82_torn"
   ],
   "note": "False of the code (C82_counterexample). Proved: nothing is repeated (C82_not_repeated, unconditional), nothing is lost if tasks are invalidated through files and interrupted or failed processes are found out of date (C82_not_lost, C82_partial), the exact condition (C82_exact), and exactly which moments inside run leave a retcode file that hides the failure (C82_points, C82_torn)."
  },
  {
   "property": "C83",
   "status": "proved",
   "theorems": [
    "Joque.C83_makespan",
    "Joque.C83_lower_bound",
    "Joque.C83_twice_optimal"
   ],
   "note": ""
  },
  {
   "property": "C84",
   "status": "partial",
   "theorems": [
    "Joque.C84_exact",
    "Joque.C84_moment",
    "Joque.C84_next",
    "Joque.C84_partial",
    "Joque.C84_counterexample"
   ],
   "note": "False of the code (C84_counterexample): an edit made while the job executes is lost if the job writes its outputs later. Proved: an edit made at any other moment is not lost (C84_partial); exactly which tasks are out of date afterwards and which the next execution runs (C84_exact, C84_next), and what the moment of the edit means (C84_moment)."
  },
  {
   "property": "C85",
   "status": "proved",
   "theorems": [
    "Joque.C85_race",
    "Joque.C85_ordered",
    "Joque.C85_no_race",
    "Joque.C85_set",
    "Joque.C85_calls",
    "Joque.C85_twice"
   ],
   "note": ""
  },
  {
   "property": "C86",
   "status": "partial",
   "theorems": [
    "Joque.C86_partial",
    "Joque.C86_others",
    "Joque.C86_unmixed",
    "Joque.C86_read",
    "Joque.C86_exact",
    "Joque.C86_counterexample",
    "Joque.C86_cut"
   ],
   "note": "False of the code (C86_counterexample): a file that cannot be opened or a full device goes unnoticed. Proved: with a file that can be opened and room the file holds exactly the report (C86_partial, C86_read), other files are untouched, old and new contents are never mixed (C86_others, C86_unmixed), the exact condition (C86_exact), and that a report cut short is not readable as one (C86_cut)."
  },
  {
   "property": "C87",
   "status": "proved",
   "theorems": [
    "Joque.C87_parallel",
    "Joque.C87_exact",
    "Joque.C87_needed"
   ],
   "note": ""
  },
  {
   "property": "C88",
   "status": "partial",
   "theorems": [
    "Joque.C88_partial",
    "Joque.C88_exact",
    "Joque.C88_never_more",
    "Joque.C88_counterexample"
   ],
   "note": "False of the code (C88_counterexample): a task that is up to date itself but invalidated by a task that the filter leaves out is skipped, though executing everything executes it. Proved: the results agree if what a selected task is invalidated by is selected (C88_partial), the exact condition (C88_exact), and that what the narrow selection executes is never up to date in the wide one (C88_never_more)."
  },
  {
   "property": "C89",
   "status": "proved",
   "theorems": [
    "Joque.C89_repair"
   ],
   "note": ""
  },
  {
   "property": "C90",
   "status": "proved",
   "theorems": [
    "Joque.C90_local"
   ],
   "note": ""
  },
  {
   "property": "C91",
   "status": "proved",
   "theorems": [
    "Joque.C91_build",
    "Joque.C91_build_all",
    "Joque.C91_build_chain",
    "Joque.C91_cycle_calls",
    "Joque.C91_cycle_depth",
    "Joque.C91_find",
    "Joque.C91_cycle_cmps",
    "Joque.C91_search",
    "Joque.C91_invalidation",
    "Joque.C91_chain"
   ],
   "note": ""
  },
  {
   "property": "C92",
   "status": "proved",
   "theorems": [
    "Joque.C92_not_before",
    "Joque.C92_exact",
    "Joque.C92_on_schedule",
    "Joque.C92_busy",
    "Joque.C92_ticks",
    "Joque.C92_start_ticks",
    "Joque.C92_start",
    "Joque.C92_end",
    "Joque.C92_null"
   ],
   "note": ""
  },
  {
   "property": "C93",
   "status": "proved",
   "theorems": [
    "Joque.C93_order",
    "Joque.C93_search",
    "Joque.C93_priority",
    "Joque.C93_sequential"
   ],
   "note": ""
  },
  {
   "property": "C94",
   "status": "partial",
   "theorems": [
    "Joque.C94_partial",
    "Joque.C94_one_thread",
    "Joque.C94_counterexample",
    "Joque.C94_counterexample_threads",
    "Joque.C94_counterexample_order"
   ],
   "note": "False (Graham's anomalies): a shorter job, an additional thread or one ordering less can make an execution longer by more than any constant number of ticks per task would explain (three counterexample theorems, each a pair of complete executions). C94_partial is the bound that holds instead (Graham's bound, 1 + (k-1)/k' times as long, without shared resources); C94_one_thread: compared with one thread it does hold, shared resources included."
  },
  {
   "property": "C95",
   "status": "proved",
   "theorems": [
    "Joque.C95_same",
    "Joque.C95_every",
    "Joque.C95_resources",
    "Joque.C95_threads",
    "Joque.C95_order",
    "Joque.C95_no_race",
    "Joque.C95_completes"
   ],
   "note": ""
  },
  {
   "property": "C96",
   "status": "partial",
   "theorems": [
    "Joque.C96_filter",
    "Joque.C96_name",
    "Joque.C96_nested",
    "Joque.C96_line",
    "Joque.C96_cut",
    "Joque.C96_counterexample",
    "Joque.C96_partial",
    "Joque.C96_cmd",
    "Joque.C96_json",
    "Joque.C96_json_counterexample",
    "Joque.C96_junit"
   ],
   "note": "Proved for filters (C96_filter), full names, commands, output under a task (C96_nested, exact) and JUnit (exact). False for two: a line shows the first 60 bytes of a name and may cut a character (C96_counterexample; exactly when byte 60 continues one: C96_line with C96_cut; C96_partial for names of at most 60 bytes), and every chunk of output becomes its own JSON string, so for any output that is not ASCII there is a chunking with which the export cannot be printed (C96_json_counterexample; exact condition C96_json)."
  },
  {
   "property": "C97",
   "status": "partial",
   "theorems": [
    "Joque.C97_exact",
    "Joque.C97_partial",
    "Joque.C97_runs",
    "Joque.C97_apart",
    "Joque.C97_unordered",
    "Joque.C97_overlap",
    "Joque.C97_counterexample"
   ],
   "note": "False: every call makes nodes of its own (C97_counterexample: lib is executed twice and by two threads at a time after inserting a set once with filter /a and once with /c). C97_exact: a task has as many nodes as calls selected it; C97_runs: its job is called at most that often; C97_apart, C97_unordered: nothing orders nodes of different calls; C97_overlap: two nodes of a task can execute at one moment iff it uses no resource, and that is a data race. C97_partial: one node per task if no task is selected twice."
  },
  {
   "property": "C98",
   "status": "partial",
   "theorems": [
    "Joque.C98_paths",
    "Joque.C98_wf",
    "Joque.C98_name",
    "Joque.C98_edges",
    "Joque.C98_results",
    "Joque.C98_exact",
    "Joque.C98_partial",
    "Joque.C98_left",
    "Joque.C98_moved_ub",
    "Joque.C98_moved_lost",
    "Joque.C98_replace",
    "Joque.C98_add",
    "Joque.C98_counterexample"
   ],
   "note": "True of sets: C98_paths, C98_wf, C98_name, C98_edges, C98_results (if what tasks of the part are invalidated by is not elsewhere in the whole). False of tasks: C98_counterexample (b shall run after a; both are moved into the set; no edge, b is executed first). C98_exact: moving a task keeps all relations iff nothing refers to it yet; C98_partial is that case. C98_moved_ub: if something selected depends on the moved-from object, executing is undefined behaviour; C98_moved_lost: run_after and invalidated_by are dropped silently. C98_replace, C98_add: assigning to a name that is there keeps its address, references included; a new name changes nothing else. C98_left: what the move leaves behind."
  },
  {
   "property": "C99",
   "status": "partial",
   "theorems": [
    "Joque.C99_exact",
    "Joque.C99_total",
    "Joque.C99_partial",
    "Joque.C99_counterexample"
   ],
   "note": "False: start and end are readings of std::chrono::system_clock (C99_counterexample: clock put back by an hour during a task of 2 s; its duration is negative and the total run time is -3598 s). C99_exact: a duration is right iff the clock has the same offset at both readings, otherwise wrong by the difference; C99_total: the total is wrong by at most the range of the offsets; C99_partial: a clock that is wrong but not adjusted gives right durations and total."
  },
  {
   "property": "C100",
   "status": "partial",
   "theorems": [
    "Joque.C100_exact",
    "Joque.C100_began",
    "Joque.C100_partial",
    "Joque.C100_after",
    "Joque.C100_invalidated",
    "Joque.C100_counterexample"
   ],
   "note": "AFTER and INVALIDATED_BY hold on their own (C100_after, C100_invalidated). REQUIRES alone is false (C100_counterexample: one REQUIRES edge, no threads; the requiring task is executed first and is OK). C100_exact: a record is DEPF iff a required task had a FAIL or DEPF record when the task was started; C100_began: the same for jobs. C100_partial: REQUIRES holds if there is also a path of AFTER edges."
  },
  {
   "property": "C101",
   "status": "proved",
   "theorems": [
    "Joque.C101_after_call",
    "Joque.C101_between_calls",
    "Joque.C101_history",
    "Joque.C101_nothing_new",
    "Joque.C101_delivered",
    "Joque.C101_only"
   ],
   "note": "The move `fault` of the transition system has allocation failures after any event of a portion (but std::async and the start of a job) and before any, so every theorem over all move lists covers them. Allocations before the execution exists throw to the caller of exec (insert_set: C102; the coroutine frame of exec itself is not modelled)."
  },
  {
   "property": "C102",
   "status": "partial",
   "theorems": [
    "Joque.C102_whole",
    "Joque.C102_part",
    "Joque.C102_exact",
    "Joque.C102_partial",
    "Joque.C102_counterexample",
    "Joque.C102_retry"
   ],
   "note": "All or nothing is false (C102_counterexample: a task is left in the dag without the one it depends on; executing the dag executes it and reports OK). C102_exact: the dag is unchanged iff memory runs out before the first node is made, i.e. among the first allocations, one per task of the set (or nothing was to be added). Proved otherwise: the leftover is a well-formed part of the complete result, old content untouched (C102_part), the heap objects are exactly this dag and destroying it frees each allocated node and edge once (C102_partial); all allocations together build the dag of insert_set (C102_whole). C102_retry: calling insert_set again on the leftover adds a second node for every selected task that is left."
  },
  {
   "property": "C103",
   "status": "proved",
   "theorems": [
    "Joque.C103_same",
    "Joque.C103_tasks",
    "Joque.C103_sharp"
   ],
   "note": "C103_same (equal states for all move lists), C103_tasks (number of tasks), C103_sharp (below the bound there is a difference, under the condition of C87 on resources)."
  },
  {
   "property": "C104",
   "status": "partial",
   "theorems": [
    "Joque.C104_ordered",
    "Joque.C104_free",
    "Joque.C104_every",
    "Joque.C104_orders",
    "Joque.C104_exact",
    "Joque.C104_partial",
    "Joque.C104_counterexample"
   ],
   "note": "False (C104_counterexample: two users of a library, in both orders): candidates are taken in the order of node addresses. C104_orders: the possible orders are exactly the arrangements of the selected tasks that respect the declared orderings (C104_ordered: each is one; C104_every: each occurs, for some placement of the nodes, a permutation of the same addresses). C104_exact: two tasks come in the same order in every run iff one has to come before the other (depends_on, run_after, transitively, within the selection); C104_free: otherwise the other order occurs. C104_partial: if the declarations order all tasks, the order is reproducible."
  },
  {
   "property": "C105",
   "status": "partial",
   "theorems": [
    "Joque.C105_alone",
    "Joque.C105_races",
    "Joque.C105_partial",
    "Joque.C105_exact",
    "Joque.C105_sets",
    "Joque.C105_counterexample"
   ],
   "note": "False for the default arguments (C105_counterexample): all executions share the global PRINT_VISITOR, whose set of queued nodes is modified without locking. C105_races: the data races are exactly the pairs of events of different executions that call the job of one task or in which one visitor uses its state. C105_exact: two finished executions with print visitors raced iff they had the same visitor or a common task, whatever the schedule. C105_partial, C105_sets: with a visitor each and no common task there is none; C105_alone: then each behaves as if alone."
  },
  {
   "property": "C106",
   "status": "partial",
   "theorems": [
    "Joque.C106_cases",
    "Joque.C106_report",
    "Joque.C106_green",
    "Joque.C106_names",
    "Joque.C106_partial",
    "Joque.C106_exact",
    "Joque.C106_counterexample"
   ],
   "note": "False (C106_counterexample): a task that was not run because its dependency failed (DEPF) has return code 0 and is shown like a test that passed. C106_report (exact): the testcases are the selected tasks, each once, marked iff the verdict of C70 is FAIL; named by path, dependencies from elsewhere by the empty name. C106_names: when two names coincide, exactly. C106_green: the report marks nothing iff all tasks are OK or SKIP. C106_exact: the property holds iff no selected task is DEPF, all are in the set and no two paths are written the same. C106_partial: without DEPF, with dependencies inside the set and no '/' in names the property holds."
  },
  {
   "property": "C107",
   "status": "partial",
   "theorems": [
    "Joque.C107_partial",
    "Joque.C107_results",
    "Joque.C107_completes",
    "Joque.C107_counterexample",
    "Joque.C107_leak",
    "Joque.C107_relations"
   ],
   "note": "False for resources (C107_counterexample): taking a resource from a running task leaves it occupied for ever (assertion fails, or without assertions the execution never ends; C107_leak: always so); adding a used one to a task that was chosen but not started, or to a running task, lets two tasks use it at once. C107_partial, C107_results, C107_completes: with changes that respect the running tasks everything holds, even if they never end. C107_relations: the other fields."
  },
  {
   "property": "C108",
   "status": "proved",
   "theorems": [
    "Joque.C108_calendar",
    "Joque.C108_unique",
    "Joque.C108_text",
    "Joque.C108_sorts",
    "Joque.C108_junit_sorts",
    "Joque.C108_exact",
    "Joque.C108_length",
    "Joque.C108_file_times",
    "Joque.C108_explanation",
    "Joque.C108_json",
    "Joque.C108_execution",
    "Joque.C108_junit",
    "Joque.C108_line",
    "Joque.C108_line_same",
    "Joque.C108_second"
   ],
   "note": "C108_calendar and C108_unique: the dates are those of the calendar. C108_text: the text is made of the digits of the time point. C108_sorts, C108_junit_sorts, C108_exact, C108_length: order, injectivity, length. C108_json, C108_execution, C108_junit: in the reports. C108_line, C108_line_same: the lines tell the second of the day, not the day. C108_file_times, C108_explanation: the file times in the explanations of is_invalidated (libstdc++)."
  },
  {
   "property": "C109",
   "status": "proved",
   "theorems": [
    "Joque.C109_reads",
    "Joque.C109_counts",
    "Joque.C109_grows",
    "Joque.C109_report"
   ],
   "note": "C109_reads: an independent reader gets everything back. C109_counts: counters and total at any moment. C109_grows: later exports extend earlier ones. C109_report: from the task set to the export (verdicts of C70)."
  },
  {
   "property": "C110",
   "status": "partial",
   "theorems": [
    "Joque.C110_exact",
    "Joque.C110_partial",
    "Joque.C110_clean",
    "Joque.C110_failure",
    "Joque.C110_counterexample"
   ],
   "note": "False (C110_counterexample): a process without a retcode file that writes its output and fails is skipped by the next execution, in which nothing fails; the outputs are wrong. C110_exact: exactly what an execution may spoil. C110_partial and C110_clean: holds for all histories in which processes that did not succeed are known by their retcode files or have left their files alone; C110_failure: when they are (cf. C82 for interruptions)."
  },
  {
   "property": "C111",
   "status": "proved",
   "theorems": [
    "Joque.C111_refines",
    "Joque.C111_remains",
    "Joque.C111_cycle",
    "Joque.C111_order",
    "Joque.C111_results",
    "Joque.C111_depf",
    "Joque.C111_records",
    "Joque.C111_completes"
   ],
   "note": ""
  },
  {
   "property": "C112",
   "status": "proved",
   "theorems": [
    "Joque.C112_silent",
    "Joque.C112_exceptions"
   ],
   "note": ""
  },
  {
   "property": "C113",
   "status": "proved",
   "theorems": [
    "Joque.C113_results",
    "Joque.C113_live",
    "Joque.C113_bound",
    "Joque.C113_safe",
    "Joque.C113_meaning",
    "Joque.C113_refines",
    "Joque.C113_fine",
    "Joque.C113_outcome",
    "Joque.C113_tasks",
    "Joque.C113_tasks_results"
   ],
   "note": ""
  },
  {
   "property": "C114",
   "status": "proved",
   "theorems": [
    "Joque.C114_reads",
    "Joque.C114_last",
    "Joque.C114_unused",
    "Joque.C114_enough",
    "Joque.C114_tasks",
    "Joque.C114_exact",
    "Joque.C114_dangling",
    "Joque.C114_abandoned",
    "Joque.C114_reports"
   ],
   "note": ""
  },
  {
   "property": "C115",
   "status": "proved",
   "theorems": [
    "Joque.C115_same",
    "Joque.C115_possible",
    "Joque.C115_ordered",
    "Joque.C115_seqOrder",
    "Joque.C115_orders"
   ],
   "note": ""
  },
  {
   "property": "C116",
   "status": "proved",
   "theorems": [
    "Joque.C116_others",
    "Joque.C116_few",
    "Joque.C116_after",
    "Joque.C116_waits"
   ],
   "note": ""
  },
  {
   "property": "C117",
   "status": "proved",
   "theorems": [
    "Joque.C117_become",
    "Joque.C117_statuses",
    "Joque.C117_successes",
    "Joque.C117_same",
    "Joque.C117_orders"
   ],
   "note": ""
  },
  {
   "property": "C118",
   "status": "proved",
   "theorems": [
    "Joque.C118_complete",
    "Joque.C118_agree",
    "Joque.C118_stale",
    "Joque.C118_before_run",
    "Joque.C118_predicts",
    "Joque.C118_run_log",
    "Joque.C118_after_run"
   ],
   "note": ""
  },
  {
   "property": "C119",
   "status": "proved",
   "theorems": [
    "Joque.C119_only",
    "Joque.C119_possible",
    "Joque.C119_exact",
    "Joque.C119_whole",
    "Joque.C119_needed",
    "Joque.C119_queue_tasks",
    "Joque.C119_queue_fine",
    "Joque.C119_queue_only",
    "Joque.C119_queue_possible",
    "Joque.C119_queue_exact",
    "Joque.C119_queue_whole",
    "Joque.C119_tasks",
    "Joque.C119_fine"
   ],
   "note": ""
  },
  {
   "property": "C120",
   "status": "proved",
   "theorems": [
    "Joque.C120_duration_fine",
    "Joque.C120_replay",
    "Joque.C120_exact",
    "Joque.C120_fine",
    "Joque.C120_duration",
    "Joque.C120_possible",
    "Joque.C120_some"
   ],
   "note": ""
  },
  {
   "property": "C121",
   "status": "proved",
   "theorems": [
    "Joque.C121_exact",
    "Joque.C121_monotone",
    "Joque.C121_most",
    "Joque.C121_threads",
    "Joque.C121_fine"
   ],
   "note": ""
  },
  {
   "property": "C122",
   "status": "proved",
   "theorems": [
    "Joque.C122_most",
    "Joque.C122_least",
    "Joque.C122_none",
    "Joque.C122_parallel",
    "Joque.C122_twice",
    "Joque.C122_any"
   ],
   "note": ""
  },
  {
   "property": "C123",
   "status": "proved",
   "theorems": [
    "Joque.C123_same",
    "Joque.C123_serial",
    "Joque.C123_isolated",
    "Joque.C123_exists",
    "Joque.C123_order",
    "Joque.C123_build",
    "Joque.C123_resource_counterexample"
   ],
   "note": "The jobs are modelled as functions of what they find when they begin; C123_isolated shows that no other job changes this while they run. Contents, not file times."
  },
  {
   "property": "C124",
   "status": "proved",
   "theorems": [
    "Joque.C124_fits",
    "Joque.C124_unique",
    "Joque.C124_same",
    "Joque.C124_change",
    "Joque.C124_date_counterexample",
    "Joque.C124_settles",
    "Joque.C124_honest",
    "Joque.C124_builds",
    "Joque.C124_clean",
    "Joque.C124_possible",
    "Joque.C124_run_after_counterexample"
   ],
   "note": "Commands are functions of the contents of their inputs; rounds in which something fails are not covered by the theorem about rounds (C124_fits covers one such execution)."
  }
 ]
}