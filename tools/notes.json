{
 "C05": {
  "note": "Hypothesis REQUIRES ⊆ AFTER holds for every dag built from task sets (C23_empty)."
 },
 "C13": {
  "note": ""
 },
 "C16": {
  "status": "partial",
  "note": "False for thread_count >= 2: run_coro's move assignment swaps the handles but not the node_ reference (counterexample theorem). C16_exact says when, for every thread_count and schedule: the node is right if and only if no task that began earlier was reported in an earlier resumption while this one was in flight; so the ordinary case of two overlapping tasks, of which the older one ends first, is the one that goes wrong. C16_earlier: the wrong node is that of a task which began earlier. Proved right for thread_count <= 1; for every thread_count the argument is at least a node of the graph (C16_real)."
 },
 "C51": {
  "status": "partial",
  "note": "False: a task whose job is unset is dereferenced (undefined behaviour). Counterexample plus the theorem that it happens exactly when such a task is asked; proved that no UB arises when every job is set. Exactly which portion fails and how (undefined behaviour or the exception of a job asked earlier) is C51_exact."
 },
 "C17": {
  "status": "partial",
  "note": "False for the default job_traits: a callable throwing std::exception yields run_result with uninitialised retcode (counterexample; C17_default_std shows it never gets its FAIL record). Proved for every other job; C17_as_failed_task shows a throwing job_iface::run is indistinguishable from one returning code 1. C17_exact: in an execution that ran to its end every job that was begun and threw has its FAIL record and is not of that kind."
 },
 "C21": {
  "status": "partial",
  "note": "False: tick() resumes at the final suspension point (undefined behaviour), for every finished execution. Proved: tick() on an empty handle does nothing and run() never resumes a finished execution."
 },
 "C27": {
  "status": "partial",
  "note": "False: tmp[&t] inserts into the unordered_map that insert_set is iterating; if that rehashes the iterator is invalid (counterexample; C27_ub: always undefined behaviour when every insertion rehashes). Proved when no insertion rehashes: the external task is scheduled, but named ''. C27_exact: undefined behaviour iff the insertion of one of the external dependencies rehashes."
 },
 "C29": {
  "status": "partial",
  "note": "False for back(): *++end() dereferences a null iterator on every list (C29_back_ub, counterexample). Proved: operator-- gives the previous element, and the end iterator at the first one."
 },
 "C33": {
  "status": "partial",
  "note": "False for move assignment into a graph that has nodes: list_header's move assignment overwrites next, the old nodes leak (C33_assign_leaks: always; counterexample). Proved: move construction, and move assignment into an empty graph."
 },
 "C35": {
  "status": "partial",
  "note": "False: without inputs the answer is inverted (C35_inverted), and with libstdc++'s clock, whose epoch is after all file times, a missing output is never noticed when another one exists (C35_unnoticed); counterexample for both. Proved: no outputs; all outputs missing; epoch before all file times. C35_exact: when exactly a missing output goes unnoticed."
 },
 "C36": {
  "note": "For completed runs, on a device with room for the code. What happens when the process cannot be started, drained or waited for is C56; on a full device the code is cut off, and without a digit it reads as success (C36_full)."
 },
 "C55": {
  "status": "partial",
  "note": "False: backslashes are not escaped (counterexample). C55_exact: two commands are shown alike if and only if they agree after joining each argument ending in a backslash with the next one; C55_distinct: commands without such an argument (the last one does not matter) are told apart; C55_ambiguous: the commands shown like some other one are exactly those with a blank in an argument or with such an argument."
 },
 "C56": {
  "status": "partial",
  "note": "False: a run that could not be started, drained or waited for leaves the retcode file as it was (C56_forgotten, counterexample), and on a full device the file is left empty, which reads as success (C56_counterexample_full). Proved for runs that completed on a device with room. C56_exact: forgotten iff the child did not run to its end and the file told success before, or it did and the device is full."
 },
 "C41": {
  "status": "partial",
  "note": "False for the record of an execution without tasks: runtime_sum dereferences the end iterator (counterexample theorem: such an execution finishes and hands that record to after_execution). Proved for every non-empty record. C41_exact: undefined iff the execution had no tasks."
 },
 "C57": {
  "status": "partial",
  "note": "False for the summary line: format_exec_end passes a colour code as the status, which takes no room, so its text always starts four columns further left (C57_summary_off). Proved for all start and end lines of tasks."
 },
 "C40": {
  "note": "One character per column is assumed (ASCII names); C40_visible needs a name without escape characters."
 },
 "C42": {
  "status": "partial",
  "note": "Undefined behaviour for the record of an execution without tasks (counterexample). For every other record, with names free of XML metacharacters, an independent XML reader recovers exactly the expected tree; counts proved for every record of every execution. C42_exact: no report iff the execution had no tasks."
 },
 "C43": {
  "status": "partial",
  "note": "False: attribute values are not escaped. Counterexamples for quote, < and & in task and suite names; C43_lt_breaks shows every < does it. C43_exact: for a non-empty record, a reader gets the names of the suite and of all tasks back from the report if and only if none of them has a quote, <, & or a control character (whatever else the names do to the rest of the report)."
 },
 "C58": {
  "status": "partial",
  "note": "False for the suite: std::format of chrono::seconds appends the unit, so the attribute is never a number (C58_suite_never). Partial: without the unit it is the decimal run time; the times of the tasks are passed through unchanged."
 },
 "C44": {
  "note": "The JSON library is abstracted to a tree with named members; std::format of time points is assumed injective."
 },
 "C46": {
  "status": "partial",
  "note": "False with two or more threads (after_run may name another task, see C16) and after an execution that was abandoned before after_execution, whose nodes stay in the set (counterexamples). Proved for a fresh visitor as long as after_run names the right nodes; C46_exact: if the visitor shows all tasks, its set has been right up to some moment if and only if no task ended that outlived one begun before it (the condition of C16_exact). C46_reusable: the visitor is empty again after every finished execution."
 },
 "C47": {
  "status": "partial",
  "note": "False: the line lists the targets of all edges, so a dependency appears three times and a task that only invalidates appears although nothing orders the two (counterexamples, the latter with an execution in the other order). Proved: exact output for every dag, every task run after is listed, exact multiplicities for dags built by insert_set, and the claim itself for nodes with AFTER edges only. C47_exact: when the names differ and have no commas, the line is right if and only if the node has AFTER edges only, none of them twice. C47_text: print_dag puts each string on its own line."
 },
 "C62": {
  "status": "partial",
  "note": "False without a retcode file (a command that writes its output and then fails is considered up to date next time; C62_counterexample, C62_forgotten for a whole execution) and for runs that could not be started or waited for, or whose code found no room on the device (C56). Proved for processes with a retcode file whose child ran to its end and whose code was stored. C62_exact: when exactly a failure is forgotten."
 },
 "C60": {
  "note": "Hypotheses: every process has inputs and outputs; inputs are sources or outputs of tasks in depends_on; successful children write all outputs; the file clock tells events apart; a process that says it is up to date has all its outputs (C35). C60_run_after_counterexample: run_after instead of depends_on is not enough."
 },
 "C69": {
  "status": "partial",
  "note": "Holds unless the visitor is verbose. Verbose: on_run_log writes its heading over the progress line without erasing the rest of it, so remnants stay on the screen (C69_counterexample). C69_exact: the screen is right if and only if every job whose log is printed over a progress line has a name of at least 65 characters plus two per digit of the number of tasks."
 },
 "C76": {
  "status": "partial",
  "note": "False: if an execution is abandoned or fails while a task is in flight, `queued` keeps a pointer to a destroyed node, which the next execution follows (counterexample; C76_undefined says when). Proved when no execution is destroyed with tasks the visitor waits for; C76_clean says when that is the case. C76_exact: it never reads a destroyed node if and only if, whenever a task ends, the one with the lowest address among those it waits for exists."
 },
 "C77": {
  "status": "partial",
  "note": "False: C77_counterexample. A node marked started or done makes the execution never finish (C77_stuck; in the example the assertion of exec.cpp:332 aborts it), a node marked failed makes every task requiring it DEPF although the task itself may be OK (C77_failed). C77_partial: the invalidated marks make no difference. C77_exact: the marks make no difference iff none is started or done and every task requiring a node marked failed is DEPF anyway."
 },
 "C78": {
  "status": "proved",
  "note": "C78_same: an execution with one thread that is over has the callbacks, job executions, records and node marks of the sequential one. C78_schedule: hence two schedules give the same. C78_prefix: at every moment the observer has seen an initial part of the sequential sequence. With two threads the order depends on the schedule (example in Props/OneWorker.lean)."
 },
 "C03": {
  "status": "proved",
  "note": ""
 },
 "C80": {
  "status": "partial",
  "note": "(a) is proved. (b) is false: each execution keeps its own set of used resources, so with at least one thread a task of one can be executing while a task with the same resource is executed by the other (counterexample; C80_exact says when two given jobs can overlap). Proved if both executions have thread_count 0."
 },
 "C82": {
  "status": "partial",
  "note": "False of the code (C82_counterexample). Proved: nothing is repeated (C82_not_repeated, unconditional), nothing is lost if tasks are invalidated through files and interrupted or failed processes are found out of date (C82_not_lost, C82_partial), the exact condition (C82_exact), and exactly which moments inside run leave a retcode file that hides the failure (C82_points, C82_torn)."
 },
 "C84": {
  "status": "partial",
  "note": "False of the code (C84_counterexample): an edit made while the job executes is lost if the job writes its outputs later. Proved: an edit made at any other moment is not lost (C84_partial); exactly which tasks are out of date afterwards and which the next execution runs (C84_exact, C84_next), and what the moment of the edit means (C84_moment)."
 },
 "C86": {
  "status": "partial",
  "note": "False of the code (C86_counterexample): a file that cannot be opened or a full device goes unnoticed. Proved: with a file that can be opened and room the file holds exactly the report (C86_partial, C86_read), other files are untouched, old and new contents are never mixed (C86_others, C86_unmixed), the exact condition (C86_exact), and that a report cut short is not readable as one (C86_cut)."
 },
 "C88": {
  "status": "partial",
  "note": "False of the code (C88_counterexample): a task that is up to date itself but invalidated by a task that the filter leaves out is skipped, though executing everything executes it. Proved: the results agree if what a selected task is invalidated by is selected (C88_partial), the exact condition (C88_exact), and that what the narrow selection executes is never up to date in the wide one (C88_never_more)."
 },
 "C94": {
  "status": "partial",
  "note": "False (Graham's anomalies): a shorter job, an additional thread or one ordering less can make an execution longer by more than any constant number of ticks per task would explain (three counterexample theorems, each a pair of complete executions). C94_partial is the bound that holds instead (Graham's bound, 1 + (k-1)/k' times as long, without shared resources); C94_one_thread: compared with one thread it does hold, shared resources included."
 },
 "C96": {
  "status": "partial",
  "note": "Proved for filters (C96_filter), full names, commands, output under a task (C96_nested, exact) and JUnit (exact). False for two: a line shows the first 60 bytes of a name and may cut a character (C96_counterexample; exactly when byte 60 continues one: C96_line with C96_cut; C96_partial for names of at most 60 bytes), and every chunk of output becomes its own JSON string, so for any output that is not ASCII there is a chunking with which the export cannot be printed (C96_json_counterexample; exact condition C96_json)."
 },
 "C97": {
  "status": "partial",
  "note": "False: every call makes nodes of its own (C97_counterexample: lib is executed twice and by two threads at a time after inserting a set once with filter /a and once with /c). C97_exact: a task has as many nodes as calls selected it; C97_runs: its job is called at most that often; C97_apart, C97_unordered: nothing orders nodes of different calls; C97_overlap: two nodes of a task can execute at one moment iff it uses no resource, and that is a data race. C97_partial: one node per task if no task is selected twice."
 },
 "C98": {
  "status": "partial",
  "note": "True of sets: C98_paths, C98_wf, C98_name, C98_edges, C98_results (if what tasks of the part are invalidated by is not elsewhere in the whole). False of tasks: C98_counterexample (b shall run after a; both are moved into the set; no edge, b is executed first). C98_exact: moving a task keeps all relations iff nothing refers to it yet; C98_partial is that case. C98_moved_ub: if something selected depends on the moved-from object, executing is undefined behaviour; C98_moved_lost: run_after and invalidated_by are dropped silently. C98_replace, C98_add: assigning to a name that is there keeps its address, references included; a new name changes nothing else. C98_left: what the move leaves behind."
 },
 "C99": {
  "status": "partial",
  "note": "False: start and end are readings of std::chrono::system_clock (C99_counterexample: clock put back by an hour during a task of 2 s; its duration is negative and the total run time is -3598 s). C99_exact: a duration is right iff the clock has the same offset at both readings, otherwise wrong by the difference; C99_total: the total is wrong by at most the range of the offsets; C99_partial: a clock that is wrong but not adjusted gives right durations and total."
 },
 "C100": {
  "status": "partial",
  "note": "AFTER and INVALIDATED_BY hold on their own (C100_after, C100_invalidated). REQUIRES alone is false (C100_counterexample: one REQUIRES edge, no threads; the requiring task is executed first and is OK). C100_exact: a record is DEPF iff a required task had a FAIL or DEPF record when the task was started; C100_began: the same for jobs. C100_partial: REQUIRES holds if there is also a path of AFTER edges."
 },
 "C101": {
  "status": "proved",
  "note": "The move `fault` of the transition system has allocation failures after any event of a portion (but std::async and the start of a job) and before any, so every theorem over all move lists covers them. Allocations before the execution exists throw to the caller of exec (insert_set: C102; the coroutine frame of exec itself is not modelled)."
 },
 "C102": {
  "status": "partial",
  "note": "All or nothing is false (C102_counterexample: a task is left in the dag without the one it depends on; executing the dag executes it and reports OK). C102_exact: the dag is unchanged iff memory runs out before the first node is made, i.e. among the first allocations, one per task of the set (or nothing was to be added). Proved otherwise: the leftover is a well-formed part of the complete result, old content untouched (C102_part), the heap objects are exactly this dag and destroying it frees each allocated node and edge once (C102_partial); all allocations together build the dag of insert_set (C102_whole). C102_retry: calling insert_set again on the leftover adds a second node for every selected task that is left."
 },
 "C103": {
  "status": "proved",
  "note": "C103_same (equal states for all move lists), C103_tasks (number of tasks), C103_sharp (below the bound there is a difference, under the condition of C87 on resources)."
 },
 "C104": {
  "status": "partial",
  "note": "False (C104_counterexample: two users of a library, in both orders): candidates are taken in the order of node addresses. C104_orders: the possible orders are exactly the arrangements of the selected tasks that respect the declared orderings (C104_ordered: each is one; C104_every: each occurs, for some placement of the nodes, a permutation of the same addresses). C104_exact: two tasks come in the same order in every run iff one has to come before the other (depends_on, run_after, transitively, within the selection); C104_free: otherwise the other order occurs. C104_partial: if the declarations order all tasks, the order is reproducible."
 },
 "C105": {
  "status": "partial",
  "note": "False for the default arguments (C105_counterexample): all executions share the global PRINT_VISITOR, whose set of queued nodes is modified without locking. C105_races: the data races are exactly the pairs of events of different executions that call the job of one task or in which one visitor uses its state. C105_exact: two finished executions with print visitors raced iff they had the same visitor or a common task, whatever the schedule. C105_partial, C105_sets: with a visitor each and no common task there is none; C105_alone: then each behaves as if alone."
 },
 "C106": {
  "status": "partial",
  "note": "False (C106_counterexample): a task that was not run because its dependency failed (DEPF) has return code 0 and is shown like a test that passed. C106_report (exact): the testcases are the selected tasks, each once, marked iff the verdict of C70 is FAIL; named by path, dependencies from elsewhere by the empty name. C106_names: when two names coincide, exactly. C106_green: the report marks nothing iff all tasks are OK or SKIP. C106_exact: the property holds iff no selected task is DEPF, all are in the set and no two paths are written the same. C106_partial: without DEPF, with dependencies inside the set and no '/' in names the property holds."
 },
 "C107": {
  "status": "partial",
  "note": "False for resources (C107_counterexample): taking a resource from a running task leaves it occupied for ever (assertion fails, or without assertions the execution never ends; C107_leak: always so); adding a used one to a task that was chosen but not started, or to a running task, lets two tasks use it at once. C107_partial, C107_results, C107_completes: with changes that respect the running tasks everything holds, even if they never end. C107_relations: the other fields."
 },
 "C108": {
  "status": "proved",
  "note": "C108_calendar and C108_unique: the dates are those of the calendar. C108_text: the text is made of the digits of the time point. C108_sorts, C108_junit_sorts, C108_exact, C108_length: order, injectivity, length. C108_json, C108_execution, C108_junit: in the reports. C108_line, C108_line_same: the lines tell the second of the day, not the day. C108_file_times, C108_explanation: the file times in the explanations of is_invalidated (libstdc++)."
 },
 "C109": {
  "status": "proved",
  "note": "C109_reads: an independent reader gets everything back. C109_counts: counters and total at any moment. C109_grows: later exports extend earlier ones. C109_report: from the task set to the export (verdicts of C70)."
 },
 "C110": {
  "status": "partial",
  "note": "False (C110_counterexample): a process without a retcode file that writes its output and fails is skipped by the next execution, in which nothing fails; the outputs are wrong. C110_exact: exactly what an execution may spoil. C110_partial and C110_clean: holds for all histories in which processes that did not succeed are known by their retcode files or have left their files alone; C110_failure: when they are (cf. C82 for interruptions)."
 },
 "C123": {
  "note": "The jobs are modelled as functions of what they find when they begin; C123_isolated shows that no other job changes this while they run. Contents, not file times."
 },
 "C124": {
  "note": "Commands are functions of the contents of their inputs; rounds in which something fails are not covered by the theorem about rounds (C124_fits covers one such execution)."
 }
}