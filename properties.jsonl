{"id": "C01", "title": "A task's job starts only after everything it must run after has finished", "statement": "If A is ordered after B (A.depends_on or A.run_after contains B, both selected; or an AFTER edge in a user dag), then when A's job begins, B has already got its final run record, and B's job is not running and never begins afterwards.", "quantifier": "every dag/task set, thread count, job behaviour, interleaving of control and worker threads, every moment of the execution", "why_tests_cant": "ordering races depend on the interleaving and on pointer order of nodes; tests see a few schedules", "anchors": ["src/exec.cpp:find_candidate, all_done, run, exec", "include/joque/dag.hpp:ekind::AFTER", "README.md: rules"]}
{"id": "C02", "title": "Each scheduled task runs at most once and gets exactly one record", "statement": "During one execution every job is started at most once; when the execution returns a record, runs holds exactly one entry for every selected task and none for any other, and total_count equals that number.", "quantifier": "every dag, thread count, schedule, and every reachable moment", "why_tests_cant": "double start or lost task only shows under particular interleavings/graph shapes", "anchors": ["src/exec.cpp:exec, run, cleanup_coros, push", "include/joque/records.hpp:exec_record"]}
{"id": "C03", "title": "Resource exclusivity", "statement": "Two tasks that list a common resource are never both executing at the same moment.", "quantifier": "every dag, resource assignment, thread count, schedule, moment", "why_tests_cant": "mutual exclusion is a property of all interleavings", "anchors": ["src/exec.cpp:any_resource_used, find_candidate, run", "include/joque/task.hpp:resource"]}
{"id": "C04", "title": "Thread limit respected", "statement": "With thread_count = k >= 1 at most k jobs execute at any moment, all outside the control thread; with thread_count = 0 jobs are executed inside tick() on the control thread, one at a time.", "quantifier": "every dag, thread count, schedule, moment", "why_tests_cant": "an off-by-one shows only on a schedule that fills the pool", "anchors": ["src/exec.cpp:exec (loop guard), run", "include/joque/exec.hpp:exec"]}
{"id": "C05", "title": "Tasks with a failed dependency never run and are reported DEPF", "statement": "If a task requires B and B's record is FAIL or DEPF, the task's job is never started and its own record is DEPF (hence transitively). Conversely DEPF is reported only when some required task is FAIL or DEPF.", "quantifier": "every dag whose REQUIRES edges are also AFTER edges (all dags built from task sets), thread count, schedule", "why_tests_cant": "failure propagation must hold for all graph shapes and completion orders", "anchors": ["src/exec.cpp:any_dep_failed, run", "src/dag.cpp:dfs"]}
{"id": "C06", "title": "Status of a record says exactly what happened", "statement": "OK: the job ran and returned 0. FAIL: the job ran and returned non-zero (the record has that code) or threw (code 1). SKIP: no required task failed and the task is up to date; job not run. DEPF: job not run. Every record carries retcode != 0 iff it is FAIL, and the output the job produced.", "quantifier": "every dag, job behaviour, thread count, schedule", "why_tests_cant": "all combinations of job results, validity and dependency results over all graphs", "anchors": ["src/exec.cpp:run, push", "include/joque/records.hpp:run_status"]}
{"id": "C07", "title": "Statuses do not depend on the schedule", "statement": "For fixed task set, fixed validity answers and fixed job results, the status and retcode of every task is the same for every thread count, every interleaving, every address layout of the nodes.", "quantifier": "all pairs of completed executions of the same dag", "why_tests_cant": "needs comparing all pairs of schedules", "anchors": ["src/exec.cpp:exec, find_candidate, run"]}
{"id": "C08", "title": "Invalidation is exactly reachability", "statement": "A task is treated as out of date iff its own job says so or some task it is (transitively) invalidated by says so; this also holds, and the computation terminates, when invalidated-by relations are cyclic. Hence a task is never skipped if something it is invalidated by was executed.", "quantifier": "every dag (incl. cyclic INVALIDATED_BY), validity answers, node address order", "why_tests_cant": "fixpoint over arbitrary graphs and pointer orders", "anchors": ["src/exec.cpp:propagate_invalidation"]}
{"id": "C09", "title": "Cycle detection is exact", "statement": "The execution ends with the 'Cycle detected' exception iff the AFTER relation has a cycle; then no job was started and no is_invalidated query was made. (Provided no visitor callback throws, see C64, and memory does not run out, see C101.)", "quantifier": "every dag and node address order", "why_tests_cant": "completeness of a DFS over all graphs", "anchors": ["src/exec.cpp:has_cycle, check_for_cycle, exec"]}
{"id": "C10", "title": "The reported cycle is a real cycle, reported once", "statement": "on_detected_cycle is called exactly once when there is a cycle and never otherwise; its argument is a non-empty list of distinct nodes each ordered after the next one and the last after the first. (Provided no visitor callback throws, see C64, and memory does not run out, see C101.)", "quantifier": "every dag and node address order", "why_tests_cant": "all graphs", "anchors": ["src/exec.cpp:check_for_cycle, get_cycle", "include/joque/exec_visitor.hpp:on_detected_cycle"]}
{"id": "C11", "title": "Execution always completes", "statement": "If there is no AFTER cycle and every started job eventually finishes, repeatedly calling tick() reaches done(); there is no deadlock on resources, threads or ordering. With thread_count 0 the number of ticks is bounded by a linear function of the number of tasks. (Provided no visitor callback throws, see C64, and memory does not run out, see C101.)", "quantifier": "every acyclic dag, resources, thread count, every fair schedule", "why_tests_cant": "deadlock freedom and termination over all schedules", "anchors": ["src/exec.cpp:exec, find_candidate", "src/exec_coro.cpp:exec_coro::run"]}
{"id": "C12", "title": "Internal assertions never fire", "statement": "No assert in the execution engine can fail, for any dag whose edges stay inside the dag.", "quantifier": "every dag, thread count, schedule", "why_tests_cant": "assertion failure would need an unlucky graph/schedule", "anchors": ["src/exec.cpp:assert in run, propagate_invalidation, has_cycle, exec"]}
{"id": "C13", "title": "Statistics agree with the run records", "statement": "At every moment (also inside visitor callbacks) stats[s] is the number of run records with status s and the four counters sum to runs.size(); at the end they sum to total_count.", "quantifier": "every dag, schedule, moment", "why_tests_cant": "bookkeeping over all histories", "anchors": ["src/exec.cpp:push", "include/joque/records.hpp:exec_record"]}
{"id": "C14", "title": "Work conservation: one start per tick, and never an idle tick without reason", "statement": "Each tick() starts at most one new task; a tick starts none only if the thread limit is reached or no remaining task is eligible (all its predecessors finished and none of its resources in use).", "quantifier": "every reachable state, dag, thread count", "why_tests_cant": "completeness of the candidate search over all states", "anchors": ["src/exec.cpp:find_candidate, exec", "include/joque/exec_coro.hpp:tick"]}
{"id": "C15", "title": "Visitor protocol", "statement": "Every node gets after_node_enque exactly once before anything else; one after_job_is_inval; before_run exactly once before its after_run; on_run_log exactly for executed jobs, between them; after_execution exactly once, last, and only on success, with the final record. (Provided no visitor callback throws, see C64, and memory does not run out, see C101.)", "quantifier": "every dag, schedule, moment", "why_tests_cant": "callback order over all interleavings", "anchors": ["include/joque/exec_visitor.hpp:exec_visitor", "src/exec.cpp:exec, run, cleanup_coros"]}
{"id": "C16", "title": "after_run is given the node the record belongs to", "statement": "Whenever after_run is called, the node argument is the node whose record is passed.", "quantifier": "every dag, thread count, schedule", "why_tests_cant": "depends on which of several concurrent jobs finishes first", "anchors": ["src/exec.cpp:cleanup_coros", "src/run_coro.hpp:run_coro::operator=, get_node"]}
{"id": "C17", "title": "A throwing job is a failed task, not a failed execution", "statement": "If a job throws (std::exception or anything else) its record is FAIL with non-zero code and an error chunk, and the other tasks proceed as for any failed task.", "quantifier": "every job type, dag and schedule", "why_tests_cant": "mixes exception paths with all graphs", "anchors": ["src/exec.cpp:run (try/catch)", "include/joque/traits.hpp:job_traits::run"]}
{"id": "C18", "title": "Engine exceptions are delivered through result()", "statement": "If is_invalidated throws or a worker cannot be started, the execution becomes done, result() rethrows that exception, no further job is started, and no job is still running when the throwing tick() returns.", "quantifier": "every dag, every point at which the exception may occur", "why_tests_cant": "fault points cannot be enumerated by tests", "anchors": ["src/exec.cpp:propagate_invalidation, run, cleanup_coros", "src/run_coro.hpp:result", "src/exec_coro.cpp:result"]}
{"id": "C19", "title": "Destroying an execution waits for its jobs", "statement": "Destroying exec_coro between ticks at any point waits for the jobs that are executing and starts no other; afterwards no job of the execution runs.", "quantifier": "every reachable suspension point", "why_tests_cant": "crash/cancel point quantification", "anchors": ["src/exec_coro.cpp:~exec_coro", "src/run_coro.hpp:~run_coro", "src/exec.cpp:run"]}
{"id": "C20", "title": "exec_coro handle protocol", "statement": "result() is empty before completion, and the final record afterwards, any number of times; moved-from handles are inert for tick/result; run() ticks until done then returns result().", "quantifier": "every sequence of API calls on exec_coro handles", "why_tests_cant": "all call sequences", "anchors": ["src/exec_coro.cpp", "include/joque/exec_coro.hpp"]}
{"id": "C21", "title": "tick() after completion does nothing", "statement": "Documented: calling tick() on a finished execution has no effect.", "quantifier": "every finished execution", "why_tests_cant": "resuming a finished coroutine is undefined behaviour; a test passing proves nothing", "anchors": ["include/joque/exec_coro.hpp:tick", "src/exec_coro.cpp:tick"]}
{"id": "C22", "title": "Filter selects matching tasks and their dependencies only", "statement": "exec(ts, n, filter) schedules exactly the tasks whose full name contains filter plus everything reachable from them through depends_on, each once.", "quantifier": "every task set, filter, hash-map iteration order", "why_tests_cant": "closure over all task graphs and unordered_map orders", "anchors": ["src/dag.cpp:insert_set, dfs"]}
{"id": "C23", "title": "Edges of the built dag are exactly the declared relations", "statement": "Between selected tasks: AFTER edges are exactly depends_on plus run_after, REQUIRES exactly depends_on, INVALIDATED_BY exactly depends_on plus invalidated_by; run_after/invalidated_by references to unselected tasks are ignored; multiplicities match declarations.", "quantifier": "every task set, filter, hash-map iteration order", "why_tests_cant": "all task graphs", "anchors": ["src/dag.cpp:insert_set, dfs", "include/joque/dag.hpp:add_edge"]}
{"id": "C24", "title": "Task naming", "statement": "for_each_task visits every task of the tree exactly once, tasks of a set before its subsets, with full name '//' + names joined by '/'; if no component contains '/', distinct tasks have distinct names.", "quantifier": "every task set tree", "why_tests_cant": "all trees", "anchors": ["include/joque/task.hpp:for_each_task_impl, for_each_task"]}
{"id": "C25", "title": "Bulk dependency helpers", "statement": "for_each_add_dep / add_dep_to_each / run_each_after / run_after_all_of / invalidated_by_all_of append exactly the stated relation for every task of the set (recursively) except the task itself, once per call and change nothing else.", "quantifier": "every task set, task (inside or outside the set)", "why_tests_cant": "all trees and aliasing positions", "anchors": ["src/task.cpp"]}
{"id": "C26", "title": "Bulk helpers give the promised order at run time", "statement": "After add_dep_to_each/run_after_all_of (resp. for_each_add_dep/run_each_after) the execution runs the single task after (resp. before) all other selected tasks of the set.", "quantifier": "every task set and execution", "why_tests_cant": "composition of builder and scheduler over all inputs", "anchors": ["src/task.cpp", "src/dag.cpp:insert_set", "src/exec.cpp"]}
{"id": "C27", "title": "Dependencies outside the task set", "statement": "A depends_on reference to a task that is not in the task set is still scheduled and named by the library without undefined behaviour.", "quantifier": "every task set with external dependencies", "why_tests_cant": "inserting into an unordered_map while iterating it may or may not rehash", "anchors": ["src/dag.cpp:dfs (tmp[&t])"]}
{"id": "C28", "title": "Intrusive list behaves as a sequence", "statement": "emplace_front/link_front put the element first, deleting a node removes exactly it, iteration from begin to end yields exactly the current sequence, empty() iff none; other lists sharing the nodes by other headers are not disturbed.", "quantifier": "every sequence of operations on any number of lists", "why_tests_cant": "pointer-structure invariants over all histories", "anchors": ["include/joque/bits/list.hpp"]}
{"id": "C29", "title": "List backward access", "statement": "Decrementing an iterator at position i > 0 gives position i-1; back() returns the last element of a non-empty list.", "quantifier": "every list", "why_tests_cant": "UB on a sentinel is not observable reliably", "anchors": ["include/joque/bits/list.hpp:list_iterator::operator--, back"]}
{"id": "C30", "title": "Tagged pointer is lossless", "statement": "A list_ptr made from a node/header/null reports that kind, returns exactly the original pointer through the matching getter and null through the other; find_header yields the header; equality is equality of kind and address.", "quantifier": "every 64-bit address with the guaranteed alignment", "why_tests_cant": "2^63 addresses", "anchors": ["include/joque/bits/list_ptr.hpp"]}
{"id": "C31", "title": "Destroying a graph frees every node and edge exactly once", "statement": "For any graph built by emplace/add_edge (self loops, parallel edges included), destruction deletes every node and every edge exactly once and never touches freed memory.", "quantifier": "every graph and construction order", "why_tests_cant": "ownership in doubly threaded lists over all shapes", "anchors": ["include/joque/bits/dag.hpp:gnode, gedge, graph", "include/joque/bits/list.hpp:~list, ~list_header", "include/joque/dag.hpp:add_edge"]}
{"id": "C32", "title": "clear_if removes exactly the matching nodes and their edges", "statement": "After clear_if(f) the graph has exactly the nodes not matching f in the same order, exactly the edges between them in the same order; everything else is freed once.", "quantifier": "every graph and predicate", "why_tests_cant": "all graphs", "anchors": ["include/joque/bits/dag.hpp:clear_if", "include/joque/bits/list.hpp:clear_if"]}
{"id": "C33", "title": "Moving a graph preserves it", "statement": "Move construction transfers all nodes and edges unchanged and leaves the source empty; move assignment releases the nodes the destination owned.", "quantifier": "every graph", "why_tests_cant": "pointer rewiring over all shapes", "anchors": ["include/joque/bits/list.hpp:list_header move, list move", "include/joque/bits/dag.hpp:graph"]}
{"id": "C34", "title": "Process staleness follows timestamps", "statement": "With inputs and outputs that all exist, and a return-code file, if one is set, that records success: the process is invalidated iff some output is not newer than some input. A missing input is read as the file clock's epoch: it makes the process invalidated if that epoch is later than every file time, and is ignored if it is earlier.", "quantifier": "every process description and file system state", "why_tests_cant": "all timestamp configurations", "anchors": ["src/process.cpp:is_invalidated"]}
{"id": "C35", "title": "A process with a missing output is out of date", "statement": "If any declared output does not exist the process is invalidated; with no outputs it is always invalidated.", "quantifier": "every process description and file system state, clock epoch", "why_tests_cant": "depends on clock epoch and on the number of outputs", "anchors": ["src/process.cpp:is_invalidated, path_to_write_time", "test/process_utest.cpp:corner_cases"]}
{"id": "C36", "title": "Return-code file remembers failure", "statement": "With retcode_file set: no file, or a recorded non-zero code, means invalidated; after a completed run (on a device with room for it) the file holds exactly the returned code, so a failed run is re-run next time. Whatever goes wrong, run touches no other file than this one: every other file is as the command left it, or as it was if the command never started.", "quantifier": "every return code, file content and file system state", "why_tests_cant": "round trip over all ints and all histories of runs", "anchors": ["src/process.cpp:is_invalidated, run"]}
{"id": "C37", "title": "Process run reports failure and output faithfully", "statement": "run returns non-zero iff the process could not be started/drained/waited for or exited non-zero; on success the output chunks are what the process wrote, in order with stream tags; on non-zero exit the command line is prepended.", "quantifier": "every command, every behaviour of the OS layer", "why_tests_cant": "OS failure points", "anchors": ["src/process.cpp:run, format_cmd"]}
{"id": "C38", "title": "derive builds the command in argument order", "statement": "process::derive puts every argument in cmd in order; exactly the plain paths become inputs and exactly the out() paths become outputs, in order; builder methods append only to their own field.", "quantifier": "every argument list", "why_tests_cant": "variadic, all lengths", "anchors": ["include/joque/process.hpp:derive", "src/process.cpp:add_output, add_input, set_retcode_file"]}
{"id": "C39", "title": "Nested formatting prefixes every line", "statement": "format_nested prints every line of the concatenated output prefixed with indent, ends with a newline if there is any output, prints nothing for none, and does not depend on how the output is split into chunks.", "quantifier": "every indent, every chunk list", "why_tests_cant": "all strings and chunkings", "anchors": ["src/format.cpp:format_nested"]}
{"id": "C40", "title": "Task name rendering", "statement": "fmt_text terminates and shows the first 60 characters padded to 60 with every '/' (and nothing else) wrapped in colour codes.", "quantifier": "every text", "why_tests_cant": "the replaced text contains the searched character; all strings", "anchors": ["src/format.cpp:fmt_text"]}
{"id": "C41", "title": "Total run time", "statement": "runtime_sum is the least whole number of seconds covering latest end minus earliest start, in particular at least every task's duration; it is defined for every record an execution can return.", "quantifier": "every execution record", "why_tests_cant": "all records, incl. the empty one", "anchors": ["src/records.cpp:runtime_sum", "src/print_exec_visitor.cpp:after_execution"]}
{"id": "C42", "title": "JUnit report structure and counts", "statement": "The XML has one testsuite element containing one testcase per run record in order, properly closed; tests equals the number of testcases and failures equals the number of failure elements for every record an execution returns.", "quantifier": "every execution record", "why_tests_cant": "all records", "anchors": ["src/junit.cpp:generate_junit_xml, xml_node"]}
{"id": "C43", "title": "JUnit attribute values are escaped", "statement": "The report is well formed XML for every task and suite name.", "quantifier": "every name", "why_tests_cant": "all strings", "anchors": ["src/junit.cpp:attr"]}
{"id": "C44", "title": "JSON export loses nothing", "statement": "From the JSON of an execution record all names, statuses, retcodes, outputs, counters and times can be recovered; the task reference is not exported.", "quantifier": "every execution record", "why_tests_cant": "injectivity over all records", "anchors": ["src/json.cpp", "include/joque/records.hpp:map", "include/joque/run_result.hpp:map"]}
{"id": "C45", "title": "Hidden tasks stay hidden unless they fail", "statement": "With the non-verbose default visitor a hidden task produces no start or end line and no output unless its retcode is non-zero; a task with non-zero retcode always gets its end line and output.", "quantifier": "every event sequence of an execution", "why_tests_cant": "all histories", "anchors": ["src/print_exec_visitor.cpp:before_run, after_run"]}
{"id": "C46", "title": "Progress line shows a task that is in flight", "statement": "The task name the default visitor re-prints after a completion is a task started and not yet completed, and the visitor never uses a node of an execution that is gone.", "quantifier": "every history of executions using one visitor (incl. cancelled ones)", "why_tests_cant": "histories over several executions, cancellation points", "anchors": ["src/print_exec_visitor.cpp:impl::queued, after_run, after_execution", "include/joque/print_exec_visitor.hpp:PRINT_VISITOR"]}
{"id": "C47", "title": "format_dag lists what a task runs after", "statement": "For every node the name line is followed by a line listing the tasks it runs after.", "quantifier": "every dag", "why_tests_cant": "all dags", "anchors": ["src/format_dag.cpp"]}
{"id": "C48", "title": "Enum names are unambiguous", "statement": "to_sv of run_status, ekind and inval are injective and never empty.", "quantifier": "every enum value", "why_tests_cant": "finite; kept as it is what reports key on", "anchors": ["src/records.cpp:to_sv", "src/dag.cpp:to_sv"]}
{"id": "C49", "title": "Record times respect the order of execution", "statement": "With a monotone clock every record has start <= end, and if A is ordered after B then B.end <= A.start.", "quantifier": "every dag, schedule, monotone clock", "why_tests_cant": "all interleavings", "anchors": ["src/exec.cpp:run", "include/joque/records.hpp:run_record"]}
{"id": "C50", "title": "Summary line counts", "statement": "end_text reports run = OK + FAIL and each status counter; for a finished execution the counters sum to total_count.", "quantifier": "every execution record", "why_tests_cant": "all records", "anchors": ["src/format.cpp:end_text"]}
{"id": "C51", "title": "A task without a job is rejected cleanly", "statement": "Executing a task whose job was never set is reported as an error rather than undefined behaviour.", "quantifier": "every task set containing a task with no job", "why_tests_cant": "null dereference is UB", "anchors": ["src/exec.cpp:propagate_invalidation", "src/print_exec_visitor.cpp:after_node_enque"]}
{"id": "C52", "title": "insert_set leaves existing dag content alone", "statement": "Inserting a task set into a dag that already has nodes keeps every existing node, its name, task and edge lists, and adds no edge between old and new nodes.", "quantifier": "every dag, task set, filter, hash-map iteration order", "why_tests_cant": "all dags and task graphs", "anchors": ["src/dag.cpp:insert_set, dfs", "include/joque/bits/dag.hpp:emplace"]}
{"id": "C53", "title": "The linked graph is the dag the rest of the library sees", "statement": "Building a dag with emplace and add_edge on the intrusive lists, iteration over nodes, out edges and in edges yields exactly the nodes and edges added, newest first, also after the graph has been moved.", "quantifier": "every sequence of emplace/add_edge, every addresses", "why_tests_cant": "all construction histories", "anchors": ["include/joque/bits/dag.hpp", "include/joque/bits/list.hpp", "include/joque/dag.hpp:add_edge", "src/exec.cpp:exec"]}
{"id": "C54", "title": "No needless rebuild", "statement": "Of a process that declares inputs and outputs: after a run that exited with 0 (and could replace the return-code file, if one is set), if all inputs exist and every output is newer than every input, the process is not invalidated.", "quantifier": "every process, file system and behaviour of the OS layer", "why_tests_cant": "all timestamps and retcode files", "anchors": ["src/process.cpp:is_invalidated, run"]}
{"id": "C55", "title": "The command line shown identifies the command", "statement": "format_cmd is injective: two different commands are never shown alike in logs and failure output.", "quantifier": "every two argument vectors", "why_tests_cant": "all strings", "anchors": ["src/process.cpp:format_cmd"]}
{"id": "C56", "title": "A failed process is run again", "statement": "With a retcode file, if run reports a failure then the process is invalidated next time.", "quantifier": "every process, every behaviour of the OS layer", "why_tests_cant": "needs failing start/drain/wait after a good run", "anchors": ["src/process.cpp:run, is_invalidated"]}
{"id": "C57", "title": "Report lines are aligned", "statement": "Within one execution the text of every line the default visitor prints through format_line (start of a task, end of a task, summary) begins in the same column.", "quantifier": "every execution, every task name without escape sequences", "why_tests_cant": "all counters and widths; counter never exceeds the total at any event", "anchors": ["src/format.cpp:format_line, fmt_counter, fmt_status, format_status, format_run_end, format_exec_end"]}
{"id": "C58", "title": "Times in the JUnit report are numbers", "statement": "The time attributes of testsuite and testcase are decimal numbers of seconds, as the JUnit format demands.", "quantifier": "every execution record", "why_tests_cant": "all records; the unit suffix depends on the argument type", "anchors": ["src/junit.cpp:generate_junit_xml, attr"]}
{"id": "C59", "title": "Frames of task coroutines are released exactly once", "statement": "Over any history of starting runs and erasing finished ones, every coroutine frame put into the vector of runs is either still owned by exactly one element or was destroyed exactly once; the erased elements' frames are the ones destroyed, in spite of the swapping move assignment.", "quantifier": "every history of starts and completions, every vector growth", "why_tests_cant": "all histories; double release or leak depends on the order in which jobs finish", "anchors": ["src/run_coro.hpp:run_coro", "src/exec.cpp:cleanup_coros"]}
{"id": "C60", "title": "A second execution has nothing to do", "statement": "Take a dag of processes that declare inputs and outputs, no file written by two of them, every input a source file or an output of a task in depends_on, and children that write all their outputs when they succeed. After an execution in which nothing failed (and before which no process with a missing output said it was up to date), executing the same dag again skips every task. A producer named in run_after only is not enough.", "quantifier": "every dag of processes whose inputs are sources or outputs of dependencies, every initial file system, thread counts, schedules of both executions", "why_tests_cant": "all dags, schedules and file times", "anchors": ["src/exec.cpp:exec_coro, run, propagate_invalidation", "src/process.cpp:is_invalidated, run"]}
{"id": "C61", "title": "A change runs exactly what depends on it", "statement": "Take such a dag of processes (C60), all up to date and with all their files present. If some source files are then replaced by newer ones, the next execution runs exactly the tasks that transitively depend on a task with a changed input (except for tasks with a failed dependency).", "quantifier": "every dag of processes, every set of changed sources, schedule", "why_tests_cant": "all dags and change sets", "anchors": ["src/exec.cpp:propagate_invalidation", "src/process.cpp:is_invalidated"]}
{"id": "C62", "title": "A failed task is tried again by the next execution", "statement": "If a task's process failed, the next execution of the same dag does not skip the task, nor anything depending on it.", "quantifier": "every dag of processes, every way of failing, schedule", "why_tests_cant": "all file times; outputs may have been written before the failure", "anchors": ["src/process.cpp:is_invalidated, run", "src/exec.cpp:propagate_invalidation"]}
{"id": "C63", "title": "Jobs that must not overlap are synchronised", "statement": "If A is ordered after B, or A and B list a common resource, and both jobs run, then everything the earlier job did happens before (in the sense of the C++ memory model: through thread creation, futures and program order) everything the later one does; what a job did happens before after_run reports it, and what the caller did before the tick that starts a task happens before its job.", "quantifier": "every dag, resource assignment, thread count, interleaving", "why_tests_cant": "missing synchronisation is invisible on most hardware and schedules", "anchors": ["src/exec.cpp:run, find_candidate, cleanup_coros", "include/joque/task.hpp:resource"]}
{"id": "C64", "title": "A throwing visitor ends the execution like an engine failure", "statement": "A visitor callback may throw wherever it is called. Then the rest of that portion does not happen, no further callback is made, nothing new is launched, the execution never returns a record; once the jobs already launched have ended the tick() under way ends and result() throws the visitor's exception, with no job running. All other safety properties keep holding. Without a throwing callback no execution ends that way.", "quantifier": "every dag, thread count, interleaving, every callback and every moment it may throw at", "why_tests_cant": "fault points times interleavings", "anchors": ["src/exec.cpp:exec, run, cleanup_coros", "src/run_coro.hpp:unhandled_exception, result", "include/joque/exec_visitor.hpp:exec_visitor"]}
{"id": "C65", "title": "on_tick is called once per tick while work remains", "statement": "In every completed tick() of an execution on_tick is called exactly once if some task has not been started by the end of that tick, and not at all otherwise; it is called before any other callback of the tick except those of the prologue (enqueueing and invalidation reports).", "quantifier": "every dag, thread count, interleaving, tick", "why_tests_cant": "all schedules; number of ticks depends on timing", "anchors": ["src/exec.cpp:exec", "include/joque/exec_visitor.hpp:on_tick"]}
{"id": "C66", "title": "Invalidation reports are true and explain every job that runs", "statement": "after_dep_inval(n, m) is called only if n is declared invalidated by m, m is out of date, and n's own job did not say so; no declaration is reported twice. Before a job is started the visitor has been told a chain of such reports from its task to a task whose job answered 'invalidated'.", "quantifier": "every dag, answers of jobs, schedule, also executions that fail", "why_tests_cant": "all graph shapes", "anchors": ["src/exec.cpp:propagate_invalidation", "include/joque/exec_visitor.hpp:after_dep_inval, after_job_is_inval"]}
{"id": "C67", "title": "Callables always run", "statement": "A task whose job is a plain callable (default job_traits) is never skipped: it is run or has a failed dependency. The same holds for every task transitively invalidated by it.", "quantifier": "every dag, mix of jobs, thread count, schedule", "why_tests_cant": "all graphs and schedules", "anchors": ["include/joque/traits.hpp:job_traits::is_invalidated", "src/exec.cpp:propagate_invalidation, run"]}
{"id": "C68", "title": "Every line the default visitor prints says what it should", "statement": "On a terminal the start line of a task shows time, number of completed tasks plus one, number of tasks, STRT and the name (cut or padded to 60 columns). The k-th end line shows time, k, number of tasks, the task's status, its name, and a duration exactly if the job was run. The summary shows time, number of tasks, number of jobs run, number of tasks of each status, and the run time.", "quantifier": "every dag, schedule, name, time", "why_tests_cant": "all names and schedules, escape sequences in between", "anchors": ["src/format.cpp:format_status, format_run_end, format_exec_end, format_line, end_text", "src/print_exec_visitor.cpp:before_run, after_run, after_execution"]}
{"id": "C69", "title": "Progress lines leave nothing behind", "statement": "Whatever was shown as a progress line is completely covered by what is printed next: at any time the lines above the cursor are those printed deliberately (end lines, output, summary), the line of the cursor is one whole progress line or empty, and it is empty after the execution.", "quantifier": "every dag, schedule, visitor mode, output of jobs without escape sequences, terminal wide enough", "why_tests_cant": "tests compare the bytes written, not what they do to a terminal; all lengths of names, counters, durations", "anchors": ["src/print_exec_visitor.cpp:before_run, after_run, on_run_log, after_execution", "src/format.cpp:format_line"]}
{"id": "C70", "title": "What executing a task set means", "statement": "Provided that every selected task has a job that sets its return code, and that building the graph does not run into C27: building a graph from a task set and running the executor on it under any fair schedule always comes to an end, and the end depends on the task objects alone: if the declared order (dependencies and run_after) of the selected tasks has a cycle, run() throws the cycle error; otherwise either is_invalidated of some selected task throws and run() throws that, or run() returns a record with exactly one entry per selected task whose status, return code and output are the unique solution of: depf if a dependency failed or is depf; else skip if neither the task nor any task it is transitively invalidated by says it is out of date; else what the job yields.", "quantifier": "every task set whose selected tasks have jobs that return an initialised return code or throw; every filter, addresses and iteration orders of the containers, thread count, fair schedule", "why_tests_cant": "all graphs and schedules; composes graph construction, executor and coroutine handle", "anchors": ["src/dag.cpp:insert_set", "src/exec.cpp:exec", "src/exec_coro.cpp:exec_coro::run"]}
{"id": "C71", "title": "Freshness questions while the file system changes", "statement": "is_invalidated of a process makes a bounded number of file system queries, each of which may see a different state or fail. If nothing changes it answers as in C34-C37. It throws only if a query about one of its files failed or such a file was there at one query and missing at the next; then the whole execution ends with that exception. If nobody else writes the outputs and inputs only get newer, 'up to date' was right when the question was asked and 'out of date' is right when the answer is given.", "quantifier": "every process, environment (state seen by each query, failures), evaluation order of comparison arguments", "why_tests_cant": "interference by other programs between two system calls; all interleavings", "anchors": ["src/process.cpp:job_traits<process>::is_invalidated, path_to_write_time"]}
{"id": "C72", "title": "The explanation of an invalidation answer is true", "statement": "The text returned by is_invalidated of a process states a reason that holds: the retcode file named is missing, or holds the number shown; no output is declared; the output named is missing; or the output and input named are an oldest output and a latest input, shown with their times (a missing file counting as the epoch), and the answer is the comparison of these times.", "quantifier": "every process, file system, rendering of times", "why_tests_cant": "all file systems and combinations of missing files", "anchors": ["src/process.cpp:job_traits<process>::is_invalidated"]}
{"id": "C73", "title": "The unit tests hold for all schedules", "statement": "What the repository's tests check on examples holds generally: a flat set of jobs returning 0, each depending on earlier ones, is recorded as all OK and no job starts before its dependencies ended (basic, dep); in a chain whose first job fails only that job runs (depf, failed_dep); tasks not matching the filter are neither run nor recorded even if others run after them (filter); a cycle of invalidated_by edges is no error and runs everything or nothing (cyclic_invalidation); a cycle of after edges is reported as a rotation of that cycle (cyclic_after); a process with one input and one output is skipped iff the output is newer (process tests).", "quantifier": "any number of tasks, names, node addresses, hash orders, thread counts, fair schedules, file times", "why_tests_cant": "tests run a fixed example under the schedule that happens to occur", "anchors": ["test/basic_utest.cpp", "test/process_utest.cpp", "src/exec.cpp"]}
{"id": "C74", "title": "Diagnostics say what happened", "statement": "on_run_log is called exactly once for a recorded task if its job was executed and not otherwise, with the log the job returned (empty if it threw). On std::cerr the default visitor writes exactly one line per node without a job, in the order of the dag, then, iff there is a cycle, a heading and the names along a cycle of the dag, one per line. With verbose output every such log, every explanation of an out-of-date answer and every 'invalidated by' message appears under the right names, and each 'invalidated by' message is true.", "quantifier": "every dag, execution, schedule, thread count, names without line breaks", "why_tests_cant": "all executions and texts; the tests do not look at the diagnostics", "anchors": ["src/print_exec_visitor.cpp:after_node_enque, on_detected_cycle, after_job_is_inval, after_dep_inval, on_run_log", "src/exec.cpp:run"]}
{"id": "C75", "title": "The documented programs", "statement": "The program example.cpp called with a number n > 0 executes 2n tasks named //a/task_i and //b/task_i: every fair schedule returns the record with exactly these, all OK with code 0. With no or several arguments it returns 1, a text that is no int ends it with an exception, a negative number asks for over 2^63 tasks; with 0 the summary has undefined behaviour. The example in README.md discards its execution, so it calls nothing at all; if the execution were run it would throw, because its tasks depend on each other.", "quantifier": "every argument list, every n, every placement of tasks and nodes, hash order, thread count, fair schedule", "why_tests_cant": "no test runs the example programs, and their outcome quantifies over n and schedules", "anchors": ["example.cpp", "README.md", "src/exec.cpp:exec"]}
{"id": "C76", "title": "One visitor for several executions", "statement": "exec uses the global PRINT_VISITOR by default, so the same visitor sees several executions. It never follows a pointer to a node that was destroyed, and each execution prints what it would print with a visitor of its own.", "quantifier": "every sequence of executions of any dags, schedules, thread counts, addresses; also executions in turns", "why_tests_cant": "needs an execution abandoned at the wrong moment, and the misuse of freed memory may go unnoticed", "anchors": ["src/print_exec_visitor.cpp:before_run, after_run, after_execution", "include/joque/print_exec_visitor.hpp:PRINT_VISITOR", "include/joque/exec.hpp:exec"]}
{"id": "C77", "title": "Marks in the nodes of a customised dag", "statement": "exec(dag, ...) exists for customised dags, whose nodes have public marks (invalidated, started, done, failed). What an execution does depends only on the tasks and edges of the dag, not on the marks its nodes carry when it starts.", "quantifier": "every dag, marks, schedule, thread count, job behaviour, injected failure", "why_tests_cant": "the marks are an input nobody thinks of; each combination of marks and schedules behaves differently", "anchors": ["src/exec.cpp:exec, find_candidate, run, propagate_invalidation", "include/joque/dag.hpp:node_content", "include/joque/exec.hpp:exec"]}
{"id": "C78", "title": "One worker thread does the same as none", "statement": "An execution with thread_count 1 makes the same visitor calls in the same order, executes the same jobs between the same calls and returns the same records as the execution with thread_count 0, whatever the timing of the control thread and the worker; only times, the number of on_tick calls and the thread a job runs on differ. So with one thread the outcome does not depend on the schedule.", "quantifier": "every dag, job behaviour (also throwing or undefined), answers to the freshness questions, every schedule of control thread and worker; std::async succeeds, no visitor throws, the execution is not abandoned", "why_tests_cant": "a test sees one timing of the worker; the claim compares two different mechanisms (deferred and async) over all timings", "anchors": ["src/exec.cpp:run (thread_count == 0 ? deferred : async), cleanup_coros, exec"]}
{"id": "C79", "title": "Ticks report promptly and are not wasted", "statement": "In every complete tick (from one resumption of the execution to the next), every job on a thread that had ended before the tick is recorded and reported through after_run; every tick but the first starts or records some task unless some job on a thread had not ended before the tick. Hence the number of ticks is at most 2 * tasks + 2 plus the number of ticks begun while a job was still executing.", "quantifier": "all dags, thread counts, jobs, schedules of workers and control thread, failures of thread creation, throwing visitors, all ticks", "why_tests_cant": "A test sees a few schedules; whether a tick can overlook a finished job or do nothing although nothing is executing depends on the order in which coroutines are kept, erased and shifted under every interleaving.", "anchors": ["src/exec.cpp:175-193", "src/exec.cpp:312-338", "include/joque/exec_coro.hpp"]}
{"id": "C80", "title": "Resources across two executions of one program", "statement": "If a program holds two executions and ticks them in turn, (a) each behaves as if it were alone, in particular its results are those it has alone, and (b) of all tasks of both that reference the same resource at most one is executing at any moment.", "quantifier": "all pairs of dags, thread counts, jobs, all interleavings of ticks, destructions and workers of both executions, failures of thread creation, throwing visitors", "why_tests_cant": "The jobs of one execution on threads go on while the other one is ticked; the claim is about every interleaving of two schedules.", "anchors": ["include/joque/task.hpp:16-17", "src/exec.cpp:295-343 (used_resources, a local of the coroutine)", "include/joque/exec_coro.hpp:tick"]}
{"id": "C81", "title": "Colours and the cursor are restored", "statement": "On a terminal every line draws the status word in the colour of the status (OK 118, SKIP 226, DEPF 202, FAIL 196, STRT 33), the time, the total, the slashes of a name and the duration in gray (239), and everything else in the default colour; the four colours of statuses differ. After every output the terminal has its default colour and a visible cursor, provided names and output of the jobs contain no escape character.", "quantifier": "all dags, names, outputs, schedules, verbosity, all calls of the print visitor, all prefixes of an execution", "why_tests_cant": "The colour is a state of the terminal carried through the whole output; whether it can leak depends on every sequence of lines that a schedule can produce.", "anchors": ["src/format.cpp:18-146", "src/print_exec_visitor.cpp"]}
{"id": "C82", "title": "Interrupted builds are resumed", "statement": "If the program dies at any moment of an execution of processes (in particular inside a job), the next execution of the same task set executes exactly the tasks that were out of date and had not finished successfully, and what is invalidated by them: no work is lost, none is repeated.", "quantifier": "all dags of processes, file systems, thread counts and schedules of both executions, all crash points: every prefix of the history and every moment inside a job, whatever a killed child has left", "why_tests_cant": "A crash can happen between any two effects; the claim is about every prefix of every schedule and every state of the files a killed child can leave.", "anchors": ["src/process.cpp:52-115 (is_invalidated)", "src/process.cpp:117-176 (run, retcode file)", "src/exec.cpp"]}
{"id": "C83", "title": "How long an execution takes", "statement": "Measure time in ticks, and the length of a job by the number of ticks that begin while it is on its thread. With k = thread_count >= 1, the work W (the sum of the lengths of all jobs) and a chain of tasks each of which may have to wait for the next (because it, or a task it is ordered after, is ordered after that one or has a resource in common with it), an execution takes at most W/k + (1 - 1/k) * (length of the chain) ticks, three ticks for each task and three more. Without shared resources this is at most twice the time any schedule of these jobs on k threads needs, apart from the constant number of ticks per task. Conversely an execution takes at least W/k ticks and at least the length of any tasks ordered one after the other.", "quantifier": "all dags, resources, thread counts, jobs, all schedules of ticks and workers, all prefixes of an execution", "why_tests_cant": "A scheduler that wastes threads now and then produces correct results in every test; the bound is about every schedule and every combination of job lengths.", "anchors": ["src/exec.cpp:62-98 (find_candidate)", "src/exec.cpp:176-194 (cleanup_coros)", "src/exec.cpp:295-343 (exec)"]}
{"id": "C84", "title": "An edit made during an execution is not lost", "statement": "If a source file is changed (by an editor, say) while processes are executed, no task that reads it is left built from the old contents: either its job begins after the change, or the next execution of the same task set executes it, and with it what is invalidated by it.", "quantifier": "all dags of processes, file systems, thread counts and schedules of both executions, any number of edits at any moments", "why_tests_cant": "The edit can happen between any two effects of any schedule; a test edits a file before or after an execution, not at every moment inside it.", "anchors": ["src/process.cpp:62-115 (is_invalidated)", "src/process.cpp:117-176 (run)", "src/exec.cpp:295-343 (exec)"]}
{"id": "C85", "title": "No data races", "statement": "Executing a task set, the library has no data race: of any two conflicting accesses to a task, a job object, the marks of a node, the result handed over by a worker thread or the library's own data, one happens before the other in the sense of the C++ memory model. In particular is_invalidated and run of one job object are never in progress at the same time on two threads, so a job needs no locking of its own. For a dag built by the caller this holds if nodes with the same task are ordered by edges or the task has a resource; without that it can fail.", "quantifier": "all task sets, filters and dags, thread counts, job behaviours, visitor exceptions, all schedules of ticks and workers, all pairs of events of the history", "why_tests_cant": "A data race is a property of all interleavings and of the synchronisation between threads; a test that passes, even under a race detector, has seen one interleaving.", "anchors": ["src/exec.cpp:100-174 (run)", "src/exec.cpp:176-194 (cleanup_coros)", "src/exec.cpp:295-343 (exec)", "include/joque/job.hpp:12-20"]}
{"id": "C86", "title": "The report file holds the report", "statement": "After generate_junit_xml(path, name, record) returns, the file at the path holds the report of that record and nothing else, whatever it held before; no other file is touched. If it cannot be written the caller is told.", "quantifier": "all records, names, paths, previous contents, and all states of the file system (paths that cannot be opened, devices that become full after any number of characters)", "why_tests_cant": "Tests write to a directory that exists on a device with room; the claim is about every failure at every character.", "anchors": ["src/junit.cpp:51-58 (generate_junit_xml for a path)", "include/joque/junit.hpp:12-21"]}
{"id": "C87", "title": "Independent tasks can run at the same time", "statement": "Tasks that are to be executed, none of which is ordered before another, and which share no resource with each other or with anything another one of them still has to wait for, can all be in progress at the same moment if there are at least as many threads: at any moment at which none of them has ended, some continuation of the execution gets there, whatever else is in the dag. With at least one thread this is exact for tasks that depend on nothing: a group of them can be in progress together if and only if it is not larger than the thread count and its members share no resource.", "quantifier": "all dags without cycles, resource assignments, thread counts, job outcomes, groups of tasks, and all reachable moments of the execution", "why_tests_cant": "A test shows that two given jobs overlapped in one run; that no combination of graph, resources and progress of other tasks serialises tasks that could run together is a statement about all reachable states.", "anchors": ["src/exec.cpp:295-343 (exec)", "src/exec.cpp:176-194 (cleanup_coros)", "src/exec.cpp:100-174 (run)", "src/exec.cpp:62-98 (find_candidate)"]}
{"id": "C88", "title": "A filter does not change results", "statement": "Executing a task set with a filter gives each selected task the same status, return code and output as executing it with a wider filter or with none.", "quantifier": "all task sets, filters and wider filters, jobs, thread counts, schedules, hash orders and addresses of both executions", "why_tests_cant": "It relates two executions of every task set under every pair of filters; tests compare a filtered execution with a list of expected names.", "anchors": ["src/exec.cpp:exec", "src/exec_coro.cpp:exec_coro::run", "src/dag.cpp:insert_set, dfs"]}
{"id": "C89", "title": "Repairing a job never breaks another task", "statement": "If some jobs of a program are repaired (a job that succeeded still succeeds, no job says it is out of date that did not before) and the same task set is executed, every task that fails or is left out because of a failure did so before the repair too.", "quantifier": "all programs and repaired versions, task sets, filters, thread counts, schedules, hash orders and addresses of both executions", "why_tests_cant": "It is a monotonicity property of the whole outcome over all pairs of programs; a test has one program.", "anchors": ["src/exec.cpp:exec", "src/exec_coro.cpp:exec_coro::run", "src/dag.cpp:insert_set, dfs"]}
{"id": "C90", "title": "The result of a task depends only on what it declares", "statement": "Status, return code and output of a task depend only on the tasks reachable from it through depends_on and invalidated_by, their jobs and whether they are selected: adding, removing or changing any other task of the program, the filter, resources, run_after relations, names or the thread count does not change them.", "quantifier": "all pairs of programs that agree on the declared tasks, all task sets, filters, thread counts, schedules, hash orders and addresses", "why_tests_cant": "It relates every two programs that share a part; a test can only change one thing in one program.", "anchors": ["src/exec.cpp:exec", "src/exec_coro.cpp:exec_coro::run", "src/dag.cpp:insert_set, dfs"]}
{"id": "C91", "title": "The work of the scheduler is bounded", "statement": "The check for cycles makes at most one call for every task and one for every declared ordering (exactly so many without a cycle), nests no deeper than the longest chain of orderings (plus one on a cycle), and compares at most depth pointers per call; on a chain of n tasks it makes 2n-1 calls, is nested n deep and compares n(n-1)/2 pointers. Every search for a task to start makes at most as many calls as tasks remain plus orderings these declare, nested at most one deeper than tasks remain. Propagation of invalidation processes exactly the tasks that are out of date, each once. Building a dag calls dfs at most once for every task of the set and once for every dependency put into the dag (exactly so often without a filter), nested as deep as some chain of dependencies and at most one deeper than there are new nodes; for a chain of n tasks it can be nested n deep.", "quantifier": "all graphs, task sets, filters, resource assignments, schedules and moments of the execution; all chain lengths", "why_tests_cant": "It bounds call counts and recursion depth for graphs of every size and shape and for every reachable state; a test measures one graph.", "anchors": ["src/exec.cpp:find_candidate", "src/exec.cpp:check_for_cycle, has_cycle", "src/exec.cpp:propagate_invalidation", "src/dag.cpp:dfs"]}
{"id": "C92", "title": "How run() paces the execution", "statement": "With run(period) the k-th tick begins not before k periods after the call and ticks do not overlap; it begins exactly at the latest of the times at which, counted from the scheduled time of some tick j <= k, all ticks since could be completed without a pause, so it is on schedule iff no stretch of ticks before it took longer than its periods (a long tick is made up for, there is no drift); with a period <= 0 run never sleeps. An execution of N > 0 tasks needs at least N + 2 ticks, exactly N + 2 if no job is given to a thread, so the k-th started task starts not before k + 1 periods and the execution is complete not before N + 1 periods, even if there is nothing to do.", "quantifier": "all periods, tick durations, wake-up delays, task sets, schedules and thread counts", "why_tests_cant": "It is about clock readings under every duration and delay and a lower bound for every number of tasks and schedule; a test measures one run on one machine.", "anchors": ["src/exec_coro.cpp:exec_coro::run", "src/exec.cpp:exec", "src/exec.cpp:cleanup_coros"]}
{"id": "C93", "title": "Which task is started next", "statement": "There is one order of the tasks of a graph, fixed by the declared orderings and the addresses of the nodes alone (depth first: each task by address, preceded by everything it runs after, last declared first), that contains every task once and after all it runs after. Every task that is started is the first one in this order that could start (not started, everything it runs after recorded, no resource held) when it was chosen, one tick before, at a moment when a thread was free. With thread_count 0 or 1 tasks are started, and recorded, exactly in this order, whatever jobs return, whatever they take and whatever resources they share; also in an execution that fails or is abandoned the tasks started are a beginning of it.", "quantifier": "all acyclic graphs, resource assignments, job outcomes, schedules, thread counts and moments of the execution", "why_tests_cant": "It is about the choice made in every reachable state of the scheduler, on graphs of every shape and under all interleavings; a test sees one sequence of choices, and one assignment of addresses.", "anchors": ["src/exec.cpp:find_candidate", "src/exec.cpp:exec", "src/exec.cpp:cleanup_coros"]}
{"id": "C94", "title": "Less to do, or more threads, does not make an execution slower", "statement": "Compare two complete executions, the second with at least as many threads, tasks that are among those of the first, jobs that are not longer (in ticks), orderings that hold in the first as well, and no additional resources. Then the second takes no more ticks than the first, apart from a constant number of ticks for each task.", "quantifier": "all pairs of dags, thread counts, resource assignments and schedules", "why_tests_cant": "It compares executions under all combinations of job lengths; the cases in which a greedy scheduler gets slower need a particular interplay of lengths and order that a test does not come across by chance.", "anchors": ["src/exec.cpp:find_candidate", "src/exec.cpp:exec"]}
{"id": "C95", "title": "Jobs go on between any two callbacks", "statement": "Threads do not wait for the callbacks of the visitor: a job may begin or end between any two calls the control thread makes, e.g. between before_run of a task and the creation of its thread, or between on_run_log and after_run. Whatever happens in between, the order of all callbacks, the order in which jobs begin and end, and what happens to any one task are those of an execution in which nothing happens in between; with thread_count 0 it is the same history. In particular at each of these moments no two executing jobs share a resource, no more than thread_count jobs execute, a job has begun only after the records of everything it is ordered after, and there is no data race. And under every fair schedule of threads and single calls the execution comes to its end, if it has no cycle.", "quantifier": "all graphs, resources, job outcomes, thread counts and interleavings of threads with the single calls of the control thread", "why_tests_cant": "The interleavings of threads with callbacks that take no time of their own cannot be provoked by a test; it is about all of them.", "anchors": ["src/exec.cpp:run", "src/exec.cpp:cleanup_coros", "include/joque/exec_visitor.hpp:exec_visitor"]}
{"id": "C96", "title": "Text that is not English stays readable", "statement": "Names, arguments and output in UTF-8 come out as UTF-8. A filter selects exactly the tasks whose name contains it character by character, though bytes are compared. Full names built from UTF-8 names are UTF-8, and so are the shown commands, the output shown under a task (also if a character arrived in two chunks), the line shown for a task, the JSON export (which otherwise cannot be printed at all) and the JUnit document, which declares itself to be UTF-8.", "quantifier": "all names, filters, arguments, outputs, ways of cutting the output into chunks, and records", "why_tests_cant": "Where output is cut into chunks depends on timing and buffer sizes, and that a byte-wise search finds no character in the middle of another is about all pairs of texts.", "anchors": ["src/dag.cpp:insert_set", "src/format.cpp:fmt_text", "src/format.cpp:format_nested", "src/json.cpp:to_json", "src/junit.cpp:generate_junit_xml", "src/process.cpp:format_cmd", "src/process.cpp:run", "include/joque/task.hpp:for_each_task"]}
{"id": "C97", "title": "A task inserted through several calls is one task", "statement": "insert_set may be called several times for one dag, for several task sets or for one set with several filters (there is no other way to select by two filters). A task that is selected by more than one of the calls is still one node, so that its job is executed at most once and never by two threads at a time, and depends_on and run_after order tasks no matter which call inserted them.", "quantifier": "all task sets, filters, sequences of calls, hash-map orders, schedules and thread counts", "why_tests_cant": "It is about all sequences of calls and all ways selections overlap; that a job is executed by two threads at a time needs a particular schedule.", "anchors": ["src/dag.cpp:insert_set", "src/dag.cpp:dfs", "include/joque/dag.hpp:dag_node", "src/exec.cpp:run"]}
{"id": "C98", "title": "Assembling a task set from parts keeps its relations", "statement": "Tasks and task sets can be moved but not copied. A task set built by a function can be moved into a larger one (`whole.sets[\"lib\"] = make_lib()`): its tasks are then called `//lib/...`, its dag is part of the dag of the whole with the same edges, its tasks get the results they get when the part is executed alone, and the rest of the whole is as before. A task can be moved into a set as well (`ts.tasks[\"a\"] = std::move(a)`): whoever refers to the task still does.", "quantifier": "all task sets, names, relations, places of the moved part, moments of the move", "why_tests_cant": "It is about the addresses of objects for all set trees and all ways to refer into them; a relation to a moved task is lost without any sign in most programs.", "anchors": ["include/joque/task.hpp:task", "include/joque/task.hpp:task_set", "include/joque/job.hpp:job_ptr", "src/dag.cpp:insert_set"]}
{"id": "C99", "title": "Durations are right when the system clock is adjusted", "statement": "The duration of a task (end minus start of its record, shown in the end line and in the reports) and the total run time are what really passed, even if the system clock is adjusted while the execution is running.", "quantifier": "all executions, all adjustments of the clock at all moments", "why_tests_cant": "A test cannot set the system clock at every moment of an execution.", "anchors": ["include/joque/records.hpp:run_record", "src/exec.cpp:run", "src/records.cpp:runtime_sum", "src/format.cpp:format_run_end", "src/junit.cpp:generate_junit_xml"]}
{"id": "C100", "title": "Each kind of edge of a hand-made dag has its documented meaning", "statement": "In a dag given to exec directly, with whatever edges the user has added: A after B means that A is executed after B has finished; A invalidated_by B means that A is not skipped if B is executed; A requires B means that A is not executed, and is recorded as DEPF, if B failed.", "quantifier": "all dags, all edges, all thread counts, all schedules", "why_tests_cant": "The tests build dags from task sets only, where REQUIRES never comes without AFTER; whether an edge alone is enough depends on the node addresses and the schedule.", "anchors": ["include/joque/dag.hpp:ekind", "include/joque/dag.hpp:add_edge", "src/exec.cpp:any_dep_failed", "src/exec.cpp:find_candidate", "src/exec.cpp:propagate_invalidation", "src/exec.cpp:run"]}
{"id": "C101", "title": "Running out of memory inside the engine", "statement": "The engine allocates in many places of an execution (sets, vectors, strings, coroutine frames, the shared state of std::async). Wherever such an allocation fails, the execution is left by that exception: the rest of that portion does not happen, nothing that was reported before is untrue, no further callback is made, nothing new is launched, no record is returned; the tick() under way waits for the jobs already launched, ends, and result() throws the exception, with no job running. All other safety properties keep holding. Without such a failure no execution ends that way.", "quantifier": "every dag, thread count, interleaving, every allocation of the engine and every moment it may fail at", "why_tests_cant": "Allocation failures are practically never provoked, and there are hundreds of points in one execution at which one may happen, each combined with every state of the worker threads.", "anchors": ["src/exec.cpp:exec", "src/exec.cpp:run", "src/exec.cpp:cleanup_coros", "src/exec.cpp:propagate_invalidation", "src/run_coro.hpp:run_coro::result", "src/exec_coro.cpp:exec_coro::result"]}
{"id": "C102", "title": "Running out of memory while a task set is inserted", "statement": "insert_set(dag, ts, filter) is all or nothing: if it throws std::bad_alloc, the dag is as it was before the call. In any case the content of the dag before the call is untouched, the linked objects still are a well-formed graph, and destroying it (as exec(task_set, ...) does while the exception passes) frees every node and edge that was allocated exactly once.", "quantifier": "every dag, task set, filter, hash-map order, and every allocation of insert_set that may fail", "why_tests_cant": "Allocation failures are practically never provoked; a call makes one allocation per name, node, map entry and edge, and each is a point at which it may stop.", "anchors": ["src/dag.cpp:insert_set", "src/dag.cpp:dfs", "include/joque/dag.hpp:add_edge", "include/joque/bits/list.hpp:list_emplace_next", "include/joque/bits/dag.hpp:graph::emplace"]}
{"id": "C103", "title": "More threads than can be used make no difference", "statement": "Let w be the size of the largest set of tasks of the dag of which none is ordered before another and no two share a resource. Then all thread counts of at least max(w, 1) behave identically: under the same behaviour of the threads the same callbacks are made at the same points with the same arguments, also if something fails. In particular thread_count = number of tasks is as good as any larger number. Below w (for tasks that are to be executed) thread counts do differ: there is an execution that has all w tasks running, which a smaller count never allows.", "quantifier": "every dag, resources, job behaviour, thread counts, interleaving and failure", "why_tests_cant": "The claim compares all executions for two unbounded parameters; a test compares one execution for two numbers.", "anchors": ["src/exec.cpp:exec", "src/exec.cpp:find_candidate"]}
{"id": "C104", "title": "The order of a sequential execution is reproducible", "statement": "Executing a task set with thread_count = 0 runs and reports the tasks in an order that depends only on the task set and the filter: running the program again gives the same order.", "quantifier": "every task set, filter, placement of the nodes in memory and iteration order of the hash maps", "why_tests_cant": "A test runs with the placement its allocator happens to choose; the order is the same in each run of a test program until address randomisation, another allocator or an unrelated allocation changes it.", "anchors": ["src/dag.cpp:insert_set", "src/exec.cpp:exec", "src/exec.cpp:find_candidate"]}
{"id": "C105", "title": "Executions on different threads of a program", "statement": "Threads of a program may execute task sets at the same time, each with a call of exec and no locking, if the task sets have no task in common: each behaves as if it were alone and there is no data race.", "quantifier": "any number of threads and executions, all dags, task sets and filters, thread counts, job behaviours, all interleavings of ticks and workers of all executions, failures", "why_tests_cant": "A data race is a property of all interleavings of two unsynchronised threads; a test sees one, and the set modified by both is rarely damaged.", "anchors": ["include/joque/exec.hpp:41-53", "include/joque/print_exec_visitor.hpp:51-52 (PRINT_VISITOR)", "src/print_exec_visitor.cpp:before_run, after_run, after_execution", "src/exec.cpp:295-343"]}
{"id": "C106", "title": "What the JUnit report says about each task", "statement": "Execute a task set and write a JUnit report. A reader of the file finds one testcase per selected task, under the full name of the task, which no other testcase has. The testcase is marked as failed exactly if the task was not carried out: its job failed, or it was not run because a dependency failed.", "quantifier": "every task set, filter, job behaviour, thread count and schedule; names of characters that stand for themselves in XML", "why_tests_cant": "Spans naming, selection, scheduling, status and formatting for all task sets; a test of the report uses a record written by hand.", "anchors": ["src/junit.cpp:60-95 (generate_junit_xml)", "src/exec.cpp:113-123 (run, DEPF)", "src/dag.cpp:58-84 (insert_set)", "include/joque/junit.hpp"]}
{"id": "C107", "title": "Changing tasks while they are executed", "statement": "A program may change the tasks of an execution between two calls of tick(). Changes of relations and of `hidden` have no effect on the execution. After a change of resources, tasks that list a common resource at that time still do not run at the same time, no assertion fails, every task gets its result (the same as without changes), and the execution completes.", "quantifier": "all dags, any number of changes at any moments, all thread counts and schedules; for completion all fair infinite schedules", "why_tests_cant": "It quantifies over all sequences of changes interleaved with all schedules; whether a change does harm depends on which task was chosen internally and not started yet.", "anchors": ["src/exec.cpp:80-81 (find_candidate)", "src/exec.cpp:131-132, 165-166 (run)", "include/joque/task.hpp:45-47", "include/joque/dag.hpp:71-80"]}
{"id": "C108", "title": "The times in the reports", "statement": "The `start` and `end` of the JSON export and the `timestamp` of the JUnit report are texts of fixed length that give date (Gregorian calendar, UTC) and time of day to the nanosecond. Different time points give different texts, and comparing texts compares time points; so in the JSON of an execution `start` never sorts after `end`, nor the `end` of a dependency after the `start` of its dependent. The lines of the printing visitor begin with the time of day in six digits.", "quantifier": "all time points std::chrono::system_clock can represent (64 bits of nanoseconds), all executions and monotone clocks", "why_tests_cant": "A test can only look at a few dates; the order of texts must hold over all pairs of time points, including leap years, centuries and days before 1970.", "anchors": ["src/json.cpp:13-24", "src/junit.cpp:77-79", "src/format.cpp:38-42, 156-157, 193-200", "include/joque/records.hpp:28, 45-50"]}
{"id": "C109", "title": "What the JSON export says about an execution", "statement": "A program that reads the JSON export of a finished execution finds the selected tasks, each once, under their full names and with the status, return code and output they have to have, whatever the schedule; the four counters count them by status and `total_count` is their number. An export made by a visitor while the execution goes on has the tasks finished so far; later exports only add to the list.", "quantifier": "all task sets, filters, dags, schedules and thread counts, all moments a visitor is called", "why_tests_cant": "It relates what is read from the export to the declared tasks over all graphs, schedules and moments.", "anchors": ["src/json.cpp:6-31", "include/joque/records.hpp:18-24, 33-92", "include/joque/run_result.hpp:15-40"]}
{"id": "C110", "title": "A build leaves what a clean build would leave", "statement": "The tasks of a program are processes that make the contents of their output files from the contents of their declared input files. After any number of executions (of all tasks or parts of them, successful or not, interrupted or not), edits of sources and removals of outputs, an execution in which nothing fails leaves in every output of every task executed or skipped what the process makes of its present inputs; so the contents are those of an execution in a fresh checkout of the present sources, and do not depend on history, number of threads or schedule.", "quantifier": "all sets of processes, all functions from inputs to outputs, all histories of executions, interruptions, edits and removals, all dags, thread counts and schedules of each execution", "why_tests_cant": "It is about all histories of a directory: an invariant over an unbounded number of executions and edits; a test tries one history.", "anchors": ["src/process.cpp:61-115 (is_invalidated)", "src/process.cpp:117-176 (run)", "src/exec.cpp:101-170 (run)", "src/exec.cpp:194-230 (propagate_invalidation)"]}
{"id": "C111", "title": "Removing tasks from a dag leaves the others as they were", "statement": "A dag made by hand through emplace, add_edge and clear_if, in any order, holds exactly the tasks not removed with all edges between them, also after it was moved into an execution. Executing it: every remaining task gets exactly one record; a task none of whose requirements and invalidations was removed, directly or indirectly, has the same status, return code and output as without the removal; tasks ordered through remaining tasks stay ordered; a task is DEPF only because of a task that remains; a removal never makes a cycle, and if the whole dag could be executed so can what remains. (An order that only goes through a removed task is lost.)", "quantifier": "all sequences of emplace, add_edge and clear_if, all predicates, job outcomes, resources, thread counts and schedules of both executions", "why_tests_cant": "It compares all pairs of executions of all dags with all removals, and relates linked objects being freed to what the engine does; a test sees one graph.", "anchors": ["include/joque/bits/dag.hpp:clear_if", "include/joque/bits/list.hpp:clear_if", "include/joque/dag.hpp:dag", "src/exec.cpp:exec"]}
{"id": "C112", "title": "Output that cannot be written does not disturb the execution", "statement": "The default visitor writes to std::cout, which may stop accepting characters at any time (closed pipe, full device). By default the execution does not notice: the same jobs run, with the same records and the same result, and what was written is what would have been written, up to the first character that was refused, and nothing after it. If the program asked std::cout for exceptions, the execution is unchanged as long as everything can be written; at the first failure it is left like any execution whose visitor throws: no further callback, running jobs are waited for, result() throws.", "quantifier": "all devices (every set of characters refused), graphs, job outcomes, thread counts, schedules, texts, verbose or not", "why_tests_cant": "A test would have to break its own standard output at every single character of every run.", "anchors": ["src/print_exec_visitor.cpp:28-123", "src/format.cpp:112-188", "src/exec.cpp:exec"]}
{"id": "C113", "title": "An execution is a run of a small scheduler", "statement": "What one sees of the tasks of an execution (jobs beginning, jobs ending, run records with status, code and output) is at every moment a run of an abstract machine with five rules: a job begins if nothing has happened to its task, all tasks it is ordered after have their record, nothing it requires is FAIL or DEPF, it is out of date, no running job uses one of its resources and fewer jobs run than max(1, thread_count); a running job ends; a task whose job ended gets OK or FAIL with the code and the output of the job; an up-to-date task whose turn it is gets SKIP if nothing it requires is bad; a task whose turn it is gets DEPF if something it requires is. This holds also when threads run between the single calls of the control thread, and, for exec(task_set, ...), with what the selected tasks declare (depends_on, run_after, invalidated_by, resources, jobs) in place of the graph. The machine is safe (running jobs share no resource, are at most max(1, thread_count) many, and everything they transitively come after is settled) and determines the results: all its runs agree on every status, it never gets stuck on an acyclic graph before every task is settled, its runs have at most three actions per task, and every successful execution ends with exactly the statuses of any complete run of the machine.", "quantifier": "all graphs in which what is required is also ordered before (which insert_set guarantees), job outcomes, answers of the jobs to is_invalidated, resource assignments, thread counts, schedules, faults; all runs of the machine", "why_tests_cant": "Refinement quantifies over every moment of every schedule and over every run of the abstract machine; a test sees one schedule and one order of events.", "anchors": ["src/exec.cpp:exec, find_candidate, run, cleanup_coros, any_dep_failed", "include/joque/exec.hpp:exec"]}
{"id": "C114", "title": "How long tasks must exist", "statement": "An execution and its records refer to task objects the program owns. A selected task must exist until its after_run callback, and no longer: after that nothing about it is read, so it may be changed or destroyed and the execution goes on as before. A task that was not selected is not read after exec() has returned. An execution comes to its end if and only if it does so anyway and each task exists when its record is made; if a task is gone before the first tick(), that call is undefined behaviour. After the execution has failed or was abandoned, exactly the tasks whose jobs a thread has yet to end are needed. The record can be used when all tasks are gone: summary line, JUnit report and JSON export do not depend on the references in it.", "quantifier": "all graphs, task sets, thread counts, schedules, faults, moments at which tasks are destroyed", "why_tests_cant": "Reading a destroyed object is undefined behaviour, which a test need not notice; and the last read of a task depends on the schedule.", "anchors": ["src/exec.cpp:exec, find_candidate, run, cleanup_coros, propagate_invalidation", "src/print_exec_visitor.cpp:after_node_enque, before_run, after_run", "include/joque/records.hpp:run_record::t", "include/joque/dag.hpp:node_content::t", "include/joque/exec.hpp:exec (lifetime remarks)", "src/json.cpp:to_json", "src/junit.cpp:generate_junit_xml"]}
{"id": "C115", "title": "What can happen without threads can happen with any number of threads", "statement": "If the threads are fast enough, that is, if every job given to a thread has ended before the control thread goes on, then an execution with any thread_count other than 0 does the same as one with thread_count = 0: the same callbacks in the same order, the same jobs between the same callbacks, the same records and result, and the same number of ticks, apart from times and from the thread a job runs on. Nothing prevents threads from being that fast, so whatever an execution without threads does is possible with threads. In particular the orders in which the tasks of a selection can be reported are the same for every thread_count: exactly the arrangements that respect the declared orderings.", "quantifier": "all graphs, thread counts, schedules in which threads are fast enough; for the orders: all task sets, filters, schedules, addresses", "why_tests_cant": "A test sees the schedules that happen to occur; it cannot show that another one is possible, nor that two thread counts agree on all of them.", "anchors": ["src/exec.cpp:exec, run, cleanup_coros, find_candidate", "include/joque/exec.hpp:exec (thread_count)", "src/exec_coro.cpp:exec_coro::tick"]}
{"id": "C116", "title": "A job that never ends holds up only what must wait for it", "statement": "Suppose some jobs may hang, that is, never return. If fewer of them than there are threads can be executing at the same time, and the program keeps ticking, then every task still gets its record that is not one of them, needs no resource of one of them, and does not come after such a task. What comes after a job that hangs is never started and gets no record, no job that needs one of its resources begins, and the execution is never over: it does not finish, and neither an exception nor its destruction gets past the hanging job. While jobs hang on all threads no further job begins.", "quantifier": "all graphs, thread counts, sets of hanging jobs, schedules in which the other jobs end", "why_tests_cant": "That something never happens, or happens eventually under every schedule, is a statement about infinite executions; a test stops after a timeout.", "anchors": ["src/exec.cpp:exec, run, cleanup_coros, find_candidate", "include/joque/exec.hpp:exec", "include/joque/exec_coro.hpp:~exec_coro", "src/exec_coro.cpp:exec_coro::tick, ~exec_coro"]}
{"id": "C117", "title": "What declaring more changes", "statement": "Take a program and one that declares dependencies and invalidations in addition, or selects more tasks. A task that was executed in the first is executed in the second with the same status, return code and output, unless a dependency of it fails there; a task a dependency of which failed is still not executed; nothing that was executed becomes skipped; only skipped tasks can become anything. If no job fails, every task that was ok is ok with the same result. Declaring the same dependencies and invalidations repeatedly or in another order, and declaring run_after and resources differently, changes neither what is executed nor any result. If the same tasks are selected, every order in which the second program may report them is possible in the first if and only if each ordering declared in the first follows from those declared in the second; so orderings that follow from others change nothing, and all others exclude some order.", "quantifier": "all pairs of programs related in this way, task sets, filters, thread counts, schedules, addresses, hash orders", "why_tests_cant": "A test compares two given programs under the schedules that happen; this compares any two programs under all of them.", "anchors": ["src/dag.cpp:insert_set", "src/exec.cpp:exec, run, find_candidate", "include/joque/task.hpp:task, depends_on, run_after, invalidated_by"]}
{"id": "C118", "title": "What a visitor sees in the marks of the nodes", "statement": "At every call of a visitor the marks of all nodes say what has happened so far: invalidated is what the last report about the node said, and UNKNOWN if there was none; started is set exactly if the job has been handed to a thread or has begun; done exactly if the node has its record, the one handed out by this call included; failed exactly if that record says FAIL or DEPF. From the first on_tick on, invalidated is INVALID exactly for the nodes that are out of date and VALID for all others. At before_run the node is neither started, done nor failed, and all it is ordered after, directly or not, is done; the marks tell its result: it will be DEPF exactly if a node it requires is marked failed, SKIP exactly if not and it is marked VALID. At on_run_log it is started and not done. At after_run the node of the record is done, failed exactly if the record says FAIL or DEPF, and started exactly if its job ran.", "quantifier": "all well-formed dags, jobs, thread counts, schedules of the threads, exceptions and failing allocations; every callback", "why_tests_cant": "The marks of all nodes would have to be compared with the whole history at every call, under every interleaving of the threads.", "anchors": ["src/exec.cpp:run, cleanup_coros, propagate_invalidation, exec", "include/joque/dag.hpp:node", "include/joque/exec_visitor.hpp:exec_visitor"]}
{"id": "C119", "title": "In which ways jobs can interleave", "statement": "Take down when jobs are entered and left. In every execution this is a sequence in which each job that runs is entered once, left once after that, and entered only after every job that it must come after, directly or through other tasks, has been left. Where neither the number of threads nor a resource ever makes a task wait (tasks none of which must come after another are not more than the threads and share no resource), every such sequence happens under some schedule, wherever the nodes are placed; if in addition all jobs that run are left, it happens in an execution that comes to its end. So nothing but the declared orderings may be relied upon. The condition is needed: with one thread, tasks that are not ordered are still executed by address. With fewer threads, tasks that have nothing to do with each other (no ordering, no requirement, no common resource) can be entered and left in exactly those ways in which a job is entered only when fewer than thread_count of the jobs of nodes at lower addresses have not been left. Since nodes may be placed anywhere, what can be relied upon for such tasks is only that never more than thread_count jobs have been entered and not left: every sequence with this property happens, for some placement and schedule, in an execution that comes to its end.", "quantifier": "all healthy dags in which REQUIRES comes with AFTER (as insert_set makes them) and, said of tasks, all task sets with acyclic orderings; job results, freshness answers, schedules; all sequences", "why_tests_cant": "A test sees the interleavings that the machine happens to choose; the claim is about exactly which of all sequences can happen.", "anchors": ["src/exec.cpp:run, cleanup_coros, find_candidate, exec"]}
{"id": "C120", "title": "An execution is determined by the ticks in which its jobs are found finished", "statement": "Number the calls of tick(). If two executions of the same dag with the same thread count finish, and every job that is executed is found finished (after_run is called for its task) in the same tick in both, then both do the same: the same callbacks with the same arguments apart from times, the same threads created and the same number of ticks, all in the same order; and they return the same record apart from times. Within a tick it does not matter in which order, or when exactly, jobs began and ended. So nothing else about the machine (the scheduling of threads, the clock) influences what the engine does, and an execution can be replayed from one number per job. Put differently, say that a job lasts d ticks if it is found finished d ticks after its thread was created (0 if in the same tick): two finished executions in which every job lasts equally long do the same; every finished execution gives such a number to each job; and if nothing fails every assignment of numbers to jobs occurs in some finished execution.", "quantifier": "all dags, job behaviours and results, freshness answers, thread counts; all pairs of schedules that finish, also when threads run between the single calls of the control thread", "why_tests_cant": "A test cannot choose when threads run; the claim compares all pairs of schedules and says that nothing else than these ticks matters.", "anchors": ["src/exec.cpp:run, cleanup_coros, find_candidate, exec"]}
{"id": "C121", "title": "Several threads are never slower than one, and what one thread takes", "statement": "Say that a job lasts d ticks if it is found finished d ticks after its thread was created. An execution of N > 0 tasks with thread_count 1 takes exactly N + 2 ticks and the sum of what its jobs last, so shorter jobs never make it longer. With any larger thread_count it takes at most so many ticks; hence, if no job lasts longer, an execution with several threads never takes more ticks than one with a single thread, whatever the orderings and the resources. (With several threads shorter jobs can make an execution longer, see C94, but never beyond this.)", "quantifier": "all dags, resources, job behaviours, freshness answers and thread counts; all schedules that finish, also when threads run between the single calls of the control thread; for the comparison requirements imply orderings, as in every dag made by insert_set", "why_tests_cant": "An idle tick now and then changes no result, and a test sees a few durations only; the bound is exact for all durations and schedules.", "anchors": ["src/exec.cpp:cleanup_coros, exec"]}
{"id": "C122", "title": "How long run() takes, in time", "statement": "Let run(period) execute N tasks, J of which execute their jobs; a job's time counts from the creation of its thread to its end; no tick, with the delay of its wake-up, takes longer than e, which is at most the period. With any thread_count >= 1 run returns no later than the time of all jobs together, N + J + 1 periods and (J + 1) e after the call. With thread_count 1 it returns no earlier than the time of all jobs together and N + 1 periods, less J e. With k threads it takes at most W/k + (1 - 1/k) L, with W the time of all jobs and L that of a chain of tasks each of which may have to wait for the next, and for each task three periods and e (two periods and e more at the end); without shared resources therefore at most twice the shortest time in which k threads can execute these jobs, apart from these periods. Without threads, at most N + 1 periods and the time the ticks take. The first two bounds are attained. Whatever ticks and delays take, even if the schedule is never met: with threads run returns no later than the time of all jobs together, 2 N + 1 periods and the time all ticks with the delays of their wake-ups take.", "quantifier": "all dags, resources, job behaviours, freshness answers, job times, periods, tick lengths and delays, thread counts and schedules that finish", "why_tests_cant": "The bounds are about every combination of job times and schedules; a test measures a few runs of a few tasks, in which a wasted period is lost in the noise.", "anchors": ["src/exec_coro.cpp:exec_coro::run", "src/exec.cpp:cleanup_coros, exec"]}
{"id": "C123", "title": "What an execution leaves does not depend on the schedule", "statement": "Let jobs be determined by the contents of the places (files, variables) they may read or write, and let any two tasks, one of which may write what the other one may read or write, be ordered by depends_on or run_after, directly or through other tasks. Then all finished executions from the same contents, with any thread counts and schedules, leave the same contents everywhere, execute the same jobs, and give each task the same status, return code and output; namely what executing these jobs one after the other gives, in any order the dag allows. Dags of processes as in C60 are such dags. Sharing a resource instead of being ordered is not enough: the tasks do not overlap, but which one comes last depends on the thread count.", "quantifier": "all dags, resources, jobs, initial contents, thread counts and pairs of schedules that finish", "why_tests_cant": "A test compares a few runs; a result that depends on the schedule may show up only in an interleaving no run has hit.", "anchors": ["src/exec.cpp:find_candidate, exec_coro, run", "src/dag.cpp:insert_set"]}
{"id": "C124", "title": "Executing only what is out of date gives what executing everything gives", "statement": "Let commands make their outputs from their inputs only, let no two tasks write the same file, and let a task whose input is the output of another one be ordered after it and invalidated by it (as joque's depends_on does). If the tasks that are not out of date had outputs that fit their inputs when the execution began, then afterwards the outputs of all tasks fit their inputs, except for tasks with a failed dependency. So two executions without failures from the same sources, one of which executes everything and the other only a few tasks, leave the same contents in all files. For processes this goes on forever: after any number of rounds, each replacing sources by files not older than any output and then executing the dag with any thread count and schedule, all files have the contents a single execution from the last sources gives, if nothing fails. A source replaced by a file that keeps an older date breaks this: everything is skipped and the outputs are those of the old source. So does run_after in place of depends_on between the task that makes a file and the one that reads it: the reader is skipped although its input changes, and is executed only the next time.", "quantifier": "all dags of processes, commands, sequences of changes of sources, thread counts and schedules", "why_tests_cant": "A test builds twice after a particular change; whether some sequence of changes and schedules leaves an output made from old inputs is a question about all of them.", "anchors": ["src/process.cpp:is_invalidated, run", "src/exec.cpp:propagate_invalidation, exec_coro"]}
