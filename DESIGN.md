# Formal model of koniarik/joque in Lean 4

Layout (all under `/verif/lean/Verif/`):

* `Model/*`  – executable definitions, one per C++ function, each citing file and lines in /repo.
* `Spec/*`   – small, independent vocabulary used by the property statements (no model helpers).
* `Proof/*`  – helper lemmas and invariants.
* `Props/*`  – the property theorems (names `C01_…`, …) and, beside each, a concrete `example`
  that meets its hypotheses. A property that is false of the code has a theorem
  `Cnn_…counterexample` and a theorem `Cnn_partial` for the part that holds.

`properties.jsonl` states the properties in English, `MANIFEST.json` (generated by
`tools/gen_manifest.py` from theorem names and `tools/notes.json`) maps them to theorems,
`AXIOMS.md` (generated by `tools/gen_axioms.py`) lists the axioms of each theorem,
`seeded/LOG.jsonl` records the wrong programs the theorems were tested against.

## Per property: what is modelled and how it is proved

| id | modelled by | how proved |
|----|-------------|-----------|
| C01 | `Model/Exec`: small-step transition system; moves = portion of the control thread, worker begin, worker end, failure of `std::async`, throwing callback, failing allocation, destruction | invariant over all move sequences, with a trace invariant that says what must precede each event |
| C02 | same | partition invariant: every node is in to_process, or in exactly one coroutine slot, or in exactly one record |
| C03 | same | invariant: `used_resources` = disjoint union of resources of started, unfinished nodes |
| C04 | same | invariant: number of slots ≤ thread_count |
| C05, C06 | same | record invariant; C05_root by following the recorded reason of each DEPF back to a FAIL |
| C07 | same | local characterisation of statuses + well-founded induction on the acyclic AFTER relation |
| C08 | `Model/Inval` | worklist invariant; result = reachability |
| C09, C10 | `Model/Cycle` (DFS with fuel, fuel shown sufficient) | finished-set invariant; stack is a path |
| C11 | `Model/Exec` | ranking measure; fair-schedule theorem; explicit tick bound for thread_count 0 |
| C12 | failing asserts are an outcome `abort` of the model | invariant: unreachable |
| C13 | `Model/Exec` | invariant |
| C14 | `Model/Candidate` | DFS soundness and completeness |
| C15 | trace of visitor events | trace invariant |
| C16 | slots carry the non-rebindable `node_` reference separately from the handle | false: counterexample; proved for thread_count ≤ 1; `Outlives` (Spec/Outlive): the exact condition, invariant over begin positions |
| C17 | `Model/Job`: traits + try/catch of the async lambda; indeterminate retcode explicit | false for default traits + std::exception (uninitialised retcode); proved for every other job |
| C18, C19 | exceptions/destroy as transitions to a joining phase | invariant; `Props/Deliver`: delivered/returned exactly when every launched job has ended |
| C20, C21 | `Model/Coro`: several handles and frames, environment chooses what the body does | invariants over all operation sequences; C21 is false (resume at final suspend) |
| C22, C23, C27, C52 | `Model/InsertSet`: `insert_set` with arbitrary hash order, addresses and rehash moments | induction on the traversal; C27 false: UB outcome reached |
| C24–C26 | `Model/Task` | structural induction on the tree; C26 composes with C23 and C01 |
| C28, C29 | `Model/IList`: heap of next/prev pointers, UB = `none` | representation predicate; `back()` is always UB |
| C30 | `Model/ListPtr`: `BitVec 64` | bit-level lemmas for all addresses |
| C31–C33, C53 | `Model/GraphHeap`: three list spaces + free log | refinement to a reference graph; C33 false for assignment to a non-empty graph |
| C34–C38, C54–C56 | `Model/Process`: file system = path → time/content; OS calls = oracle values | direct proofs; C35, C55, C56 false: counterexamples |
| C39, C40, C50, C57 | `Model/Format` | induction on strings; C57 false for the summary line |
| C41 | `Model/Format` (runtime_sum) | order lemmas; UB on empty record |
| C42, C43, C58 | `Model/JUnit`, read back by the independent XML reader of `Spec/Xml` | counting; parse theorem; C43 (escaping), C58 (unit in a number) false |
| C44 | `Model/Json` | explicit decoder, round trip |
| C45, C46 | `Model/PrintVisitor` | state machine over visitor events, composed with engine traces; C46 false |
| C47 | `Model/FormatDag` | direct, with an independent line reader; false as stated (all edge kinds are listed) |
| C48 | enums | exhaustive case analysis (finite) |
| C49 | `Model/Exec` with logical time stamps | invariant |
| C51 | null job = UB outcome | counterexample; exact characterisation, also of which of undefined behaviour and an earlier exception happens (`C51_exact`) |
| C59 | `Model/RunCoro`: `erase_if` over a vector of handles with move assignment as written | refinement to the slots of `Model/Exec`; ownership invariant |
| C60–C62 | `Spec/BuildRun`: what the processes of an execution do to the file system along its history | composes C01, C05, C06, C08, C34, C36, C37; run_after is not enough (counterexample); C62 false without retcode file |
| C63 | `Spec/HB`: happens-before over the history (program order, thread creation, future) | origin of each launch event; composes C01, C03 |
| C64 | move `visThrow k` (a `fault`): the k-th event of a portion is a callback that throws | all invariants are proved with this move; C18 lemmas |
| C65 | ticks are the pieces of the trace between `resumed` events; a tick still running is exempt | invariant over the current tick |
| C66 | `Explained`: reflexive-transitive chain of `depInval` events ending in `jobInval … invalid` | the worklist loop only holds explained nodes; each target is taken once |
| C67 | `Job.callable` versus `Job.custom` of `Model/Job` | C06 |
| C68 | `Spec/Terminal`: a terminal as a state machine over characters; `Displays s v`: writing `s` is the same as writing the text `v` | composition of lines from pieces; C41, engine guards |
| C69 | screens with and without the progress items; false when verbose; `C69_exact` says when a verbose screen is right | every line is at least as long as a start line; two screens fed in parallel |
| C70 | `Spec/Verdict`: equations over task objects, no graph and no scheduler | composes C02, C05–C11, C18, C20, C22, C23; uniqueness by the first record that disagrees |
| C71 | `Model/Look`: `is_invalidated` as a sequence of queries, the k-th seeing the k-th state | refinement to `Model/Process` when nothing changes; pre/post conditions per query |
| C72 | `WhyStale`: the possible reasons, when they hold, what is printed | case analysis |
| C73 | `AlwaysReturns`, `RecordOf`: every fair schedule of `exec(ts, tc, filter).run()` returns this record | instances of C70, C02, C08–C11, C13, C34 |
| C74 | `TextLines`: a text as the list of its lines (unique); `noJobLine`, `cycleLines` | C15, C10, C66; origin of each event |
| C75 | `AlwaysReturns`, `Placed`, names as text | instances of C19, C09, C70; `std::map` as ordered insertion (`mapSet_sorted`) |
| C76 | `Model/Session`: calls of the visitor with the set of nodes alive; reading another node is the outcome `none` | the queue holds only nodes started and not ended (`OpenAt`); C15, C16; `C76_exact` on the exact content of the queue (`StillShown`) |
| C77 | `Model/Preset`: the engine started with arbitrary marks | invariants `Waits`, `Doomed` over all moves; simulation for `invalidated` |
| C78 | the engine `exec` with `threadCount` 1 and 0 | simulation (`Twin`, `Flight`, `BothUb` in Proof/OneWorker): the sequential engine waits while the worker has the job, then does start and collection in one step |
| C79 | complete ticks of the trace (`Ticks P`, `PromptOK`) | invariant over the tick under way (`Cur`); the bound by induction on the ticks |
| C80 | `Model/Two`: two states of the execution, one control thread (a move of it requires that it is not inside the other), common history | each component is an `exec` of its own moves; induction over the common history |
| C81 | `Spec/Ink`: a terminal that keeps the colour of every character and the cursor state; `Draws s v` | composition of lines from pieces as in C68; every item of the visitor is plain |
| C82 | `Model/Crash`: the moments inside `run` of a process and the files found afterwards; `Spec/Crash`: a prefix of the history, arbitrary files of the running processes | as C60, by cases on how far each task and the producers of its inputs got; decimal prefixes for torn return codes |
| C83 | `Spec/Makespan`: lengths of jobs in ticks (`jobTicks`), `WaitsFor`; trace of the execution | invariant over two ticks (`TickInv2`): a tick without a report either finds all threads busy or nothing that can be started, or the next tick starts something; then Graham's argument: the ticks with a free thread are covered by a chain built backwards from the last of them |
| C84 | `Spec/Edit`: `BuildRun` with sources that change at any event; two executions | the outputs do not depend on the edits in time, so the execution without them is a `BuildRun` (C60); then compare the time of the last edit with the times of the outputs (C34) |
| C85 | `Spec/Race`: which memory each event reads and writes; data race = conflicting accesses unordered by `Spec/HB` | order of the events of a node (`tag_order`), all jobs are asked first (C15), C63 also through other tasks (C63_transitive) |
| C86 | `Model/JUnitFile`: files, paths that can be opened, room on the device | direct; a shorter text is not a document (invariant `Beyond` of the XML reader) |
| C87 | existing engine | progress (`remaining`, C11) with the jobs of the group held back; the earliest unfinished task they wait for can always be started; C87_needed: the condition on resources of earlier tasks cannot be dropped |
| C88 | existing models; `Finished`: records of some finished execution of a task set with a filter | equations of the verdicts (C70), induction over dependencies |
| C89 | as C88; `Repaired` relates two programs | as C88 |
| C90 | as C88; `Matters`: what a task declares, transitively | as C88; staleness along declared relations only |
| C91 | `Model/Cost`, `Model/BuildCost`: counters that follow the control flow of `Model/Cycle`, `Model/Candidate`, `Model/Inval`, `Model/InsertSet` | every ordering is followed once because its source is entered into `seen` once (`workLeft` as potential); recursion depth by a chain of orderings, which has no repetition without a cycle; exact values on chains by induction |
| C92 | `Model/Pace`: the loop of `run` with a steady clock, delays of `sleep_until` and tick durations given by the environment; engine for the number of ticks | recursion of waiting times (maximum over earlier ticks); invariant relating resumptions to tasks not yet taken, with equality while no thread has been made; `Paced` relates both |
| C93 | engine as C01; `Spec/Order`: post-order of a depth-first walk, without the state of the engine | the search skips what has begun and everything it runs after has begun too, so it walks like the post-order up to the first eligible task (simulation on `seen`); invariant carrying the moment of choice to the report one tick later; for one thread induction over the trace, nothing being in flight at a choice |
| C94 | as C83; `NoHarder` relates two executions | false: three concrete pairs of executions, evaluated by the kernel; the bound follows from both directions of C83 |
| C95 | `Model/Fine`: the calls of a portion one by one, threads in between | the history is the one of `Model/Exec` with independent neighbours exchanged (`Reordered`); C01, C03, C04, C85 are carried over |
| C96 | bytes as `Char`s below 256; `Spec/Utf8` encodes code points with `String.utf8EncodeChar`, `Spec/JsonText` what `dump` accepts | byte-wise and character-wise search agree; each text is UTF-8 exactly if its parts are; fails for cut names and cut chunks |
| C97 | `Spec/Inserted`: a sequence of calls of `insertSet` | induction over the calls with C22, C23, C52; overlap with C87, C85, C03 |
| C98 | `Model/Assemble`: moves of tasks and sets, assignment to map elements | membership in the sorted entry lists; C23, C51, C90 for dag, undefined behaviour and results |
| C99 | readings of `system_clock` as real time plus an offset | C41's characterisation of `runtime_sum` as a least upper bound |
| C100 | records made before the `before_run` of a task | invariant `MarkInv`: `start` of a record is the position of its `before_run`, DEPF iff a bad required record precedes it |
| C101 | histories and `result()` only | faults are moves of the transition system; `fault_cases` splits a portion with a fault into an ordinary one, one cut after an event, and one cut at its start |
| C102 | `Model/InsertFail`: the allocations of `insert_set` in order, each with what it adds to the dag | each loop takes the dag from its state before to its state after (`Takes`); prefixes; C31, C53 for the heap |
| C103 | none new | what is in flight plus a found candidate is a compatible set (`pick_compatible`), so the test of the limit never hides a candidate |
| C104 | none new (`BEnv.alloc` of `Model/InsertSet`) | `insert_set` commutes with moving nodes (`insertSet_rename`); the node with the lowest address comes before all it need not wait for (`lowest_first`); a search from a topological order finds this order (`startOrder_topo`); C93 |
| C105 | `Model/Threads` (any number of executions, control threads not excluding each other) | part of the history of an execution is a history of its own (`C105_alone`); C85 within one execution; nothing orders two of them |
| C106 | `Spec/Report`: a reader of the XML | C42 (the text is read back as the tree), C22 and C70 (which tasks, which verdicts), C05_root (a DEPF has a FAIL behind it) |
| C107 | `Model/Changes` (each move with its own lists of resources), `Spec/Changes` (`Respects`) | invariant of the engine for the present lists (`Inv.change`), general fairness theorem (`fair_run`), own invariant for the lost resource (`Leak`) |
| C108 | `Model/Time` (calendar, `%F`, `%T`), `Spec/Time` (`Leap`, `daysIn`, `Date.next`, `digitsOf`) | the date of each day is the successor of the date of the day before (`civil_next`), dates and digits increase, lexicographic order field by field |
| C109 | `Spec/JsonReport`: a reader of the tree (`readJson`) | members of C44, invariants of the trace (C13, C15), verdicts of C70 |
| C110 | `Spec/Clean`: `Recipe`, `Current`, histories of a directory (`Reached`) | invariant `Trusted` of all histories: a process that seems up to date is; inputs stay from the begin of a job (C01); minimal counterexample along the order of the dag |
| C111 | `Dag.clearIf`, programs `ROp` on the dag and on the heap; `RemainingWay`, `Uses` | refinement of the linked graph as in C53; `C07_local`: the argument of C07 for a part of the tasks closed under requirements and invalidations |
| C112 | `Model/Terminal`: stream with state, execution coupled with its visitor and stream | induction over moves; the failing callback is the fault of C64 |
| C113 | `Spec/Scheduler`: abstract machine, independent of the engine model | forward simulation over prefixes of the history (also of `Model/Fine`); invariant of the machine for determinacy and liveness |
| C114 | `Model/Lifetime`: which tasks a move reads, executions in which tasks cease to exist | `C114_reads`: a move depends only on the tasks it reads (non-interference); invariants give who is read when |
| C115 | the engine `exec` with any `threadCount` and with 0 | the simulation of C78 (`Even`, `Flight`) for schedules in which jobs end at once; `C104_every` for the orders |
| C116 | the engine `exec` with `threadCount` ≥ 1, schedules that never finish some jobs (`FairBut`) | a state from which every tick only walks over blocked nodes (`Idling`); in it every unstarted node is blocked by a hanging one |
| C117 | `insertSet` and `exec` of two stores | the equations of C70 for both (`Solved`), induction along dependencies; `C104_free` and `C115_orders` for the orders |
| C118 | `Model/Marks`: the marks at each event of a portion, beside `Model/Exec` | the history with marks is the history; invariant `MInv`: marks agree with the history (`Agree`) while the engine is active, portion by portion (`Marked`); C15, C100, C08 for the corollaries |
| C119 | `Spec/Interleave`: words of job entries and exits, independent of the engine | necessity from C01, C02, C15; sufficiency by induction on the word: between two letters the control thread is driven until it waits (`saturate`, on the measure of C11), then the next job is already with a thread (`idling_queued`, on C116); carried over to task sets along the task of each node (`C119_tasks`) and to the model with threads between single calls (`C119_fine`); independent tasks on few threads: nodes are taken by address and the handles are at most the threads (`queue_exec`), `C119_queue_exact`; over all placements of the nodes, `C119_queue_tasks`, by placing them in the order of entry with the renaming of C104; the same words in the model with threads between single calls, `C119_queue_fine` |
| C120 | `Spec/Replay`: what the control thread does without times; the tick in which a job is found finished | lockstep simulation of two executions (`Abreast`): the only decision that depends on threads is whether a job is finished when `cleanup_coros` comes to it; if the two differ there, one execution settles the task in this tick and the other not before the next (`HeldBack`); for durations (`Lasts`) the same lockstep (`Proof/Lockstep`) with weaker premises, and for their existence a scheduler that lets a job end exactly when its number of ticks has passed (`Metered`) |
| C121 | `Spec/Replay`: `Lasts`, the sum of the durations of the executed jobs in the returned record | with one thread an equation between the tick, the tasks not chosen yet and the durations of the jobs collected (`OneTick`; while a job is on the thread the equation is about the tick in which it was created); with several an inequality that counts the ticks the jobs under way have been on their threads (`ManyTick`): a tick that chooses no task passes while a job is on a thread |
| C122 | `Timed`: event times with the ticks where `Model/Pace` puts them; `Spans`: the time from the creation of a thread to the end of its job | the number of ticks a job lasts and its time determine each other up to a period, because a finished job is found by the next tick (C79); then C121 and C83 with the schedule of C92; an example attains both bounds; `C122_any` needs no schedule: what `run` sleeps before a tick is at most a period, and while a job is on its thread it sleeps no longer than the job takes (a sum over ticks weighted with the sleeps, with C79) |
| C123 | `Spec/Workspace`: places with contents along the history, which places a job may touch, jobs as functions of what they find | each place holds what the last job that may write it left; these jobs are totally ordered by the dag (C01, also through tasks that are not executed), so the last one is the same in any execution; induction along the dag, together with statuses (C05, C06, C08), because the outcome of a job depends on what it finds; a counterexample with a shared resource only |
| C124 | `Spec/Incremental`: outputs that fit inputs; `Spec/Rounds`: changes of sources and executions in turn | an executed task read its final inputs (C01) and nobody writes its outputs later; a task that was not executed has inputs nobody wrote, because otherwise it would have been out of date too (C08); a dag has only one way to fit given sources (induction along the dag); after a change as in C61 the answers of the processes are right, and after an execution as in C60 everything is up to date, so rounds compose; every schedule of commands that succeed gives such an execution (`C124_possible`); counterexamples with an old date and with `run_after` instead of `depends_on`; C110 is about files of processes with failures and interruptions in between, this one about any jobs and places |

## What is modelled

* `src/exec.cpp`, `src/run_coro.hpp`, `src/exec_coro.cpp`, `include/joque/exec_coro.hpp`: all of it.
* `src/dag.cpp`, `include/joque/dag.hpp`, `include/joque/bits/*`: all of it (const and non-const
  overloads are one definition) but `list_unlink` (list.hpp:200-212): nothing calls this template and
  it could not be instantiated, as it applies `*` to a `list_ptr`, which has no such operator.
* `src/task.cpp`, `include/joque/{task,job,traits,run_result,records,out}.hpp`: all of it.
* `src/process.cpp`, `include/joque/process.hpp`; `src/format.cpp`, `src/records.cpp`;
  `src/format_dag.cpp`; `src/junit.cpp`; `src/json.cpp`; `src/print_exec_visitor.cpp`.
* `example.cpp` and the example in `README.md` (C75); the scenarios of `test/` (C73).

Not modelled: the build system; allocation failures (`std::bad_alloc`) other than those of the engine
(faults of its portions, C101), of jobs (they throw, C17) and of `insert_set` (C102); locale; what is buffered between `std::cout` and the device (C112).
The model is sequentially consistent.  That is justified by C85: programs without data races (and
without relaxed atomics, which joque does not use) behave so.  What `Spec/Race` lists as accesses of
an event was read off the code and is trusted.

## Simplifications and assumptions

* Time is logical: each portion of the control thread and each worker move advances a counter.
  The real clock is assumed not to go backwards (C99 drops this).
* Portions of the control thread between two suspension points are atomic in `Model/Exec`, also where
  a portion makes two calls (`before_run`, `std::async`; `on_run_log`, `after_run`). `Model/Fine` lets
  workers begin and finish between the single calls; C95 relates the two.
* Any visitor callback may throw and any allocation fail (move `fault`); a visitor does nothing else to the engine (it
  gets const references). Callbacks of the visitor are not checked for other effects.
* Assertions are enabled; a failing assertion is the outcome `abort` (shown unreachable, C12).
* `std::set<T*>` is ordered by address, addresses are arbitrary distinct naturals.
* `std::erase_if` on a vector works like libstdc++/libc++ (`remove_if` then `erase`).
* Characters are one column wide (ASCII); `log10`/`floor` on counts are exact (true below 10^15).
* Outside C71, file system queries do not fail and nothing changes the file system while one
  `is_invalidated` or one `run` looks at it; the child process of `run` is arbitrary.
* `nlohmann::json` is a tree with named members; its printer and parser are inverse to each other. `dump()`
  throws iff a string in the tree is not well-formed UTF-8 (`Json.Printable`, C96).
* `std::format` of a time point gives the date of the Gregorian calendar and the time of day as the C++ standard
  says (`Model/Time`, C108), of `seconds` it prints the unit (C58). Time points have 64 bits of nanoseconds.
* C60, C61: the file clock tells events apart. Each theorem lists its hypotheses.

## Findings: where the code disagrees with the property a user would expect

Each one has a counterexample theorem (`Cnn_counterexample` unless named).

* C16: `run_coro::operator=` swaps handles but not `node_`; `after_run` names a wrong node, exactly
  when an older task was reported in an earlier resumption while this one was in flight (`C16_exact`).
* C17: default traits: callable throwing `std::exception` gives an uninitialised return code.
* C21: `tick()` after completion resumes a coroutine at its final suspension point.
* C27: inserting into `tmp` while iterating over it (`insert_set`, dependency outside the set).
* C29: `list::back()` dereferences a null iterator.
* C33: move assignment into a graph with nodes leaks them.
* C35: missing output not noticed; answer inverted without inputs.
* C41, C42: `runtime_sum` and the JUnit report dereference `end()` for an empty record.
* C43: attribute values are not escaped. C58: suite time is not a number.
* C46: progress line can name a finished task. C47: `format_dag` lists all edge kinds.
* C51: a task without a job is dereferenced.
* C55: backslashes are not escaped in the command line shown.
* C56: a process that could not be started keeps its old retcode file, C62 likewise.
  On a full device the new retcode file is left empty, which reads as success (`C56_counterexample_full`).
* C57: the summary line is four columns off.
* C69: when verbose, the heading of a run log is written over the progress line, whose rest remains.
* C71 (`C71_unreadable_counterexample`): a retcode file that cannot be opened counts as success.
* C60 (`C60_run_after_counterexample`): a producer named only in `run_after` leaves its consumer
  stale after a build in which it ran.
* C75 (`C75_discarded`, `C75_readme`): the example in README.md never runs anything, and would throw
  "Cycle detected" if it did. It would not compile either: `task_set` has no `operator[]`, and the
  lambda returns `void` instead of a `run_result`. (`C75_example_zero`): `example 0` prints the summary
  of an empty record, which dereferences `end()` (C41).
* C76: `PRINT_VISITOR` keeps pointers to nodes of an execution that was abandoned or failed while a task
  was in flight; the next execution follows them (use after free).
* C77: a dag with a node marked `started` or `done` never finishes (abort at src/exec.cpp:332); one marked
  `failed` makes its dependents DEPF although it may succeed itself.
* C80(b): resources are tracked per execution, so two executions ticked in turn can execute tasks with
  the same resource at once, as soon as one of them has threads.
* C82: the retcode file is removed only after the child has exited and is empty for a moment, so a killed
  child with an old 0, or a failure not yet written, is taken for success; a task invalidated by another
  without a file between them is forgotten once that one has finished.
* C84: only the time of an output is compared, not the time its job began: a source edited while the job
  executes is older than the output, and the edit is never built.
* C94: a shorter job, one thread more or one ordering less can make an execution longer (Graham's anomalies
  of list scheduling); at most `1 + (k - 1) / k'` times, apart from a constant number of ticks per task.
* C96: a long name is cut after 60 bytes, possibly within a character; and output cut into chunks within a
  character makes the JSON export unprintable (`C96_json_counterexample`).
* C97: `insert_set` looks only for nodes it made in the same call; a task selected by two calls is executed twice,
  possibly by two threads at a time, and orderings between tasks of different calls are dropped.
* C98: moving a `task` into a set after something refers to it breaks these references: `depends_on` then schedules the
  moved-from object, whose job is null (undefined behaviour); `run_after` and `invalidated_by` are dropped silently.
  Moving a whole `task_set` is safe.
* C99: record times come from `system_clock`, not `steady_clock`; when the clock is adjusted during an execution durations
  and the total run time are wrong and can be negative.
* C100: a REQUIRES edge without a path of AFTER edges does not keep the task from being executed when the required one
  fails later.  Dags built by `insert_set` are not affected.
* C102: an `insert_set` that throws leaves nodes without their edges in the caller's dag (src/dag.cpp:19-27); executing
  such a dag executes tasks without what they depend on.  `exec(task_set, …)` is not affected.
* C104 (src/exec.cpp:88-98, 298): the order of a sequential execution depends on the addresses of the nodes (`std::set<dag_node*>`): whatever is not ordered by declarations may change from run to run.
* C105 (include/joque/exec.hpp:43,51; src/print_exec_visitor.cpp:79,104-106,123): with the default visitor two executions on different threads are a data race even if they have nothing else in common: `PRINT_VISITOR` keeps an unprotected `std::set`. exec.hpp does not say so.
* C106 (src/junit.cpp:92-93, src/exec.cpp:113-123): the JUnit report decides by `retcode`; tasks that were not run because a dependency failed (DEPF) appear as passed tests. At least one other test is marked as failed then.
* C107 (src/exec.cpp:131-132,165-166): `run` occupies and releases what `n->t.resources` lists at the respective moment. A resource that is taken from a running task between two ticks is never released; one that is added is released though another task uses it. A task chosen in one tick is started in the next without looking at its resources again.
* C110 (src/process.cpp:61-115): without a retcode file a process that failed after writing its outputs counts as up to date; the next execution succeeds, skips it and builds further on the wrong output.

## Trusted base

The Lean 4.33.0 kernel; the axioms `propext`, `Classical.choice`, `Quot.sound` at most
(`AXIOMS.md` has the list per theorem); the reading of the C++ source recorded in the comments of
`Model/*` together with the assumptions above; the statements in `Spec/*` and `Props/*`.
Mathlib and everything else is checked by the kernel.
