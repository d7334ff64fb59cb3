import Verif.Model.Assemble
import Verif.Model.Basic
import Verif.Model.BuildCost
import Verif.Model.Candidate
import Verif.Model.Changes
import Verif.Model.Coro
import Verif.Model.Cost
import Verif.Model.Crash
import Verif.Model.Cycle
import Verif.Model.Event
import Verif.Model.Example
import Verif.Model.Exec
import Verif.Model.Fine
import Verif.Model.Format
import Verif.Model.FormatDag
import Verif.Model.GraphHeap
import Verif.Model.IList
import Verif.Model.InsertFail
import Verif.Model.InsertSet
import Verif.Model.Inval
import Verif.Model.JUnit
import Verif.Model.JUnitFile
import Verif.Model.Job
import Verif.Model.Json
import Verif.Model.Lifetime
import Verif.Model.ListPtr
import Verif.Model.Look
import Verif.Model.Marks
import Verif.Model.Pace
import Verif.Model.Preset
import Verif.Model.PrintVisitor
import Verif.Model.Process
import Verif.Model.Remove
import Verif.Model.RunCoro
import Verif.Model.Session
import Verif.Model.Task
import Verif.Model.Terminal
import Verif.Model.Threads
import Verif.Model.Time
import Verif.Model.Two
import Verif.Proof.Candidate
import Verif.Proof.Changes
import Verif.Proof.Coro
import Verif.Proof.Cost
import Verif.Proof.Cycle
import Verif.Proof.Emits
import Verif.Proof.ExecInv
import Verif.Proof.ExecInv2
import Verif.Proof.ExecInv3
import Verif.Proof.ExecInv4
import Verif.Proof.ExecInv5
import Verif.Proof.Fair
import Verif.Proof.Format
import Verif.Proof.GraphHeap
import Verif.Proof.GraphHeap2
import Verif.Proof.GraphHeap3
import Verif.Proof.Hang
import Verif.Proof.History
import Verif.Proof.IList
import Verif.Proof.IList2
import Verif.Proof.IList3
import Verif.Proof.InsertFail
import Verif.Proof.InsertSet
import Verif.Proof.InsertSet2
import Verif.Proof.InsertSet3
import Verif.Proof.Interleave
import Verif.Proof.Inval
import Verif.Proof.JUnit
import Verif.Proof.JUnit2
import Verif.Proof.Lockstep
import Verif.Proof.ManyTick
import Verif.Proof.MarkInv
import Verif.Proof.Marks
import Verif.Proof.Metered
import Verif.Proof.OneTick
import Verif.Proof.OneWorker
import Verif.Proof.Order
import Verif.Proof.Origin
import Verif.Proof.Outlive
import Verif.Proof.Outlive2
import Verif.Proof.Outlive3
import Verif.Proof.Pace
import Verif.Proof.Parallel
import Verif.Proof.Phases
import Verif.Proof.Preset
import Verif.Proof.Preset2
import Verif.Proof.Preset3
import Verif.Proof.Preset4
import Verif.Proof.Process
import Verif.Proof.Progress
import Verif.Proof.RefInv
import Verif.Proof.Rehash
import Verif.Proof.Rename
import Verif.Proof.Replay
import Verif.Proof.Screen
import Verif.Proof.Sets
import Verif.Proof.Stuck
import Verif.Proof.Task
import Verif.Proof.Time
import Verif.Proof.Trace
import Verif.Proof.TraceInv
import Verif.Proof.TraceInv2
import Verif.Proof.TraceInv3
import Verif.Proof.Utf8
import Verif.Props.Again
import Verif.Props.Anomaly
import Verif.Props.Applied
import Verif.Props.Assemble
import Verif.Props.Build
import Verif.Props.Build2
import Verif.Props.BuildCost
import Verif.Props.Changes
import Verif.Props.Clean
import Verif.Props.Clock
import Verif.Props.Colour
import Verif.Props.Coro
import Verif.Props.Cost
import Verif.Props.Crash
import Verif.Props.Dag
import Verif.Props.Dag2
import Verif.Props.Declare
import Verif.Props.Deliver
import Verif.Props.Determined
import Verif.Props.Determined2
import Verif.Props.Determined3
import Verif.Props.EdgeKinds
import Verif.Props.Edit
import Verif.Props.Exact
import Verif.Props.Example
import Verif.Props.Exec1
import Verif.Props.Exec2
import Verif.Props.Exec3
import Verif.Props.Exec4
import Verif.Props.Exec5
import Verif.Props.Exec6
import Verif.Props.Fast
import Verif.Props.Fine
import Verif.Props.FineFair
import Verif.Props.Format
import Verif.Props.Format2
import Verif.Props.FormatDag
import Verif.Props.FormatDag2
import Verif.Props.Gaps
import Verif.Props.GraphHeap
import Verif.Props.Hang
import Verif.Props.IList
import Verif.Props.Incremental
import Verif.Props.Incremental2
import Verif.Props.Incremental3
import Verif.Props.Incremental4
import Verif.Props.InsertFail
import Verif.Props.Inserted
import Verif.Props.Interleave
import Verif.Props.InterleavePlaced
import Verif.Props.InterleaveQueue
import Verif.Props.InterleaveTasks
import Verif.Props.JUnit
import Verif.Props.JUnit2
import Verif.Props.JUnitFile
import Verif.Props.Job
import Verif.Props.Job2
import Verif.Props.Json
import Verif.Props.JsonReport
import Verif.Props.Lifetime
import Verif.Props.ListPtr
import Verif.Props.Local
import Verif.Props.Look
import Verif.Props.Machine
import Verif.Props.Makespan
import Verif.Props.ManyThreads
import Verif.Props.Marks
import Verif.Props.Messages
import Verif.Props.NoMemory
import Verif.Props.NullJob
import Verif.Props.OneTick
import Verif.Props.OneWorker
import Verif.Props.Order
import Verif.Props.Outcome
import Verif.Props.Outlive
import Verif.Props.Pace
import Verif.Props.Parallel
import Verif.Props.Polling
import Verif.Props.Polling2
import Verif.Props.Polling3
import Verif.Props.Preset
import Verif.Props.Preset2
import Verif.Props.PrintVisitor
import Verif.Props.Process
import Verif.Props.Process2
import Verif.Props.Process3
import Verif.Props.Programs
import Verif.Props.Progress
import Verif.Props.Prompt
import Verif.Props.Race
import Verif.Props.RefInv
import Verif.Props.Remove
import Verif.Props.Replay
import Verif.Props.Report
import Verif.Props.Reports
import Verif.Props.RunCoro
import Verif.Props.Scheduler
import Verif.Props.Screen
import Verif.Props.Screen2
import Verif.Props.SeqOrder
import Verif.Props.Session
import Verif.Props.SessionExact
import Verif.Props.Sync
import Verif.Props.Sync2
import Verif.Props.Task
import Verif.Props.Terminal
import Verif.Props.Threads
import Verif.Props.Throw
import Verif.Props.Tick
import Verif.Props.Time
import Verif.Props.Torn
import Verif.Props.Two
import Verif.Props.UnitTests
import Verif.Props.Utf8
import Verif.Props.Words
import Verif.Spec.Build
import Verif.Spec.BuildRun
import Verif.Spec.Changes
import Verif.Spec.Clean
import Verif.Spec.Crash
import Verif.Spec.Edit
import Verif.Spec.Elig
import Verif.Spec.Format
import Verif.Spec.Graph
import Verif.Spec.GraphHeap
import Verif.Spec.HB
import Verif.Spec.Hang
import Verif.Spec.IList
import Verif.Spec.Incremental
import Verif.Spec.Ink
import Verif.Spec.Inserted
import Verif.Spec.Interleave
import Verif.Spec.Inval
import Verif.Spec.JsonReport
import Verif.Spec.JsonText
import Verif.Spec.Look
import Verif.Spec.Makespan
import Verif.Spec.Marks
import Verif.Spec.Messages
import Verif.Spec.Order
import Verif.Spec.Outlive
import Verif.Spec.Process
import Verif.Spec.Race
import Verif.Spec.Reorder
import Verif.Spec.Replay
import Verif.Spec.Report
import Verif.Spec.Rounds
import Verif.Spec.Scheduler
import Verif.Spec.SeqOrder
import Verif.Spec.Session
import Verif.Spec.Task
import Verif.Spec.Terminal
import Verif.Spec.Threads
import Verif.Spec.Time
import Verif.Spec.Trace
import Verif.Spec.Untimed
import Verif.Spec.Utf8
import Verif.Spec.Verdict
import Verif.Spec.Workspace
import Verif.Spec.Xml
