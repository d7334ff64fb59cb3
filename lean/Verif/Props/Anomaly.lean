import Verif.Props.Makespan

/-!
# Is an execution with less to do faster?

Statement C94.
-/

namespace Joque

/-- The second execution has no more to do than the first and no fewer threads: every task is one of the
first, its job is there not shorter, it is ordered only after what it is ordered after there, maybe
indirectly, and has only resources it has there. -/
structure NoHarder (C : Cfg) (ms : List Move) (C' : Cfg) (ms' : List Move) : Prop where
  threads : C.threadCount ≤ C'.threadCount
  tasks : ∀ n ∈ C'.dag.nodes, n ∈ C.dag.nodes
  order : ∀ a b, AfterEdge C'.dag a b → Relation.TransGen (AfterEdge C.dag) a b
  resources : ∀ n, ∀ r ∈ C'.resources n, r ∈ C.resources n
  lengths : ∀ n ∈ C'.dag.nodes,
    jobTicks (exec C' ms').trace n ≤ jobTicks (exec C ms).trace n

theorem sum_le_of_subset {l l' : List Node} {f f' : Node → Nat} (hnd : l'.Nodup) (hs : ∀ n ∈ l', n ∈ l)
    (hf : ∀ n ∈ l', f' n ≤ f n) : (l'.map f').sum ≤ (l.map f).sum := by
  induction l' generalizing l with
  | nil => simp
  | cons a l' ih =>
    obtain ⟨x, y, rfl⟩ := List.append_of_mem (hs a (by simp))
    have h1 := ih (l := x ++ y) (List.nodup_cons.1 hnd).2 (fun n hn => by
      have h2 := hs n (List.mem_cons_of_mem _ hn)
      have h3 : n ≠ a := fun h => (List.nodup_cons.1 hnd).1 (h ▸ hn)
      simp only [List.mem_append, List.mem_cons] at h2 ⊢
      tauto) fun n hn => hf n (List.mem_cons_of_mem _ hn)
    have h2 := hf a (by simp)
    simp only [List.map_cons, List.sum_cons, List.map_append, List.sum_append] at h1 ⊢
    omega

theorem NoHarder.work {C C' : Cfg} {ms ms' : List Move} (h : NoHarder C ms C' ms') (hwf : C.dag.WF)
    (hwf' : C'.dag.WF) : (C'.dag.nodes.map (jobTicks (exec C' ms').trace)).sum ≤
      C.threadCount * ticks (exec C ms).trace :=
  (sum_le_of_subset hwf'.nodup h.tasks h.lengths).trans (C83_lower_bound C hwf ms).1

/-- **C94**, what holds (Graham's bound).  If no two tasks of the second execution share a resource, it
takes at most `1 + (k - 1) / k'` times as many ticks as the first, `k` and `k'` being the thread counts,
and three for each task and three more.  (With the same thread count that is less than twice as many.)
Partial: it is not true that it takes no longer than the first, see the counterexamples. -/
theorem C94_partial (C C' : Cfg) (hwf : C.dag.WF) (hwf' : C'.dag.WF) (ms ms' : List Move)
    (h : NoHarder C ms C' ms')
    (hres : ∀ a b, a ≠ b → ∀ r ∈ C'.resources a, r ∉ C'.resources b) :
    C'.threadCount * ticks (exec C' ms').trace ≤
      C'.threadCount * (3 * C'.dag.nodes.length + 3) +
      (C.threadCount + (C'.threadCount - 1)) * ticks (exec C ms).trace := by
  obtain ⟨chain, c1, c2, c3, c4⟩ := C83_makespan C' hwf' ms'
  have hW := h.work hwf hwf'
  have hL : (chain.map (jobTicks (exec C' ms').trace)).sum ≤ ticks (exec C ms).trace := by
    refine Nat.le_trans ?_ ((C83_lower_bound C hwf ms).2 chain (c1.imp ?_))
    · exact sum_le_of_subset c2 (fun n hn => hn) fun n hn => h.lengths n (c3 n hn)
    · rintro x y ⟨z, hz, hzy | ⟨hne, r, h1, h2⟩⟩
      · have : Relation.TransGen (AfterEdge C'.dag) x y := Relation.TransGen.tail' hz hzy
        exact this.lift' id fun a b hab => h.order a b hab
      · exact absurd h2 (hres z y hne r h1)
  have := Nat.mul_le_mul_left (C'.threadCount - 1) hL
  rw [Nat.add_mul]
  omega

/-- **C94**, with shared resources too: it takes at most `k` times as many ticks.  So compared with an
execution on one thread neither more threads nor less to do make it slower, apart from three ticks for
each task and three more. -/
theorem C94_one_thread (C C' : Cfg) (hwf : C.dag.WF) (hwf' : C'.dag.WF) (ms ms' : List Move)
    (h : NoHarder C ms C' ms') (h0 : C.threadCount ≠ 0) :
    ticks (exec C' ms').trace ≤
      3 * C'.dag.nodes.length + 3 + C.threadCount * ticks (exec C ms).trace := by
  obtain ⟨chain, _, c2, c3, c4⟩ := C83_makespan C' hwf' ms'
  have hW := h.work hwf hwf'
  have hL : (chain.map (jobTicks (exec C' ms').trace)).sum ≤
      (C'.dag.nodes.map (jobTicks (exec C' ms').trace)).sum :=
    sum_le_of_subset c2 c3 fun n _ => Nat.le_refl _
  have ht : 0 < C'.threadCount := by have := h.threads; omega
  generalize (C'.dag.nodes.map (jobTicks (exec C' ms').trace)).sum = W at *
  generalize (chain.map (jobTicks (exec C' ms').trace)).sum = L at *
  generalize C.threadCount * ticks (exec C ms).trace = T at *
  generalize ticks (exec C' ms').trace = K at *
  generalize 3 * C'.dag.nodes.length + 3 = N at *
  generalize C'.threadCount = t at *
  refine Nat.le_of_mul_le_mul_left (c := t) ?_ ht
  obtain ⟨t, rfl⟩ : ∃ u, t = u + 1 := ⟨t - 1, by omega⟩
  have h1 := Nat.mul_le_mul_left t (hL.trans hW)
  rw [Nat.mul_add, Nat.succ_mul t T]
  simp only [Nat.add_sub_cancel] at c4
  omega

/-! ## Graham's anomalies -/

/-- the length of a job in one pass over the history -/
def scanJob (n : Node) : Bool → Bool → Nat → List Event → Nat
  | _, _, k, [] => k
  | l, d, k, e :: tr =>
    match e with
    | .resumed => scanJob n l d (if l && !d then k + 1 else k) tr
    | .launch m => scanJob n (l || m == n) d k tr
    | .jobEnd m => scanJob n l (d || m == n) k tr
    | _ => scanJob n l d k tr

theorem scanJob_spec (n : Node) (tr pre : List Event) (l d : Bool)
    (hl : l = true ↔ Event.launch n ∈ pre) (hd : d = true ↔ Event.jobEnd n ∈ pre) :
    scanJob n l d (jobTicks pre n) tr = jobTicks (pre ++ tr) n := by
  classical
  induction tr generalizing pre l d with
  | nil => simp [scanJob]
  | cons e tr ih =>
    have hs : jobTicks (pre ++ [e]) n = jobTicks pre n +
        if e = .resumed ∧ OnThread pre n then 1 else 0 := ticksWhere_snoc (OnThread · n) pre e
    have hon : OnThread pre n ↔ (l && !d) = true := by
      unfold OnThread JobEnded
      rw [← hl, ← hd]; cases l <;> cases d <;> simp
    rw [show pre ++ e :: tr = (pre ++ [e]) ++ tr by simp]
    cases e with
    | resumed =>
      rw [← ih (pre ++ [Event.resumed]) l d (by simp [hl]) (by simp [hd]), hs]
      simp only [scanJob, true_and, hon]
      congr 1
      split <;> rfl
    | launch m =>
      rw [← ih (pre ++ [Event.launch m]) (l || m == n) d
        (by rw [Bool.or_eq_true, hl, beq_iff_eq, eq_comm (a := m)]; simp) (by simp [hd]), hs]
      simp [scanJob]
    | jobEnd m =>
      rw [← ih (pre ++ [Event.jobEnd m]) l (d || m == n) (by simp [hl])
        (by rw [Bool.or_eq_true, hd, beq_iff_eq, eq_comm (a := m)]; simp), hs]
      simp [scanJob]
    | _ =>
      rw [← ih (pre ++ [_]) l d (by simp [hl]) (by simp [hd]), hs]
      simp [scanJob]

theorem jobTicks_scan (tr : List Event) (n : Node) : jobTicks tr n = scanJob n false false 0 tr := by
  have h0 : jobTicks [] n = 0 := by simp [jobTicks, ticksWhere]
  rw [← h0, scanJob_spec n tr [] false false (by simp) (by simp)]
  rfl

/-- `k` tasks without resources, all of which have to be executed -/
def Ex.anom (tc k : Nat) (edges : List Edge) : Cfg :=
  { dag := { nodes := (List.range k).reverse.map (· + 1), edges := edges, name := fun _ => []
             task := fun n => n }
    resources := fun _ => []
    hasJob := fun _ => true
    ask := fun _ => .answer { invalidated := true, log := [] }
    outcome := fun _ => Ex.ret 0 []
    threadCount := tc }

/-- the control thread goes on for a while, then a job begins and ends -/
def Ex.ends (l : List (Nat × Node)) : List Move :=
  l.flatMap (fun x => List.replicate x.1 .ctl ++ [.begin x.2, .finish x.2]) ++ List.replicate 6 .ctl

/-- 3 and 4 run after 1, and 5 after 2 -/
def Ex.anom5 : Cfg := Ex.anom 2 5 [⟨3, 1, .after⟩, ⟨4, 1, .after⟩, ⟨5, 2, .after⟩]

/-- 3 and 4 do not run after 1 -/
def Ex.anomFree : Cfg := Ex.anom 2 5 [⟨5, 2, .after⟩]

/-- 4, 5 and 6 run after 3, and 7 after 1 -/
def Ex.anom7 (tc : Nat) : Cfg :=
  Ex.anom tc 7 [⟨4, 3, .after⟩, ⟨5, 3, .after⟩, ⟨6, 3, .after⟩, ⟨7, 1, .after⟩]

theorem Ex.anom5_wf : Ex.anom5.dag.WF :=
  ⟨by decide +kernel, by show ∀ e ∈ Ex.anom5.dag.edges, _; decide +kernel⟩

theorem Ex.anomFree_wf : Ex.anomFree.dag.WF :=
  ⟨by decide +kernel, by show ∀ e ∈ Ex.anomFree.dag.edges, _; decide +kernel⟩

theorem Ex.anom7_wf (tc : Nat) : (Ex.anom7 tc).dag.WF :=
  ⟨by show (Ex.anom7 0).dag.nodes.Nodup; decide +kernel,
    by show ∀ e ∈ (Ex.anom7 0).dag.edges, e.src ∈ (Ex.anom7 0).dag.nodes ∧ e.tgt ∈ (Ex.anom7 0).dag.nodes
       decide +kernel⟩

/-- job 1 takes 12 ticks, 2 takes 8, 3 and 4 take 25, 5 takes 56: 5 is started when 2 has ended -/
def Ex.slow5 : List Move := Ex.ends [(65, 2), (19, 1), (163, 3), (138, 4), (5, 5)]

/-- job 1 takes only 5 ticks, so 3 and 4 are started before 5, which has to wait -/
def Ex.fast5 : List Move := Ex.ends [(41, 1), (25, 2), (139, 3), (23, 4), (217, 5)]

/-- as `slow5`, but without the order 3 and 4 are started before 5 as well -/
def Ex.free5 : List Move := Ex.ends [(65, 2), (19, 1), (145, 3), (18, 4), (221, 5)]

/-- on two threads -/
def Ex.two7 : List Move :=
  Ex.ends [(59, 1), (6, 2), (20, 3), (229, 4), (229, 5), (193, 6), (101, 7)]

/-- on three threads, where 4, 5 and 6 are started before 7 -/
def Ex.three7 : List Move :=
  Ex.ends [(39, 3), (29, 1), (7, 2), (233, 4), (27, 5), (6, 6), (549, 7)]

theorem Ex.slow5_spec : (exec Ex.anom5 Ex.slow5).phase = .finished ∧
    ticks (exec Ex.anom5 Ex.slow5).trace = 71 ∧
    [1, 2, 3, 4, 5].map (jobTicks (exec Ex.anom5 Ex.slow5).trace) = [12, 8, 25, 25, 56] := by
  refine ⟨by decide +kernel, by decide +kernel, ?_⟩
  simp only [List.map_cons, List.map_nil, jobTicks_scan]
  decide +kernel

theorem Ex.fast5_spec : (exec Ex.anom5 Ex.fast5).phase = .finished ∧
    ticks (exec Ex.anom5 Ex.fast5).trace = 94 ∧
    [1, 2, 3, 4, 5].map (jobTicks (exec Ex.anom5 Ex.fast5).trace) = [5, 8, 25, 25, 56] := by
  refine ⟨by decide +kernel, by decide +kernel, ?_⟩
  simp only [List.map_cons, List.map_nil, jobTicks_scan]
  decide +kernel

theorem Ex.free5_spec : (exec Ex.anomFree Ex.free5).phase = .finished ∧
    ticks (exec Ex.anomFree Ex.free5).trace = 98 ∧
    [1, 2, 3, 4, 5].map (jobTicks (exec Ex.anomFree Ex.free5).trace) = [12, 8, 25, 25, 56] := by
  refine ⟨by decide +kernel, by decide +kernel, ?_⟩
  simp only [List.map_cons, List.map_nil, jobTicks_scan]
  decide +kernel

theorem Ex.two7_spec : (exec (Ex.anom7 2) Ex.two7).phase = .finished ∧
    ticks (exec (Ex.anom7 2) Ex.two7).trace = 155 ∧
    [1, 2, 3, 4, 5, 6, 7].map (jobTicks (exec (Ex.anom7 2) Ex.two7).trace) = [8, 8, 2, 36, 36, 36, 140] := by
  refine ⟨by decide +kernel, by decide +kernel, ?_⟩
  simp only [List.map_cons, List.map_nil, jobTicks_scan]
  decide +kernel

theorem Ex.three7_spec : (exec (Ex.anom7 3) Ex.three7).phase = .finished ∧
    ticks (exec (Ex.anom7 3) Ex.three7).trace = 188 ∧
    [1, 2, 3, 4, 5, 6, 7].map (jobTicks (exec (Ex.anom7 3) Ex.three7).trace) = [8, 8, 2, 36, 36, 36, 140] := by
  refine ⟨by decide +kernel, by decide +kernel, ?_⟩
  simp only [List.map_cons, List.map_nil, jobTicks_scan]
  decide +kernel

/-- lengths known for the tasks by number -/
theorem lengths_le {C C' : Cfg} {ms ms' : List Move} {l a b : List Nat}
    (h : l.map (jobTicks (exec C ms).trace) = a) (h' : l.map (jobTicks (exec C' ms').trace) = b)
    (hl : ∀ n ∈ C'.dag.nodes, n ∈ l) (hab : ∀ x ∈ b.zip a, x.1 ≤ x.2) :
    ∀ n ∈ C'.dag.nodes, jobTicks (exec C' ms').trace n ≤ jobTicks (exec C ms).trace n := by
  intro n hn
  refine hab (_, _) ?_
  rw [← h, ← h', List.zip_map']
  exact List.mem_map.2 ⟨n, hl n hn, rfl⟩

/-- **C94**, counterexample: a shorter job can make an execution longer (by more than the time of three
ticks for each task and three more): with 12 ticks for job 1 it takes 71 ticks, with 5 ticks for it and
everything else the same it takes 94. -/
theorem C94_counterexample :
    NoHarder Ex.anom5 Ex.slow5 Ex.anom5 Ex.fast5 ∧
    (exec Ex.anom5 Ex.slow5).phase = .finished ∧ (exec Ex.anom5 Ex.fast5).phase = .finished ∧
    ticks (exec Ex.anom5 Ex.slow5).trace + (3 * Ex.anom5.dag.nodes.length + 3) <
      ticks (exec Ex.anom5 Ex.fast5).trace := by
  obtain ⟨a1, a2, a3⟩ := Ex.slow5_spec
  obtain ⟨b1, b2, b3⟩ := Ex.fast5_spec
  refine ⟨⟨Nat.le_refl _, fun _ h => h, fun a b h => .single h, fun _ _ h => h, ?_⟩, a1, b1, ?_⟩
  · exact lengths_le a3 b3 (by decide +kernel) (by decide)
  · rw [a2, b2]; decide +kernel

/-- **C94**, counterexample: more threads can make it longer, all jobs being as long as before. -/
theorem C94_counterexample_threads :
    NoHarder (Ex.anom7 2) Ex.two7 (Ex.anom7 3) Ex.three7 ∧
    (exec (Ex.anom7 2) Ex.two7).phase = .finished ∧ (exec (Ex.anom7 3) Ex.three7).phase = .finished ∧
    ticks (exec (Ex.anom7 2) Ex.two7).trace + (3 * (Ex.anom7 3).dag.nodes.length + 3) <
      ticks (exec (Ex.anom7 3) Ex.three7).trace := by
  obtain ⟨a1, a2, a3⟩ := Ex.two7_spec
  obtain ⟨b1, b2, b3⟩ := Ex.three7_spec
  refine ⟨⟨by decide, fun _ h => h, fun a b h => .single h, fun _ _ h => h, ?_⟩, a1, b1, ?_⟩
  · exact lengths_le a3 b3 (by decide +kernel) (by decide)
  · rw [a2, b2]; decide +kernel

/-- **C94**, counterexample: taking away the declaration that some tasks run after another can make it
longer. -/
theorem C94_counterexample_order :
    NoHarder Ex.anom5 Ex.slow5 Ex.anomFree Ex.free5 ∧
    (exec Ex.anom5 Ex.slow5).phase = .finished ∧ (exec Ex.anomFree Ex.free5).phase = .finished ∧
    ticks (exec Ex.anom5 Ex.slow5).trace + (3 * Ex.anomFree.dag.nodes.length + 3) <
      ticks (exec Ex.anomFree Ex.free5).trace := by
  obtain ⟨a1, a2, a3⟩ := Ex.slow5_spec
  obtain ⟨b1, b2, b3⟩ := Ex.free5_spec
  refine ⟨⟨by decide, fun _ h => h, fun a b h => .single ?_, fun _ _ h => h, ?_⟩, a1, b1, ?_⟩
  · exact (show ∀ e ∈ Ex.anomFree.dag.edges, e ∈ Ex.anom5.dag.edges by decide +kernel) _ h
  · exact lengths_le a3 b3 (by decide +kernel) (by decide)
  · rw [a2, b2]; decide +kernel

/-- the bounds for these: 94 ticks of at most 18 + (3 / 2) * 71, and of at most 18 + 2 * 71 -/
example : Ex.anom5.dag.WF ∧ NoHarder Ex.anom5 Ex.slow5 Ex.anom5 Ex.fast5 ∧ Ex.anom5.threadCount ≠ 0 ∧
    (∀ a b, a ≠ b → ∀ r ∈ Ex.anom5.resources a, r ∉ Ex.anom5.resources b) :=
  ⟨Ex.anom5_wf, C94_counterexample.1, by decide, fun _ _ _ _ h => by cases h⟩

end Joque
