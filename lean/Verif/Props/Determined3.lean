import Verif.Props.Determined2
import Verif.Props.Build
import Verif.Spec.Rounds

/-! # Histories of places exist, and why the tasks have to be ordered (C123) -/

namespace Joque

section
variable {K V : Type}

/-- what the places hold, and what each job found when it began -/
abbrev Snapshot (K V : Type) := (K → V) × (Node → K → V)

/-- a job leaves its results when it ends -/
def Snapshot.after (writes : Node → K → Bool) (J : Commands K V) (s : Snapshot K V) :
    Event → Snapshot K V
  | .jobBegin n _ => (s.1, fun m => if m = n then s.1 else s.2 m)
  | .jobEnd n => (fun q => if writes n q then J.effect n (s.2 n) q else s.1 q, s.2)
  | _ => s

/-- the places after the first `i` events -/
def contents (writes : Node → K → Bool) (J : Commands K V) (c : K → V) (tr : List Event) (i : Nat) :
    Snapshot K V :=
  (tr.take i).foldl (Snapshot.after writes J) (c, fun _ => c)

variable {writes : Node → K → Bool} {J : Commands K V} {c : K → V} {tr : List Event}

theorem contents_succ {i : Nat} {e : Event} (h : tr[i]? = some e) :
    contents writes J c tr (i + 1) = (contents writes J c tr i).after writes J e := by
  unfold contents
  rw [List.take_add_one, h, Option.toList_some, List.foldl_append]
  rfl

theorem contents_found {g : Dag} (o : Orderly g tr) {n : Node} {j : Nat} (hj : BeginsAt tr n j) :
    ∀ i, j < i → i ≤ tr.length →
      (contents writes J c tr i).2 n = (contents writes J c tr j).1 := by
  intro i
  induction i with
  | zero => intro h; omega
  | succ i ih =>
    intro hji hi
    have he : tr[i]? = some tr[i] := List.getElem?_eq_getElem (by omega)
    rw [contents_succ he]
    rcases Nat.lt_or_ge j i with h | h
    · rw [← ih h (by omega)]
      cases hx : tr[i] <;> simp only [Snapshot.after]
      rename_i m b
      split
      · rename_i hm
        rw [hx, ← hm] at he
        have := o.once hj ⟨b, he⟩
        omega
      · rfl
    · obtain rfl : j = i := by omega
      obtain ⟨b, hb⟩ := hj
      rw [he] at hb
      cases hb' : tr[j] <;> rw [hb'] at hb <;> cases hb
      simp [Snapshot.after]

end

/-- jobs end once, after they began -/
theorem end_after {C : Cfg} (hwf : C.dag.WF) (ms : List Move) (hfin : (exec C ms).phase = .finished)
    {n : Node} {i : Nat} (h : (exec C ms).trace[i]? = some (.jobEnd n)) :
    Running ((exec C ms).trace.take i) n := by
  obtain ⟨hI, hT⟩ := both_exec hwf ms
  have hend : JobEnded (exec C ms).trace n := List.mem_of_getElem? h
  have hbeg : JobBegan (exec C ms).trace n := by
    rw [end_mem_life] at hend
    rw [begin_mem_life]
    by_cases hn : n ∈ C.dag.nodes
    · obtain ⟨r, hr, rfl⟩ := List.mem_map.1 ((C02_one_record C hwf ms hfin).1.mem_iff.2 hn)
      rw [hT.lifeRec r hr] at hend ⊢
      cases hs : r.status <;> rw [hs] at hend <;> simp only [recLife] at hend ⊢ <;>
        by_cases h0 : C.threadCount = 0 <;> simp_all
    · have hno : n ∉ allNodes (exec C ms) := fun h => hn (hI.inNodes n h)
      rcases hT.lifeOther n hno with h | ⟨_, h⟩ <;> rw [h] at hend <;> simp at hend
  obtain ⟨j, b, hj⟩ := began_beginsAt hbeg
  have hji : j < i := tag_lt hwf ms hj h (n := n) (x := .begin b) (y := .end) (by simp [tagOf])
    (by simp [tagOf]) (by simp [Tag.rank])
  refine ⟨⟨b, mem_take_of_getElem? hj hji⟩, fun he => ?_⟩
  obtain ⟨k, hk⟩ := List.mem_iff_getElem?.1 he
  have hki : k < i := by
    by_contra hc
    rw [List.getElem?_take, if_neg hc] at hk
    cases hk
  rw [List.getElem?_take_of_lt hki] at hk
  have := tag_unique hwf ms hk h (n := n) (x := .end) (y := .end) (by simp [tagOf]) (by simp [tagOf]) rfl
  omega

theorem contents_workspace {K V : Type} (reads : Node → K → Prop) (writes : Node → K → Bool)
    (J : Commands K V) (C : Cfg) (hwf : C.dag.WF) (hJ : ∀ n c, J.outcome n c = C.outcome n)
    (ms : List Move) (hfin : (exec C ms).phase = .finished) (c : K → V) :
    Workspace ⟨reads, fun n q => writes n q = true⟩ J C.outcome (exec C ms).trace
      fun i => (contents writes J c (exec C ms).trace i).1 := by
  have o := orderly_finished hwf ms hfin
  refine ⟨?_, ?_⟩
  · intro i hi q hne
    have he : (exec C ms).trace[i]? = some (exec C ms).trace[i] := List.getElem?_eq_getElem hi
    rw [contents_succ he] at hne
    cases hx : (exec C ms).trace[i] <;> rw [hx] at hne <;> simp only [Snapshot.after] at hne <;>
      try exact absurd rfl hne
    rename_i n
    rw [hx] at he
    refine ⟨n, end_after hwf ms hfin he, ?_⟩
    by_contra hc
    exact hne (if_neg hc)
  · intro i j n b hj hi
    have hlen := (List.getElem?_eq_some_iff.1 hi).1
    have hji : j < i := tag_lt hwf ms hj hi (n := n) (x := .begin b) (y := .end) (by simp [tagOf])
      (by simp [tagOf]) (by simp [Tag.rank])
    refine ⟨(hJ n _).symm, fun q hq => ?_⟩
    rw [contents_succ hi]
    simp only [Snapshot.after]
    rw [if_pos hq, contents_found o ⟨b, hj⟩ i hji (by omega)]

/-- **C123**, while a job is executing, no other one is that may write what the first one touches: what
a job finds when it begins is what it finds later on, apart from its own changes.  In every state of every
execution, finished or not. -/
theorem C123_isolated {K : Type} (A : Footprint K) (C : Cfg) (hwf : C.dag.WF) (hA : A.RaceFree C.dag)
    (ms : List Move) (k : Nat) (n m : Node) (hne : n ≠ m)
    (hn : Running ((exec C ms).trace.take k) n) (hm : Running ((exec C ms).trace.take k) m) (q : K)
    (hq : A.Touches n q) : ¬ A.writes m q := by
  have key : ∀ a b, Running ((exec C ms).trace.take k) a → Running ((exec C ms).trace.take k) b →
      ¬ Relation.TransGen (AfterEdge C.dag) a b := by
    intro a b ha hb t
    obtain ⟨i, hik, x, hi⟩ := running_begins ha
    obtain ⟨j, hjk, y, hj⟩ := running_begins hb
    obtain ⟨e, he, _, h2⟩ := C63_transitive C hwf ms a b x y j i t hj hi
    exact hb.2 (mem_take_of_getElem? he (Nat.lt_trans (hb_lt h2) hik))
  intro hw
  rcases hA n (running_node hwf hn) m (running_node hwf hm) hne q hq hw with h | h
  · exact key n m hn hm h
  · exact key m n hm hn h

/-- **C123**, the hypotheses can be met: for every finished execution, whatever the places hold in the
beginning, there is a history of the places in which the jobs do what they are to do. -/
theorem C123_exists {K V : Type} (reads : Node → K → Prop) (writes : Node → K → Bool)
    (J : Commands K V) (C : Cfg) (hwf : C.dag.WF) (hJ : ∀ n c, J.outcome n c = C.outcome n)
    (ms : List Move) (hfin : (exec C ms).phase = .finished) (c : K → V) :
    ∃ cont : Nat → K → V, cont 0 = c ∧
      Workspace ⟨reads, fun n q => writes n q = true⟩ J C.outcome (exec C ms).trace cont :=
  ⟨_, rfl, contents_workspace reads writes J C hwf hJ ms hfin c⟩

/-- **C123**, there is an order as in `C123_serial`: that in which the jobs began. -/
theorem C123_order (C : Cfg) (hwf : C.dag.WF) (ms : List Move)
    (hfin : (exec C ms).phase = .finished) : ∃ l, Serial C.dag (exec C ms).trace l := by
  have o := orderly_finished hwf ms hfin
  have key : ∀ p, p ≤ (exec C ms).trace.length → ∃ l : List Node, l.Nodup ∧
      (∀ n, n ∈ l ↔ ∃ i < p, BeginsAt (exec C ms).trace n i) ∧
      l.Pairwise fun a b => ¬ Relation.TransGen (AfterEdge C.dag) a b := by
    intro p
    induction p with
    | zero => exact fun _ => ⟨[], List.nodup_nil, by simp, .nil⟩
    | succ p ih =>
      intro hp
      obtain ⟨l, h1, h2, h3⟩ := ih (by omega)
      by_cases hb : ∃ n, BeginsAt (exec C ms).trace n p
      · obtain ⟨n, hn⟩ := hb
        have hnl : n ∉ l := by
          intro h
          obtain ⟨i, hi, hb⟩ := (h2 n).1 h
          have := o.once hn hb
          omega
        refine ⟨l ++ [n], ?_, fun m => ?_, ?_⟩
        · exact List.nodup_append.2 ⟨h1, List.nodup_singleton n, by
            intro a ha b hb hab
            rw [List.mem_singleton.1 hb] at hab
            exact hnl (hab ▸ ha)⟩
        · rw [List.mem_append, List.mem_singleton, h2]
          constructor
          · rintro (⟨i, hi, hb⟩ | rfl)
            · exact ⟨i, by omega, hb⟩
            · exact ⟨p, by omega, hn⟩
          · rintro ⟨i, hi, hb⟩
            rcases Nat.lt_or_ge i p with h | h
            · exact .inl ⟨i, h, hb⟩
            · right
              obtain rfl : i = p := by omega
              obtain ⟨b, hb⟩ := hb
              obtain ⟨b', hn⟩ := hn
              rw [hn] at hb
              cases hb
              rfl
        · refine List.pairwise_append.2 ⟨h3, List.pairwise_singleton _ _, ?_⟩
          intro a ha b hb t
          rw [List.mem_singleton.1 hb] at t
          obtain ⟨i, hi, hai⟩ := (h2 a).1 ha
          obtain ⟨e, _, _, _⟩ := o.order t hn hai
          omega
      · refine ⟨l, h1, fun m => ?_, h3⟩
        rw [h2]
        constructor
        · rintro ⟨i, hi, hb⟩
          exact ⟨i, by omega, hb⟩
        · rintro ⟨i, hi, hbi⟩
          rcases Nat.lt_or_ge i p with h | h
          · exact ⟨i, h, hbi⟩
          · exact absurd ⟨m, (show i = p by omega) ▸ hbi⟩ hb
  obtain ⟨l, h1, h2, h3⟩ := key _ (Nat.le_refl _)
  refine ⟨l, h1, fun n => ?_, h3⟩
  rw [h2]
  refine ⟨fun ⟨i, _, h⟩ => beginsAt_began h, fun h => ?_⟩
  obtain ⟨i, b, hb⟩ := began_beginsAt h
  exact ⟨i, (List.getElem?_eq_some_iff.1 hb).1, b, hb⟩

/-- processes that fit together as in C60 are ordered as C123 asks for -/
theorem plan_raceFree {g : Dag} {proc : Node → Process} (hp : Plan g proc) :
    (filesOf proc).RaceFree g := by
  intro n hn m hm hne q hq hw
  rcases hq with hq | hq
  · rcases hp.inputs n hn q hq with h | ⟨m', hm', ho, ha, _⟩
    · exact absurd hw (h m hm)
    · by_cases hmm : m' = m
      · exact .inl (.single (hmm ▸ ha))
      · exact absurd hw (hp.disjoint m' hm' m hm hmm q (List.mem_append_left _ ho))
  · exact absurd hw (hp.disjoint n hn m hm hne q hq)

/-- **C123** for dags of processes (C60): if every command is determined by the contents of its inputs
and what it finds of its own files, then two builds from the same files, in any schedules and with any
numbers of threads, leave the same contents in all files and the same records. -/
theorem C123_build (proc : Node → Process) (tf : TimeFmt) (J : Commands Str (Option Str)) (C1 C2 : Cfg)
    (hwf : C1.dag.WF) (hdag : C2.dag = C1.dag) (hp : Plan C1.dag proc) (fs : FS)
    (hask1 : AsksAt C1 proc tf fs) (hask2 : AsksAt C2 proc tf fs)
    (hra : ∀ a b, HasEdge C1.dag .requires a b → AfterEdge C1.dag a b)
    (hJ : J.Within (filesOf proc)) (ms1 ms2 : List Move)
    (hf1 : (exec C1 ms1).phase = .finished) (hf2 : (exec C2 ms2).phase = .finished)
    (fs1 fs2 : Nat → FS) (h1 : fs1 0 = fs) (h2 : fs2 0 = fs)
    (W1 : Workspace (filesOf proc) J C1.outcome (exec C1 ms1).trace
      fun i q => (fs1 i q).map PFile.content)
    (W2 : Workspace (filesOf proc) J C2.outcome (exec C2 ms2).trace
      fun i q => (fs2 i q).map PFile.content) :
    (∀ q, (fs1 (exec C1 ms1).trace.length q).map PFile.content
      = (fs2 (exec C2 ms2).trace.length q).map PFile.content) ∧
    ∀ r1 ∈ (exec C1 ms1).erec.runs, ∀ r2 ∈ (exec C2 ms2).erec.runs, r2.node = r1.node →
      SameResult r1 r2 := by
  have := C123_same (filesOf proc) J C1 C2 hwf hdag
    (fun n hn => by rw [hask1 n hn, hask2 n (hdag ▸ hn)]) hra (plan_raceFree hp) hJ ms1 ms2 hf1 hf2 _ _ W1 W2
    (fun q => by rw [h1, h2])
  exact ⟨this.1, this.2.2⟩

namespace Ex

/-- 4 makes place 0, 2 changes it and makes place 1 from it, 1 makes place 2, 5 would make place 3 -/
def madeBy (n : Node) (q : Nat) : Bool :=
  (n == 4 && q == 0) || (n == 2 && (q == 0 || q == 1)) || (n == 1 && q == 2) || (n == 5 && q == 3)

def foot : Footprint Nat := ⟨fun n q => n = 2 ∧ q = 0, fun n q => madeBy n q = true⟩

def commands : Commands Nat Nat :=
  { effect := fun n c q => if n = 4 then 10 else if n = 2 then (if q = 0 then 2 * c 0 else c 0 + 1) else 7
    outcome := fun n _ => (cfg 0).outcome n }

theorem foot_raceFree (k : Nat) : foot.RaceFree (cfg k).dag := by
  have h24 : AfterEdge (cfg k).dag 2 4 := by show _ ∈ dag.edges; decide
  intro n hn m hm hne q hq hw
  have hn' : n ∈ dag.nodes := hn
  have hm' : m ∈ dag.nodes := hm
  simp only [dag, List.mem_cons, List.not_mem_nil, or_false] at hn' hm'
  rcases hn' with rfl | rfl | rfl | rfl | rfl <;> rcases hm' with rfl | rfl | rfl | rfl | rfl <;>
    simp_all [foot, Footprint.Touches, madeBy]
  · exact .inr (.single h24)
  · exact .inl (.single h24)

theorem commands_within : commands.Within foot := by
  refine ⟨fun n c c' h q hq => ?_, fun _ _ _ _ => rfl⟩
  simp only [commands]
  split
  · rfl
  · split
    · rename_i h2
      rw [h 0 (.inl ⟨h2, rfl⟩)]
    · rfl

end Ex

/-- with two threads and on the control thread: 4 makes 10 of place 0, 2 makes 20 of it and 11 of place
1, the failing 1 makes 7 of place 2, 5 is up to date -/
example :
    ((contents Ex.madeBy Ex.commands (fun _ => 0) (exec (Ex.cfg 2) Ex.done2).trace
      (exec (Ex.cfg 2) Ex.done2).trace.length).1 <$> [0, 1, 2, 3]) = [20, 11, 7, 0] ∧
    ((contents Ex.madeBy Ex.commands (fun _ => 0) (exec (Ex.cfg 0) Ex.done0).trace
      (exec (Ex.cfg 0) Ex.done0).trace.length).1 <$> [0, 1, 2, 3]) = [20, 11, 7, 0] := by
  decide +kernel

/-- the hypotheses of `C123_same` are met -/
example : ∃ cont1 cont2 : Nat → Nat → Nat,
    Workspace Ex.foot Ex.commands (Ex.cfg 2).outcome (exec (Ex.cfg 2) Ex.done2).trace cont1 ∧
    Workspace Ex.foot Ex.commands (Ex.cfg 0).outcome (exec (Ex.cfg 0) Ex.done0).trace cont2 ∧
    ∀ q, cont1 (exec (Ex.cfg 2) Ex.done2).trace.length q
      = cont2 (exec (Ex.cfg 0) Ex.done0).trace.length q := by
  obtain ⟨cont1, h1, W1⟩ := C123_exists (fun n q => n = 2 ∧ q = 0) Ex.madeBy Ex.commands (Ex.cfg 2)
    (Ex.wf 2) (fun _ _ => rfl) Ex.done2 Ex.fin2 fun _ => 0
  obtain ⟨cont2, h2, W2⟩ := C123_exists (fun n q => n = 2 ∧ q = 0) Ex.madeBy Ex.commands (Ex.cfg 0)
    (Ex.wf 0) (fun _ _ => rfl) Ex.done0 Ex.fin0 fun _ => 0
  exact ⟨cont1, cont2, W1, W2, (C123_same Ex.foot Ex.commands (Ex.cfg 2) (Ex.cfg 0) (Ex.wf 2) rfl
    (fun _ _ => rfl) (Ex.hra 2) (Ex.foot_raceFree 2) Ex.commands_within Ex.done2 Ex.done0 Ex.fin2 Ex.fin0 cont1 cont2 W1 W2
    (by rw [h1, h2]; exact fun _ => rfl)).1⟩

namespace Ex

/-- 1 makes `b` of `a`, 2 makes `c` of `b` -/
def bcommands : Commands Str (Option Str) :=
  { effect := fun n c q =>
      if n = 1 then (c ['a']).map ('x' :: ·)
      else if q = ['r'] then some (showInt 0) else (c ['b']).map ('y' :: ·)
    outcome := fun n _ => (bcfg true bfs0).outcome n }

theorem bcommands_within : bcommands.Within (filesOf bproc) := by
  refine ⟨fun n c c' h q _ => ?_, fun _ _ _ _ => rfl⟩
  simp only [bcommands]
  split
  · rename_i hn
    rw [h ['a'] (.inl (by simp [filesOf, bproc, hn]))]
  · rename_i hn
    rw [h ['b'] (.inl (by simp [filesOf, bproc, hn]))]

def bwrites (n : Node) (q : Str) : Bool := decide (q ∈ (bproc n).writes)

/-- files with these contents, new files dated 0 -/
def dated (base : FS) (c : Str → Option Str) : FS := fun q =>
  if c q = (base q).map PFile.content then base q else (c q).map fun x => ⟨0, x⟩

theorem dated_content (base : FS) (c : Str → Option Str) (q : Str) :
    (dated base c q).map PFile.content = c q := by
  unfold dated
  split
  · rename_i h; rw [h]
  · cases c q <;> rfl

/-- the same build with two threads -/
def bcfg2 : Cfg := { bcfg true bfs0 with threadCount := 2 }

def bmoves2 : List Move :=
  List.replicate 8 .ctl ++ work ++ List.replicate 12 .ctl ++ work ++ List.replicate 7 .ctl

end Ex

/-- the hypotheses of `C123_build` are met by a build on the control thread and one with two threads, and
in the end `c` is made of what `b` was made of -/
example : ∃ fs1 fs2 : Nat → FS, fs1 0 = Ex.bfs0 ∧ fs2 0 = Ex.bfs0 ∧
    (exec (Ex.bcfg true Ex.bfs0) Ex.bmoves).phase = .finished ∧
    (exec Ex.bcfg2 Ex.bmoves2).phase = .finished ∧
    Plan (Ex.bcfg true Ex.bfs0).dag Ex.bproc ∧ Ex.bcommands.Within (filesOf Ex.bproc) ∧
    Workspace (filesOf Ex.bproc) Ex.bcommands (Ex.bcfg true Ex.bfs0).outcome
      (exec (Ex.bcfg true Ex.bfs0) Ex.bmoves).trace (fun i q => (fs1 i q).map PFile.content) ∧
    Workspace (filesOf Ex.bproc) Ex.bcommands Ex.bcfg2.outcome
      (exec Ex.bcfg2 Ex.bmoves2).trace (fun i q => (fs2 i q).map PFile.content) ∧
    (fs2 (exec Ex.bcfg2 Ex.bmoves2).trace.length ['c']).map PFile.content = some ['y', 'x'] := by
  have f1 : (exec (Ex.bcfg true Ex.bfs0) Ex.bmoves).phase = .finished := by decide +kernel
  have f2 : (exec Ex.bcfg2 Ex.bmoves2).phase = .finished := by decide +kernel
  have W1 := contents_workspace (fun n q => q ∈ (Ex.bproc n).input) Ex.bwrites Ex.bcommands
    (Ex.bcfg true Ex.bfs0) (Ex.bwf true _) (fun _ _ => rfl) Ex.bmoves f1
    fun q => (Ex.bfs0 q).map PFile.content
  have W2 := contents_workspace (fun n q => q ∈ (Ex.bproc n).input) Ex.bwrites Ex.bcommands
    Ex.bcfg2 (Ex.bwf true Ex.bfs0) (fun _ _ => rfl) Ex.bmoves2 f2
    fun q => (Ex.bfs0 q).map PFile.content
  have hfoot : (⟨fun n q => q ∈ (Ex.bproc n).input, fun n q => Ex.bwrites n q = true⟩ : Footprint Str)
      = filesOf Ex.bproc := by
    unfold filesOf Ex.bwrites
    simp
  rw [hfoot] at W1 W2
  refine ⟨fun i => Ex.dated Ex.bfs0 (contents Ex.bwrites Ex.bcommands
      (fun q => (Ex.bfs0 q).map PFile.content) (exec (Ex.bcfg true Ex.bfs0) Ex.bmoves).trace i).1,
    fun i => Ex.dated Ex.bfs0 (contents Ex.bwrites Ex.bcommands
      (fun q => (Ex.bfs0 q).map PFile.content) (exec Ex.bcfg2 Ex.bmoves2).trace i).1,
    ?_, ?_, f1, f2, Ex.bplan _, Ex.bcommands_within, ?_, ?_, ?_⟩
  · funext q; exact if_pos rfl
  · funext q; exact if_pos rfl
  · simp only [Ex.dated_content]; exact W1
  · simp only [Ex.dated_content]; exact W2
  · rw [Ex.dated_content]; decide +kernel

namespace Ex

/-- 2 and 3 are kept apart by resource 8, but not ordered; 1 and 2 share resource 9 -/
def clash (tc : Nat) : Cfg :=
  { dag := { nodes := [1, 2, 3], edges := [], name := fun _ => [], task := fun n => n }
    resources := fun n => if n = 1 then [9] else if n = 2 then [8, 9] else [8]
    hasJob := fun _ => true
    ask := fun _ => .answer { invalidated := true, log := [] }
    outcome := fun _ => ret 0 []
    threadCount := tc }

theorem clash_wf (tc : Nat) : (clash tc).dag.WF := by
  constructor
  · show [1, 2, 3].Nodup; decide
  · intro e he; cases he

/-- 2 and 3 both write place 0 -/
def clashBy (n : Node) (q : Nat) : Bool := n ≠ 1 && q == 0

def clashCommands : Commands Nat Nat :=
  { effect := fun n _ _ => n
    outcome := fun _ _ => ret 0 [] }

def clashMoves : List Move :=
  List.replicate 20 .ctl ++ work ++ List.replicate 20 .ctl ++ work ++ List.replicate 4 .ctl

end Ex

/-- **C123** needs the order.  Tasks 2 and 3 write the same place and share a resource, so they are never
executed at the same time; but on the control thread 3 comes last, and with two threads 2 does. -/
theorem C123_resource_counterexample : ∃ (A : Footprint Nat) (J : Commands Nat Nat) (C1 C2 : Cfg)
    (ms1 ms2 : List Move) (cont1 cont2 : Nat → Nat → Nat),
    C1.dag.WF ∧ C2.dag = C1.dag ∧ C2.ask = C1.ask ∧ C2.resources = C1.resources ∧ J.Within A ∧
    (∀ n ∈ C1.dag.nodes, ∀ m ∈ C1.dag.nodes, n ≠ m → ∀ q, A.Touches n q → A.writes m q →
      ∃ r ∈ C1.resources n, r ∈ C1.resources m) ∧
    (exec C1 ms1).phase = .finished ∧ (exec C2 ms2).phase = .finished ∧
    Workspace A J C1.outcome (exec C1 ms1).trace cont1 ∧
    Workspace A J C2.outcome (exec C2 ms2).trace cont2 ∧
    (∀ q, cont1 0 q = cont2 0 q) ∧
    cont1 (exec C1 ms1).trace.length 0 = 3 ∧ cont2 (exec C2 ms2).trace.length 0 = 2 := by
  have f1 : (exec (Ex.clash 0) (List.replicate 21 .ctl)).phase = .finished := by decide +kernel
  have f2 : (exec (Ex.clash 2) Ex.clashMoves).phase = .finished := by decide +kernel
  refine ⟨⟨fun _ _ => False, fun n q => Ex.clashBy n q = true⟩, Ex.clashCommands, Ex.clash 0, Ex.clash 2,
    List.replicate 21 .ctl, Ex.clashMoves, _, _, Ex.clash_wf 0, rfl, rfl, rfl,
    ⟨fun _ _ _ _ _ _ => rfl, fun _ _ _ _ => rfl⟩, ?_, f1, f2,
    contents_workspace (fun _ _ => False) Ex.clashBy Ex.clashCommands (Ex.clash 0) (Ex.clash_wf 0)
      (fun _ _ => rfl) _ f1 fun _ => 0,
    contents_workspace (fun _ _ => False) Ex.clashBy Ex.clashCommands (Ex.clash 2) (Ex.clash_wf 2)
      (fun _ _ => rfl) _ f2 fun _ => 0, fun _ => rfl, by decide +kernel, by decide +kernel⟩
  intro n hn m hm hne q hq hw
  have hn' : n ∈ [1, 2, 3] := hn
  have hm' : m ∈ [1, 2, 3] := hm
  refine ⟨8, ?_⟩
  simp only [List.mem_cons, List.not_mem_nil, or_false] at hn' hm'
  rcases hn' with rfl | rfl | rfl <;> rcases hm' with rfl | rfl | rfl <;>
    simp_all [Footprint.Touches, Ex.clashBy, Ex.clash]

/-- two jobs executing at the same time -/
example : ∃ k, Running ((exec (Ex.clash 2) Ex.clashMoves).trace.take k) 1 ∧
    Running ((exec (Ex.clash 2) Ex.clashMoves).trace.take k) 3 ∧
    (⟨fun _ _ => False, fun n q => n = q⟩ : Footprint Nat).RaceFree (Ex.clash 2).dag := by
  refine ⟨20, ⟨⟨false, by decide +kernel⟩, by unfold JobEnded; decide +kernel⟩,
    ⟨⟨false, by decide +kernel⟩, by unfold JobEnded; decide +kernel⟩, ?_⟩
  rintro n _ m _ hne q (h | h) hw
  · exact absurd h id
  · exact absurd (h.trans hw.symm) hne

end Joque
