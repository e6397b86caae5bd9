import Mathlib.Logic.Function.Basic
import Verif.Model.Config

/-!
Model of a run of `hycu-threaded`: the main loop (src/executables/threaded.cc l.131-151), `StandaloneWorkerPool`
(src/worker_pool/standalone.cc, standalone.hh), `ThreadPool` (src/threaded/thread_pool.cc) and `Thread`
(src/threaded/thread.cc), as a machine that makes one step of one thread at a time.

A step is what happens inside one critical section, together with what the thread does on its own before the next
one.  The computation of a block is a parameter of the machine (it only touches data of the thread).  `throw;` outside
of a handler ends the program and is modelled by `abort`.  Not modelled: the exception for an expired pool (the pool
lives until all threads are joined) and errors of the operating system.
-/

namespace Hycu
namespace Run

/-- The tables of a thread: they are determined by the configuration; `serial` tells apart the tables made by
different calls of `update_config`. -/
structure Tables where
  cfg : ConfigNode
  serial : Nat
deriving DecidableEq

/-- An entry of `Thread::blocks` (src/threaded/thread.hh l.94-96): a block, and pointers to tables, which are null
before the first `update_config`. -/
structure Job where
  block : Block
  tables : Option Tables
deriving DecidableEq

/-- Where a worker thread is in `main_thread` (src/threaded/thread.cc l.50-106). -/
inductive Phase where
  /-- before the test of the flags, l.61 -/
  | check
  /-- decided to wait, but not waiting yet: between l.64 and l.70 -/
  | wait
  /-- waiting for a notification, l.70 -/
  | sleep
  /-- before taking a block from the queue, l.80 -/
  | pop
  /-- computing a block, l.86-93 -/
  | compute (j : Job)
  /-- results are flushed, but the block is not yet reported, l.96 -/
  | report (j : Job)
  /-- returned, l.67 -/
  | done
deriving DecidableEq

/-- `Thread` (src/threaded/thread.hh l.55-97). -/
structure Thread where
  opencl : Bool
  tables : Option Tables
  queue : List Job
  stop : Bool
  phase : Phase
deriving DecidableEq

/-- `ThreadPool` (src/threaded/thread_pool.hh l.43-79); threads are given by their index in `threads`. -/
structure ThreadPool where
  idle : List Nat
  ready : List Nat
  busy : OMap Block Nat
  finished : List Block

namespace ThreadPool

/-- `assign` up to the call of `Thread::assign` (src/threaded/thread_pool.cc l.91-115): the pool afterwards and the
thread that gets the block.  Taking a thread from an empty queue is undefined. -/
def assign (isOpencl : Nat → Bool) (p : ThreadPool) (block : Block) (opencl : Bool) : Res (ThreadPool × Nat) :=
  match (if opencl then p.idle.head? else p.idle.getLast?) with
  | none => .ub
  | some t =>
    if isOpencl t = opencl then
      .ok ({ p with idle := if opencl then p.idle.tail else p.idle.dropLast, busy := p.busy.set block t }, t)
    else .abort

/-- `finished_block` (src/threaded/thread_pool.cc l.119-136). -/
def finishedBlock (p : ThreadPool) (block : Block) : Res ThreadPool :=
  match p.busy.find? block with
  | none => .abort
  | some t => .ok { p with ready := p.ready ++ [t], finished := p.finished ++ [block], busy := p.busy.erase block }

/-- Loop of `flush_ready_threads` (src/threaded/thread_pool.cc l.147-157): idle threads, numbers of CPU and OpenCL
threads. -/
def flushReadyLoop (isOpencl : Nat → Bool) : List Nat → List Nat → Nat → Nat → List Nat × Nat × Nat
  | [], idle, cpu, ocl => (idle, cpu, ocl)
  | t :: ts, idle, cpu, ocl =>
    if isOpencl t then flushReadyLoop isOpencl ts (t :: idle) cpu (u32 (ocl + 1))
    else flushReadyLoop isOpencl ts (idle ++ [t]) (u32 (cpu + 1)) ocl

/-- `flush_ready_threads` (src/threaded/thread_pool.cc l.138-162). -/
def flushReady (isOpencl : Nat → Bool) (p : ThreadPool) : ThreadPool × Nat × Nat :=
  let r := flushReadyLoop isOpencl p.ready p.idle 0 0
  ({ p with idle := r.1, ready := [] }, r.2)

end ThreadPool

/-- `FileStore` (src/store/file_store.hh l.44-123). -/
structure FileStoreObj where
  config : ConfigNode
  valid : Bool
  initial : OSet Block

/-- The calls that the main function makes (src/executables/threaded.cc l.136-148): a new configuration is verified
and passed to `update_config`, or a block is assigned. -/
inductive Cmd where
  | config (c : ConfigNode)
  | assign (b : Block)
deriving DecidableEq

/-- What the main thread does after the current call of `wait_for_assigned_blocks` or
`save_global_stores_to_file`: continue in `update_config`, in `assign`, or in the destructor. -/
inductive Cont where
  | config
  | assign
  | exit
deriving DecidableEq

/-- Where the main thread is.  The call that it executes is the head of the list of calls to be made, until the block
is passed on or the configuration is set. -/
inductive Pc where
  /-- src/executables/threaded.cc l.136-148 -/
  | main
  /-- in `wait_for_assigned_blocks`, src/worker_pool/standalone.cc l.151 -/
  | wait (k : Cont)
  /-- in `save_global_stores_to_file`, l.165 -/
  | save (k : Cont)
  /-- in `FileStore::save`, files are still to be written (src/store/file_store.cc l.72) -/
  | write (ws : List (List Char × List Char)) (k : Cont)
  /-- in `update_config`, l.69 -/
  | newStore
  /-- in `update_config`, l.70 -/
  | update
  /-- in `assign`, l.81 -/
  | contains
  /-- in `fill_idle_queues`, l.107 -/
  | fillFinished
  /-- in `fill_idle_queues`, l.109 -/
  | fillReady
  /-- in `assign`, l.88 -/
  | take
  /-- in `Thread::assign`, src/threaded/thread.cc l.131 -/
  | notify (i : Nat) (b : Block)
  /-- in `assign`, l.97 -/
  | insert (b : Block)
  /-- in `Thread::shutdown`, src/threaded/thread.cc l.42 -/
  | shutdown (i : Nat)
  /-- in `Thread::shutdown`, src/threaded/thread.cc l.46 -/
  | shutNotify (i : Nat)
  /-- in `Thread::shutdown`, src/threaded/thread.cc l.47 -/
  | join (i : Nat)
  /-- the destructor has returned -/
  | finished
deriving DecidableEq

/-- What happened, for the statement of properties only. -/
inductive Event where
  | config (t : Tables)
  | assigned (i : Nat) (j : Job)
  | taken (i : Nat) (j : Job)
  | flushed (i : Nat) (j : Job)
  | reported (i : Nat) (j : Job)
  | erased (j : Job)
  /-- the static store is emptied, in order to be written to a directory; `none` if it is not written anywhere -/
  | saved (path : Option (List Char)) (s : Store.Static)

/-- State of a run.  `log` (newest event first), `current` and `serial` are not part of the program: the events so
far, the tables made by the last `update_config`, the number of calls of `update_config`. -/
structure State where
  size : Nat
  thr : Nat → Thread
  pool : ThreadPool
  static : Store.Static
  fs : FileSystem
  nmbCpu : Nat
  nmbOpencl : Nat
  assigned : OSet Block
  fileStore : Option FileStoreObj
  pc : Pc
  todo : List Cmd
  serial : Nat
  current : Option Tables
  log : List Event

/-- The computation of a block (src/threaded/thread.cc l.86-92) for the tables of a configuration: the entries of the
local store. -/
structure Env where
  compute : ConfigNode → Block → Res StoreMap

/-- Change a thread. -/
def State.setThread (st : State) (i : Nat) (t : Thread) : State := { st with thr := Function.update st.thr i t }

/-- Steps of a worker thread (src/threaded/thread.cc l.50-106); `none` if the thread cannot make a step. -/
def threadStep (env : Env) (st : State) (i : Nat) : Res (Option State) :=
  let t := st.thr i
  match t.phase with
  | .check =>
    if t.stop then .ok (some (st.setThread i { t with phase := .done }))
    else if t.queue = [] then .ok (some (st.setThread i { t with phase := .wait }))
    else .ok (some (st.setThread i { t with phase := .pop }))
  | .wait => .ok (some (st.setThread i { t with phase := .sleep }))
  | .sleep => .ok none
  | .pop =>
    match t.queue with
    | [] => .ub
    | j :: q =>
      .ok (some { st.setThread i { t with queue := q, phase := .compute j } with log := .taken i j :: st.log })
  | .compute j =>
    match j.tables with
    | none => .ub
    | some tb => do
      let m ← env.compute tb.cfg j.block
      let p ← Store.flushToStatic st.static m j.block
      pure (some { st.setThread i { t with phase := .report j } with
        static := p.1, log := .flushed i j :: st.log })
  | .report j => do
    let p ← st.pool.finishedBlock j.block
    pure (some { st.setThread i { t with phase := .check } with pool := p, log := .reported i j :: st.log })
  | .done => .ok none

/-- `notify_one` or `notify_all` on the condition variable of a thread, for which only this thread waits; also a
spurious wake-up.  Without effect unless the thread waits. -/
def wake (st : State) (i : Nat) : State :=
  if (st.thr i).phase = .sleep then st.setThread i { st.thr i with phase := .check } else st

/-- `finished_block` for all finished blocks (src/worker_pool/standalone.cc l.120-145). -/
def eraseFinished : List Block → OSet Block → Res (OSet Block)
  | [], a => .ok a
  | b :: bs, a => if OSet.contains a b then eraseFinished bs (OSet.erase a b) else .abort

/-- `flush_finished_blocks` (src/worker_pool/standalone.cc l.120-127, src/threaded/thread_pool.cc l.164-170). -/
def flushFinished (st : State) : Res State := do
  let a ← eraseFinished st.pool.finished st.assigned
  pure { st with assigned := a, pool := { st.pool with finished := [] },
                 log := (st.pool.finished.map fun b => Event.erased ⟨b, st.current⟩).reverse ++ st.log }

/-- What follows after `save_global_stores_to_file`. -/
def afterSave : Cont → Pc
  | .config => .newStore
  | .assign => .contains
  | .exit => .shutdown 0

/-- `save_global_stores_to_file` up to the first write (src/worker_pool/standalone.cc l.161-171,
src/store/file_store.cc l.59-70): without file store nothing happens; the static store is emptied even if the file
store is invalid or the directory has disappeared. -/
def saveStep (st : State) (id : Nat) (k : Cont) : Option State :=
  match st.fileStore with
  | none => some { st with pc := afterSave k }
  | some f =>
    let p := Store.flushStatic st.static
    if f.valid then
      match st.fs f.config.resultPath with
      | none => some { st with static := p.2, pc := afterSave k, log := .saved none st.static :: st.log }
      | some d =>
        if FileStore.fresh d id then
          some { st with static := p.2, pc := .write (FileStore.saveWrites id p.1) k,
                         log := .saved (some f.config.resultPath) st.static :: st.log }
        else none
    else some { st with static := p.2, pc := afterSave k, log := .saved none st.static :: st.log }

/-- One write in `FileStore::save` (src/store/file_store.cc l.72-73). -/
def writeStep (st : State) (n c : List Char) (ws : List (List Char × List Char)) (k : Cont) : State :=
  match st.fileStore with
  | none => { st with pc := .write ws k }
  | some f =>
    match st.fs f.config.resultPath with
    | none => { st with pc := .write ws k }
    | some d => { st with fs := st.fs.set f.config.resultPath (d.write n c), pc := .write ws k }

/-- The constructor of `FileStore` in `update_config` (src/store/file_store.cc l.37-57, src/worker_pool/standalone.cc
l.69). -/
def newStoreStep (st : State) (c : ConfigNode) : Res State :=
  match st.fs c.resultPath with
  | none => .ok { st with fileStore := some ⟨c, false, []⟩, pc := .update }
  | some d => do
    let r ← FileStore.initialRecord d
    pure { st with fileStore := some ⟨c, true, r⟩, pc := .update }

/-- `ThreadPool::update_config` (src/threaded/thread_pool.cc l.81-89, src/threaded/thread.cc l.108-119).  The worker
threads never read these members, so that this is one step. -/
def updateStep (st : State) (c : ConfigNode) (rest : List Cmd) : State :=
  let tb : Tables := ⟨c, st.serial⟩
  { st with thr := fun i => { st.thr i with tables := some tb }, serial := st.serial + 1, current := some tb,
            log := .config tb :: st.log, todo := rest, pc := .main }

/-- `contains` and the test in front of `fill_idle_queues` (src/worker_pool/standalone.cc l.81-86).  Without file
store a null pointer is used. -/
def containsStep (st : State) (b : Block) (rest : List Cmd) : Res State :=
  match st.fileStore with
  | none => .ub
  | some f =>
    if FileStore.contains f.initial b then .ok { st with todo := rest, pc := .main }
    else if st.nmbOpencl = 0 then .ok { st with pc := .fillFinished }
    else .ok { st with pc := .take }

/-- `flush_ready_threads` in `fill_idle_queues` (src/worker_pool/standalone.cc l.109-116). -/
def fillReadyStep (st : State) : State :=
  let r := st.pool.flushReady fun i => (st.thr i).opencl
  let cpu := u32 (st.nmbCpu + r.2.1)
  let ocl := u32 (st.nmbOpencl + r.2.2)
  { st with pool := r.1, nmbCpu := cpu, nmbOpencl := ocl,
            pc := if cpu = 0 ∧ ocl = 0 then .fillFinished else .take }

/-- Pushing the job in `Thread::assign` (src/threaded/thread.cc l.127-129). -/
def pushJob (st : State) (i : Nat) (b : Block) : State :=
  let t := st.thr i
  let j : Job := ⟨b, t.tables⟩
  { st.setThread i { t with queue := t.queue ++ [j] } with log := .assigned i j :: st.log, pc := .notify i b }

/-- The second part of `assign` (src/worker_pool/standalone.cc l.88-95). -/
def takeStep (st : State) (b : Block) (rest : List Cmd) : Res State :=
  if st.nmbOpencl ≠ 0 then do
    let p ← st.pool.assign (fun i => (st.thr i).opencl) b true
    pure (pushJob { st with nmbOpencl := u32sub st.nmbOpencl 1, pool := p.1, todo := rest } p.2 b)
  else do
    let p ← st.pool.assign (fun i => (st.thr i).opencl) b false
    pure (pushJob { st with nmbCpu := u32sub st.nmbCpu 1, pool := p.1, todo := rest } p.2 b)

/-- Choices outside of the control of the program: whether it is time for a delayed save
(src/worker_pool/standalone.hh l.66-73), whether `create_directories` succeeds, the random id for file names. -/
structure Choice where
  saveNow : Bool
  create : Bool
  id : Nat

/-- Start of a call from the main loop (src/executables/threaded.cc l.136-148): at the end of the list, or if the
configuration is not accepted, the destructor is called. -/
def mainStep (st : State) (ch : Choice) : Res State :=
  match st.todo with
  | [] => .ok { st with pc := .wait .exit }
  | .config c :: _ => do
    let v ← c.verify st.fs (.ok ch.create)
    pure { st with fs := v.1, pc := if v.2 then .wait .config else .wait .exit }
  | .assign _ :: _ => .ok { st with pc := if ch.saveNow then .save .assign else .contains }

/-- One turn of the loop in `wait_for_assigned_blocks` (src/worker_pool/standalone.cc l.147-159). -/
def waitStep (st : State) (k : Cont) : Res State := do
  let st' ← flushFinished st
  pure { st' with pc := if st'.assigned = [] then .save k else .wait k }

/-- Steps of the main thread; `none` if it has to wait. -/
def masterStep (st : State) (ch : Choice) : Res (Option State) :=
  match st.pc with
  | .main => some <$> mainStep st ch
  | .wait k => some <$> waitStep st k
  | .save k => .ok (saveStep st ch.id k)
  | .write [] k => .ok (some { st with pc := afterSave k })
  | .write ((n, c) :: ws) k => .ok (some (writeStep st n c ws k))
  | .newStore =>
    match st.todo with
    | .config c :: _ => some <$> newStoreStep st c
    | _ => .ok none
  | .update =>
    match st.todo with
    | .config c :: rest => .ok (some (updateStep st c rest))
    | _ => .ok none
  | .contains =>
    match st.todo with
    | .assign b :: rest => some <$> containsStep st b rest
    | _ => .ok none
  | .fillFinished => do
    let st' ← flushFinished st
    pure (some { st' with pc := .fillReady })
  | .fillReady => .ok (some (fillReadyStep st))
  | .take =>
    match st.todo with
    | .assign b :: rest => some <$> takeStep st b rest
    | _ => .ok none
  | .notify i b => .ok (some { wake st i with pc := .insert b })
  | .insert b => .ok (some { st with assigned := OSet.insert st.assigned b, pc := .main })
  | .shutdown i =>
    if i < st.size then
      .ok (some { st.setThread i { st.thr i with stop := true } with pc := .shutNotify i })
    else .ok (some { st with pc := .finished })
  | .shutNotify i => .ok (some { wake st i with pc := .join i })
  | .join i => if (st.thr i).phase = .done then .ok (some { st with pc := .shutdown (i + 1) }) else .ok none
  | .finished => .ok none

/-- Who makes a step: a worker thread, the main thread, or a waiting thread wakes up without being notified. -/
inductive Label where
  | thread (i : Nat)
  | master (ch : Choice)
  | spurious (i : Nat)

/-- One step of the machine; `none` if this step is not possible. -/
def step (env : Env) (st : State) : Label → Res (Option State)
  | .thread i => if i < st.size then threadStep env st i else .ok none
  | .master ch => masterStep st ch
  | .spurious i => if i < st.size ∧ (st.thr i).phase = .sleep then .ok (some (wake st i)) else .ok none

/-- The kinds of the threads made by `spark_threads` (src/threaded/thread_pool.cc l.48-63); `true` for OpenCL.
`devices` is 0 without OpenCL. -/
def sparkKinds (devices threadsPerGpu hardware : Nat) (nmbWorking : Int) : List Bool :=
  let nmb := if nmbWorking < 0 then hardware else nmbWorking.toNat
  List.replicate (devices * threadsPerGpu) true ++
    List.replicate (nmb - devices * threadsPerGpu / 8) false

/-- The state after the constructor of `StandaloneWorkerPool` (src/worker_pool/standalone.cc l.39-49,
src/threaded/thread_pool.cc l.66-69): all threads have been started and are ready. -/
def initial (kinds : List Bool) (fs : FileSystem) (todo : List Cmd) : State where
  size := kinds.length
  thr i := ⟨kinds[i]?.getD false, none, [], false, .check⟩
  pool := ⟨[], List.range kinds.length, [], []⟩
  static := ⟨[], []⟩
  fs := fs
  nmbCpu := 0
  nmbOpencl := 0
  assigned := []
  fileStore := none
  pc := .main
  todo := todo
  serial := 0
  current := none
  log := []

/-- States that can be reached. -/
inductive Reachable (env : Env) (st₀ : State) : State → Prop
  | refl : Reachable env st₀ st₀
  | step {st st' : State} (l : Label) (h : Reachable env st₀ st) (hs : Run.step env st l = .ok (some st')) :
      Reachable env st₀ st'

end Run
end Hycu
