import Verif.Model.Pool

/-!
Model of a run of `hycu-mpi`: the main loop (src/executables/mpi.cc l.144-159), `MPIWorkerPool`
(src/worker_pool/mpi.cc, mpi.hh) in process 0, `main_mpi_worker` (src/worker_pool/mpi_worker.cc) in the other
processes, and in each process a `ThreadPool` with its threads.  As for `hycu-threaded` (`Verif.Model.Pool`), the
machine makes one step of one thread of one process at a time.

Messages: MPI delivers the messages between two processes in the order in which they were sent.  A worker probes for
any message, so that it receives all messages of the master in this order.  The master receives messages with a given
tag, so that there is one queue of replies for each tag.  Messages arrive unchanged (see `Verif.Model.Config` for
the serialization).  Sending does not block here; main threads that wait in `send` are in `Verif.Spec.MpiSends`.  The
static store belongs to a process.  The mutex `mpi_mutex` has no effect, because only the main thread uses it.
-/

namespace Hycu
namespace Mpi

open Run (Tables Job Phase Thread ThreadPool FileStoreObj Cmd Cont Choice Env eraseFinished)

/-- Messages from the master to a worker (src/worker_pool/mpi.hh l.104-114).  Messages that only have a tag are sent
with a value `true`, which is ignored. -/
inductive Msg where
  | config (c : ConfigNode)
  | assign (opencl : Bool) (b : Block)
  | finishedBlocks
  | readyThreads
  | save
  | shutdown
deriving DecidableEq

/-- Where the main thread of a worker is (src/worker_pool/mpi_worker.cc l.50-114). -/
inductive WorkerPc where
  /-- waiting for a message, l.51 -/
  | probe
  /-- in `Thread::assign`, src/threaded/thread.cc l.131 -/
  | notify (i : Nat)
  /-- in `Thread::shutdown`, src/threaded/thread.cc l.42 -/
  | shutdown (i : Nat)
  /-- in `Thread::shutdown`, src/threaded/thread.cc l.46 -/
  | shutNotify (i : Nat)
  /-- in `Thread::shutdown`, src/threaded/thread.cc l.47 -/
  | join (i : Nat)
  /-- l.116 -/
  | returned
deriving DecidableEq

/-- A process: its threads, its `ThreadPool`, its static store, messages that have been sent to it but are not yet
received, messages that it has sent but are not yet received by the master, and where its main thread is (not used for
process 0, which neither receives nor sends these messages).  `serial` and `current` are not part of the program: the
number of calls of `update_config` and the tables made by the last one. -/
structure Proc where
  size : Nat
  thr : Nat → Thread
  pool : ThreadPool
  static : Store.Static
  inbox : List Msg
  finishedOut : List (List Block)
  readyOut : List (Nat × Nat)
  saveOut : List (List Char × List Char)
  pc : WorkerPc
  serial : Nat
  current : Option Tables

namespace Proc

/-- Change a thread. -/
def setThread (p : Proc) (i : Nat) (t : Thread) : Proc := { p with thr := Function.update p.thr i t }

/-- Steps of a worker thread (src/threaded/thread.cc l.50-106); `none` if the thread cannot make a step. -/
def threadStep (env : Env) (p : Proc) (i : Nat) : Res (Option Proc) :=
  let t := p.thr i
  match t.phase with
  | .check =>
    if t.stop then .ok (some (p.setThread i { t with phase := .done }))
    else if t.queue = [] then .ok (some (p.setThread i { t with phase := .wait }))
    else .ok (some (p.setThread i { t with phase := .pop }))
  | .wait => .ok (some (p.setThread i { t with phase := .sleep }))
  | .sleep => .ok none
  | .pop =>
    match t.queue with
    | [] => .ub
    | j :: q => .ok (some (p.setThread i { t with queue := q, phase := .compute j }))
  | .compute j =>
    match j.tables with
    | none => .ub
    | some tb => do
      let m ← env.compute tb.cfg j.block
      let r ← Store.flushToStatic p.static m j.block
      pure (some { p.setThread i { t with phase := .report j } with static := r.1 })
  | .report j => do
    let r ← p.pool.finishedBlock j.block
    pure (some { p.setThread i { t with phase := .check } with pool := r })
  | .done => .ok none

/-- `notify_one` or `notify_all` on the condition variable of a thread, for which only this thread waits; also a
spurious wake-up.  Without effect unless the thread waits. -/
def wake (p : Proc) (i : Nat) : Proc :=
  if (p.thr i).phase = .sleep then p.setThread i { p.thr i with phase := .check } else p

/-- `ThreadPool::update_config` (src/threaded/thread_pool.cc l.81-89, src/threaded/thread.cc l.108-119). -/
def update (p : Proc) (c : ConfigNode) : Proc :=
  let tb : Tables := ⟨c, p.serial⟩
  { p with thr := fun i => { p.thr i with tables := some tb }, serial := p.serial + 1, current := some tb }

/-- `ThreadPool::assign` up to the notification in `Thread::assign` (src/threaded/thread_pool.cc l.91-116,
src/threaded/thread.cc l.127-129): also the thread to be notified. -/
def assign (p : Proc) (b : Block) (opencl : Bool) : Res (Proc × Nat) := do
  let r ← p.pool.assign (fun i => (p.thr i).opencl) b opencl
  let t := p.thr r.2
  pure ({ p.setThread r.2 { t with queue := t.queue ++ [⟨b, t.tables⟩] } with pool := r.1 }, r.2)

/-- `ThreadPool::flush_ready_threads` (src/threaded/thread_pool.cc l.138-162). -/
def flushReady (p : Proc) : Proc × Nat × Nat :=
  let r := p.pool.flushReady fun i => (p.thr i).opencl
  ({ p with pool := r.1 }, r.2)

/-- `ThreadPool::flush_finished_blocks` (src/threaded/thread_pool.cc l.164-170). -/
def flushFinished (p : Proc) : Proc × List Block := ({ p with pool := { p.pool with finished := [] } }, p.pool.finished)

/-- `ThreadPool::flush_global_store` (src/threaded/thread_pool.hh l.61-66). -/
def flushStatic (p : Proc) : Proc × (List Char × List Char) :=
  let r := Store.flushStatic p.static
  ({ p with static := r.2 }, r.1)

/-- Set the flag in `Thread::shutdown` (src/threaded/thread.cc l.42-44). -/
def stop (p : Proc) (i : Nat) : Proc := p.setThread i { p.thr i with stop := true }

/-- A message is sent to the process. -/
def send (p : Proc) (m : Msg) : Proc := { p with inbox := p.inbox ++ [m] }

/-- A worker handles a message (src/worker_pool/mpi_worker.cc l.53-108), which has been removed from the queue. -/
def handle (p : Proc) : Msg → Res Proc
  | .config c => .ok (p.update c)
  | .assign opencl b => do
    let r ← p.assign b opencl
    pure { r.1 with pc := .notify r.2 }
  | .readyThreads =>
    let r := p.flushReady
    .ok { r.1 with readyOut := r.1.readyOut ++ [r.2] }
  | .save =>
    let r := p.flushStatic
    .ok { r.1 with saveOut := r.1.saveOut ++ [r.2] }
  | .finishedBlocks =>
    let r := p.flushFinished
    .ok { r.1 with finishedOut := r.1.finishedOut ++ [r.2] }
  | .shutdown => .ok { p with pc := .shutdown 0 }

/-- Steps of the main thread of a worker; `none` if it has to wait. -/
def workerStep (p : Proc) : Res (Option Proc) :=
  match p.pc with
  | .probe =>
    match p.inbox with
    | [] => .ok none
    | m :: ms => some <$> { p with inbox := ms }.handle m
  | .notify i => .ok (some { p.wake i with pc := .probe })
  | .shutdown i =>
    if i < p.size then .ok (some { p.stop i with pc := .shutNotify i }) else .ok (some { p with pc := .returned })
  | .shutNotify i => .ok (some { p.wake i with pc := .join i })
  | .join i => if (p.thr i).phase = .done then .ok (some { p with pc := .shutdown (i + 1) }) else .ok none
  | .returned => .ok none

end Proc

/-- The caller of `flush_finished_blocks`: `wait_for_assigned_blocks` or `fill_idle_queues`. -/
inductive Caller where
  | wait (k : Cont)
  | fill
deriving DecidableEq

/-- Where the main thread of the master is.  The call that it executes is the head of the list of calls to be made,
until the block is passed on or the configuration is set.  Without further notice, lines refer to
src/worker_pool/mpi.cc. -/
inductive Pc where
  /-- src/executables/mpi.cc l.144-157 -/
  | main
  /-- in `flush_finished_blocks`, l.195 -/
  | flush (c : Caller)
  /-- in `flush_finished_blocks`, l.200 -/
  | flushSend (ix : Nat) (c : Caller)
  /-- in `flush_finished_blocks`, l.203 -/
  | flushRecv (ix : Nat) (c : Caller)
  /-- in `wait_for_assigned_blocks`, l.236 -/
  | waited (k : Cont)
  /-- in `fill_idle_queues`, l.165 -/
  | ready
  /-- in `fill_idle_queues`, l.173 -/
  | readySend (ix : Nat)
  /-- in `fill_idle_queues`, l.175 -/
  | readyRecv (ix : Nat)
  /-- in `fill_idle_queues`, l.184 -/
  | filled
  /-- in `save_global_stores_to_file`, l.250 -/
  | save (k : Cont)
  /-- in `save_global_stores_to_file`, l.257 -/
  | saveSend (ix : Nat) (k : Cont)
  /-- in `save_global_stores_to_file`, l.262 -/
  | saveRecv (ix : Nat) (k : Cont)
  /-- in `FileStore::save`, files of process `ix` are still to be written (src/store/file_store.cc l.72) -/
  | write (ws : List (List Char × List Char)) (ix : Nat) (k : Cont)
  /-- in `update_config`, l.106 -/
  | newStore
  /-- in `update_config`, l.107 -/
  | update
  /-- in `update_config`, l.110 -/
  | configSend (ix : Nat)
  /-- in `assign`, l.122 -/
  | contains
  /-- in `assign`, l.130 -/
  | take
  /-- in `Thread::assign`, src/threaded/thread.cc l.131 -/
  | notify (i : Nat) (b : Block)
  /-- in `assign`, l.153 -/
  | insert (ix : Nat) (b : Block)
  /-- in the destructor, l.76 -/
  | stopSend (ix : Nat)
  /-- in `Thread::shutdown`, src/threaded/thread.cc l.42 -/
  | shutdown (i : Nat)
  /-- in `Thread::shutdown`, src/threaded/thread.cc l.46 -/
  | shutNotify (i : Nat)
  /-- in `Thread::shutdown`, src/threaded/thread.cc l.47 -/
  | join (i : Nat)
  /-- the destructor has returned -/
  | finished
deriving DecidableEq

/-- State of a run with `nprocs` processes. -/
structure State where
  nprocs : Nat
  procs : Nat → Proc
  fs : FileSystem
  cpuQueue : List Nat
  openclQueue : List Nat
  assigned : Nat → OSet Block
  fileStore : Option FileStoreObj
  pc : Pc
  todo : List Cmd

/-- Change a process. -/
def State.setProc (st : State) (ix : Nat) (p : Proc) : State := { st with procs := Function.update st.procs ix p }

/-- Send a message to a process. -/
def State.send (st : State) (ix : Nat) (m : Msg) : State := st.setProc ix ((st.procs ix).send m)

/-- `finished_block` for the blocks reported by a process (l.196-197, l.204-205, l.209-226). -/
def finishedBlocks (st : State) (ix : Nat) (bs : List Block) : Res State := do
  let a ← eraseFinished bs (st.assigned ix)
  pure { st with assigned := Function.update st.assigned ix a }

/-- What follows after `flush_finished_blocks`. -/
def afterFlush : Caller → Pc
  | .wait k => .waited k
  | .fill => .ready

/-- What follows after `save_global_stores_to_file`. -/
def afterSave : Cont → Pc
  | .config => .newStore
  | .assign => .contains
  | .exit => .stopSend 1

/-- Start of a call from the main loop (src/executables/mpi.cc l.144-157): at the end of the list, or if the
configuration is not accepted, the destructor is called. -/
def mainStep (st : State) (ch : Choice) : Res State :=
  match st.todo with
  | [] => .ok { st with pc := .flush (.wait .exit) }
  | .config c :: _ => do
    let v ← c.verify st.fs (.ok ch.create)
    pure { st with fs := v.1, pc := if v.2 then .flush (.wait .config) else .flush (.wait .exit) }
  | .assign _ :: _ => .ok { st with pc := if ch.saveNow then .save .assign else .contains }

/-- The beginning of `flush_finished_blocks` (l.195-197): the pool of the master. -/
def flushStep (st : State) (c : Caller) : Res State := do
  let r := (st.procs 0).flushFinished
  let st' ← finishedBlocks (st.setProc 0 r.1) 0 r.2
  pure { st' with pc := .flushSend 1 c }

/-- The reply of a process in `flush_finished_blocks` (l.203-205). -/
def flushRecvStep (st : State) (ix : Nat) (c : Caller) : Res (Option State) :=
  match (st.procs ix).finishedOut with
  | [] => .ok none
  | bs :: rest => do
    let st' ← finishedBlocks (st.setProc ix { st.procs ix with finishedOut := rest }) ix bs
    pure (some { st' with pc := .flushSend (ix + 1) c })

/-- The test in `wait_for_assigned_blocks` (l.236-242).  Processes without entry in the map have no assigned blocks. -/
def waitedStep (st : State) (k : Cont) : State :=
  { st with pc := if ∀ ix ∈ List.range st.nprocs, st.assigned ix = [] then .save k else .flush (.wait k) }

/-- Idle threads of a process are added to the queues (l.166-169, l.177-180). -/
def pushIdle (st : State) (ix : Nat) (n : Nat × Nat) : State :=
  { st with cpuQueue := st.cpuQueue ++ List.replicate n.1 ix, openclQueue := st.openclQueue ++ List.replicate n.2 ix }

/-- `flush_ready_threads` in `fill_idle_queues` for the master (l.165-169). -/
def readyStep (st : State) : State :=
  let r := (st.procs 0).flushReady
  { pushIdle (st.setProc 0 r.1) 0 r.2 with pc := .readySend 1 }

/-- The reply of a process in `fill_idle_queues` (l.175-180). -/
def readyRecvStep (st : State) (ix : Nat) : Option State :=
  match (st.procs ix).readyOut with
  | [] => none
  | n :: rest =>
    some { pushIdle (st.setProc ix { st.procs ix with readyOut := rest }) ix n with pc := .readySend (ix + 1) }

/-- `FileStore::save` up to the first write (src/store/file_store.cc l.59-70) for the data of process `ix`; nothing
is written if the file store is invalid or the directory has disappeared. -/
def fileSave (st : State) (f : FileStoreObj) (id : Nat) (s : List Char × List Char) (ix : Nat) (k : Cont) :
    Option State :=
  if f.valid then
    match st.fs f.config.resultPath with
    | none => some { st with pc := .saveSend (ix + 1) k }
    | some d => if FileStore.fresh d id then some { st with pc := .write (FileStore.saveWrites id s) ix k } else none
  else some { st with pc := .saveSend (ix + 1) k }

/-- The first part of `save_global_stores_to_file` (l.250-255): the pool of the master. -/
def saveStep (st : State) (id : Nat) (k : Cont) : Option State :=
  match st.fileStore with
  | none => some { st with pc := afterSave k }
  | some f =>
    let r := (st.procs 0).flushStatic
    fileSave (st.setProc 0 r.1) f id r.2 0 k

/-- The reply of a process in `save_global_stores_to_file` (l.262-264).  Without file store a null pointer is used. -/
def saveRecvStep (st : State) (id : Nat) (ix : Nat) (k : Cont) : Res (Option State) :=
  match (st.procs ix).saveOut with
  | [] => .ok none
  | s :: rest =>
    match st.fileStore with
    | none => .ub
    | some f => .ok (fileSave (st.setProc ix { st.procs ix with saveOut := rest }) f id s ix k)

/-- One write in `FileStore::save` (src/store/file_store.cc l.72-73). -/
def writeStep (st : State) (n c : List Char) (ws : List (List Char × List Char)) (ix : Nat) (k : Cont) : State :=
  match st.fileStore with
  | none => { st with pc := .write ws ix k }
  | some f =>
    match st.fs f.config.resultPath with
    | none => { st with pc := .write ws ix k }
    | some d => { st with fs := st.fs.set f.config.resultPath (d.write n c), pc := .write ws ix k }

/-- The constructor of `FileStore` in `update_config` (src/store/file_store.cc l.37-57, l.106). -/
def newStoreStep (st : State) (c : ConfigNode) : Res State :=
  match st.fs c.resultPath with
  | none => .ok { st with fileStore := some ⟨c, false, []⟩, pc := .update }
  | some d => do
    let r ← FileStore.initialRecord d
    pure { st with fileStore := some ⟨c, true, r⟩, pc := .update }

/-- `contains` and the test in front of `fill_idle_queues` (l.122-127).  Without file store a null pointer is used. -/
def containsStep (st : State) (b : Block) (rest : List Cmd) : Res State :=
  match st.fileStore with
  | none => .ub
  | some f =>
    if FileStore.contains f.initial b then .ok { st with todo := rest, pc := .main }
    else if st.openclQueue = [] then .ok { st with pc := .flush .fill }
    else .ok { st with pc := .take }

/-- The block is passed to a process (l.134-139, l.145-150). -/
def passBlock (st : State) (ix : Nat) (b : Block) (opencl : Bool) : Res State :=
  if ix = 0 then do
    let r ← (st.procs 0).assign b opencl
    pure { st.setProc 0 r.1 with pc := .notify r.2 b }
  else .ok { st.send ix (.assign opencl b) with pc := .insert ix b }

/-- The second part of `assign` (l.129-151).  Taking a process from an empty queue is undefined. -/
def takeStep (st : State) (b : Block) (rest : List Cmd) : Res State :=
  match st.openclQueue with
  | ix :: q => passBlock { st with openclQueue := q, todo := rest } ix b true
  | [] =>
    match st.cpuQueue with
    | ix :: q => passBlock { st with cpuQueue := q, todo := rest } ix b false
    | [] => .ub

/-- Steps of the main thread of the master; `none` if it has to wait. -/
def masterStep (st : State) (ch : Choice) : Res (Option State) :=
  match st.pc with
  | .main => some <$> mainStep st ch
  | .flush c => some <$> flushStep st c
  | .flushSend ix c =>
    if ix < st.nprocs then .ok (some { st.send ix .finishedBlocks with pc := .flushRecv ix c })
    else .ok (some { st with pc := afterFlush c })
  | .flushRecv ix c => flushRecvStep st ix c
  | .waited k => .ok (some (waitedStep st k))
  | .ready => .ok (some (readyStep st))
  | .readySend ix =>
    if ix < st.nprocs then .ok (some { st.send ix .readyThreads with pc := .readyRecv ix })
    else .ok (some { st with pc := .filled })
  | .readyRecv ix => .ok (readyRecvStep st ix)
  | .filled => .ok (some { st with pc := if st.cpuQueue = [] ∧ st.openclQueue = [] then .flush .fill else .take })
  | .save k => .ok (saveStep st ch.id k)
  | .saveSend ix k =>
    if ix < st.nprocs then .ok (some { st.send ix .save with pc := .saveRecv ix k })
    else .ok (some { st with pc := afterSave k })
  | .saveRecv ix k => saveRecvStep st ch.id ix k
  | .write [] ix k => .ok (some { st with pc := .saveSend (ix + 1) k })
  | .write ((n, c) :: ws) ix k => .ok (some (writeStep st n c ws ix k))
  | .newStore =>
    match st.todo with
    | .config c :: _ => some <$> newStoreStep st c
    | _ => .ok none
  | .update =>
    match st.todo with
    | .config c :: _ => .ok (some { st.setProc 0 ((st.procs 0).update c) with pc := .configSend 1 })
    | _ => .ok none
  | .configSend ix =>
    match st.todo with
    | .config c :: rest =>
      if ix < st.nprocs then .ok (some { st.send ix (.config c) with pc := .configSend (ix + 1) })
      else .ok (some { st with todo := rest, pc := .main })
    | _ => .ok none
  | .contains =>
    match st.todo with
    | .assign b :: rest => some <$> containsStep st b rest
    | _ => .ok none
  | .take =>
    match st.todo with
    | .assign b :: rest => some <$> takeStep st b rest
    | _ => .ok none
  | .notify i b => .ok (some { st.setProc 0 ((st.procs 0).wake i) with pc := .insert 0 b })
  | .insert ix b =>
    .ok (some { st with assigned := Function.update st.assigned ix (OSet.insert (st.assigned ix) b), pc := .main })
  | .stopSend ix =>
    if ix < st.nprocs then .ok (some { st.send ix .shutdown with pc := .stopSend (ix + 1) })
    else .ok (some { st with pc := .shutdown 0 })
  | .shutdown i =>
    if i < (st.procs 0).size then .ok (some { st.setProc 0 ((st.procs 0).stop i) with pc := .shutNotify i })
    else .ok (some { st with pc := .finished })
  | .shutNotify i => .ok (some { st.setProc 0 ((st.procs 0).wake i) with pc := .join i })
  | .join i =>
    if ((st.procs 0).thr i).phase = .done then .ok (some { st with pc := .shutdown (i + 1) }) else .ok none
  | .finished => .ok none

/-- Who makes a step: a thread of a process, the main thread of the master, the main thread of a worker, or a waiting
thread wakes up without being notified. -/
inductive Label where
  | thread (ix i : Nat)
  | master (ch : Choice)
  | worker (ix : Nat)
  | spurious (ix i : Nat)

/-- One step of the machine; `none` if this step is not possible. -/
def step (env : Env) (st : State) : Label → Res (Option State)
  | .thread ix i =>
    if ix < st.nprocs ∧ i < (st.procs ix).size then do
      let p ← (st.procs ix).threadStep env i
      pure (p.map (st.setProc ix))
    else .ok none
  | .master ch => masterStep st ch
  | .worker ix =>
    if 0 < ix ∧ ix < st.nprocs then do
      let p ← (st.procs ix).workerStep
      pure (p.map (st.setProc ix))
    else .ok none
  | .spurious ix i =>
    if ix < st.nprocs ∧ i < (st.procs ix).size ∧ ((st.procs ix).thr i).phase = .sleep then
      .ok (some (st.setProc ix ((st.procs ix).wake i)))
    else .ok none

/-- A process after `spark_threads` (src/worker_pool/mpi.cc l.63-65, src/worker_pool/mpi_worker.cc l.46-47,
src/threaded/thread_pool.cc l.66-69); the kinds of its threads are given by `Run.sparkKinds`. -/
def Proc.initial (kinds : List Bool) : Proc where
  size := kinds.length
  thr i := ⟨kinds[i]?.getD false, none, [], false, .check⟩
  pool := ⟨[], List.range kinds.length, [], []⟩
  static := ⟨[], []⟩
  inbox := []
  finishedOut := []
  readyOut := []
  saveOut := []
  pc := .probe
  serial := 0
  current := none

/-- The state after the constructor of `MPIWorkerPool` (src/worker_pool/mpi.cc l.50-66) and the first part of
`main_mpi_worker` (src/worker_pool/mpi_worker.cc l.40-47).  The machines may have different numbers of threads. -/
def initial (kinds : List (List Bool)) (fs : FileSystem) (todo : List Cmd) : State where
  nprocs := kinds.length
  procs ix := Proc.initial (kinds[ix]?.getD [])
  fs := fs
  cpuQueue := []
  openclQueue := []
  assigned _ := []
  fileStore := none
  pc := .main
  todo := todo

/-- States that can be reached. -/
inductive Reachable (env : Env) (st₀ : State) : State → Prop
  | refl : Reachable env st₀ st₀
  | step {st st' : State} (l : Label) (h : Reachable env st₀ st) (hs : Mpi.step env st l = .ok (some st')) :
      Reachable env st₀ st'

end Mpi
end Hycu
