import Verif.Model.Locks
import Verif.Model.Mpi

/-!
The threads of `hycu-mpi` in small steps.

The machine in `Verif.Model.Mpi` makes a whole critical section in one step, and the main thread of a worker receives a
message, handles it and replies in one step.  The machine in the first part of this file makes three steps for this.
In the second part its steps are divided further, into the single accesses to shared variables, as it is done for
`hycu-threaded` in `Verif.Model.Locks`.

The processes do not share memory.  The queues of messages are inside of the MPI library: a message is appended or
removed as a whole, which is expressed by a mutex for each queue.  A thread that waits for a message looks for it
again and again.  `probe` and the following `recv` (src/worker_pool/mpi_worker.cc l.51, l.55) are one step, because no
other thread of the worker receives messages.
-/

namespace Hycu
namespace MpiLocks

open Mpi (Msg WorkerPc Proc)
open Run (Tables Job Phase FileStoreObj Cmd Choice Env)
open Locks (Instr System Config)

/-! ### Receive, handle, reply -/

/-- What the main thread of a worker has got between its calls of MPI functions: nothing, a message that has been received
and is to be handled, or a reply that is to be sent. -/
inductive Hand where
  | none
  /-- src/worker_pool/mpi_worker.cc l.57, l.64, l.71, l.81, l.90, l.99, l.106 -/
  | got (m : Msg)
  /-- src/worker_pool/mpi_worker.cc l.79 -/
  | ready (n : Nat × Nat)
  /-- src/worker_pool/mpi_worker.cc l.88 -/
  | saved (s : List Char × List Char)
  /-- src/worker_pool/mpi_worker.cc l.97 -/
  | finished (bs : List Block)
deriving DecidableEq

/-- Steps of the main thread of a worker (src/worker_pool/mpi_worker.cc l.50-114); `none` if it has to wait for a
thread or has ended. -/
def workerStep (p : Proc) : Hand → Res (Option (Proc × Hand))
  | .none =>
    match p.pc with
    | .probe =>
      match p.inbox with
      | [] => .ok (some (p, .none))
      | m :: ms => .ok (some ({ p with inbox := ms }, .got m))
    | _ => do
      let o ← p.workerStep
      pure (o.map fun p' => (p', .none))
  | .got .readyThreads => .ok (some (p.flushReady.1, .ready p.flushReady.2))
  | .got .save => .ok (some (p.flushStatic.1, .saved p.flushStatic.2))
  | .got .finishedBlocks => .ok (some (p.flushFinished.1, .finished p.flushFinished.2))
  | .got m => do
    let p' ← { p with pc := .probe }.handle m
    pure (some (p', .none))
  | .ready n => .ok (some ({ p with readyOut := p.readyOut ++ [n], pc := .probe }, .none))
  | .saved s => .ok (some ({ p with saveOut := p.saveOut ++ [s], pc := .probe }, .none))
  | .finished bs => .ok (some ({ p with finishedOut := p.finishedOut ++ [bs], pc := .probe }, .none))

/-- The master waits for a reply that is not there (src/worker_pool/mpi.cc l.175, l.203, l.262). -/
def Waits (st : Mpi.State) : Prop :=
  match st.pc with
  | .flushRecv ix _ => (st.procs ix).finishedOut = []
  | .readyRecv ix => (st.procs ix).readyOut = []
  | .saveRecv ix _ => (st.procs ix).saveOut = []
  | _ => False

instance (st : Mpi.State) : Decidable (Waits st) := by
  unfold Waits
  split <;> infer_instance

/-- State of a run. -/
structure State where
  base : Mpi.State
  hand : Nat → Hand

/-- One step of the machine; `none` if this step is not possible. -/
def step (env : Env) (st : State) : Mpi.Label → Res (Option State)
  | .master ch =>
    if Waits st.base then .ok (some st)
    else do
      let o ← Mpi.masterStep st.base ch
      pure (o.map fun b => { st with base := b })
  | .worker ix =>
    if 0 < ix ∧ ix < st.base.nprocs then do
      let o ← workerStep (st.base.procs ix) (st.hand ix)
      pure (o.map fun r => ⟨st.base.setProc ix r.1, Function.update st.hand ix r.2⟩)
    else .ok none
  | l => do
    let o ← Mpi.step env st.base l
    pure (o.map fun b => { st with base := b })

/-- The state after the constructor of the pool; see `Mpi.initial`. -/
def start (kinds : List (List Bool)) (fs : FileSystem) (todo : List Cmd) : State := ⟨Mpi.initial kinds fs todo, fun _ => .none⟩

/-! ### Threads and mutexes -/

/-- Threads: the main thread of a process and its worker threads.  The main thread of process 0 is the master. -/
inductive Agent where
  | main (ix : Nat)
  | thread (ix i : Nat)
deriving DecidableEq

/-- Mutexes: those of each process (see `Locks.Lock`), and those of the queues of messages.  The mutex `mpi_mutex`
(src/worker_pool/mpi.hh l.89) is used by the master only. -/
inductive Lock where
  | pool (ix : Nat)
  | static (ix : Nat)
  | data (ix i : Nat)
  | inbox (ix : Nat)
  | finishedOut (ix : Nat)
  | readyOut (ix : Nat)
  | saveOut (ix : Nat)
deriving DecidableEq

/-- Variables of a process; see `Locks.Var`.  `worker` is what is used by its main thread only, except for what belongs
to the master. -/
inductive Local where
  | idle
  | ready
  | busy
  | finished
  | queue (i : Nat)
  | stop (i : Nat)
  | record
  | store
  | inbox
  | finishedOut
  | readyOut
  | saveOut
  | worker
  | phase (i : Nat)
deriving DecidableEq

/-- Variables.  `master` is everything that is used by the master only. -/
inductive Var where
  | of (ix : Nat) (x : Local)
  | master
deriving DecidableEq

/-- The variables of the main thread of a process: where it is (not used for process 0) and the tables of its threads
(src/threaded/thread.hh l.91-92). -/
structure WorkerData where
  hand : Hand
  pc : WorkerPc
  serial : Nat
  current : Option Tables
  tables : Nat → Option Tables

/-- The variables of the master: the files, the members of `MPIWorkerPool` (src/worker_pool/mpi.hh l.94-100), where it
is. -/
structure MasterData where
  fs : FileSystem
  cpuQueue : List Nat
  openclQueue : List Nat
  assigned : Nat → OSet Block
  fileStore : Option FileStoreObj
  pc : Mpi.Pc
  todo : List Cmd

/-- Types of the variables of a process. -/
abbrev LocalVal : Local → Type
  | .idle => List Nat
  | .ready => List Nat
  | .busy => OMap Block Nat
  | .finished => List Block
  | .queue _ => List Job
  | .stop _ => Bool
  | .record => OSet Block
  | .store => StoreMap
  | .inbox => List Msg
  | .finishedOut => List (List Block)
  | .readyOut => List (Nat × Nat)
  | .saveOut => List (List Char × List Char)
  | .worker => WorkerData
  | .phase _ => Phase

/-- Types of variables. -/
abbrev Val : Var → Type
  | .of _ x => LocalVal x
  | .master => MasterData

/-- Values of all variables. -/
abbrev Mem := (x : Var) → Val x

/-- How variables are protected. -/
def guard : Var → Lock ⊕ Agent
  | .of ix .idle => .inl (.pool ix)
  | .of ix .ready => .inl (.pool ix)
  | .of ix .busy => .inl (.pool ix)
  | .of ix .finished => .inl (.pool ix)
  | .of ix (.queue i) => .inl (.data ix i)
  | .of ix (.stop i) => .inl (.data ix i)
  | .of ix .record => .inl (.static ix)
  | .of ix .store => .inl (.static ix)
  | .of ix .inbox => .inl (.inbox ix)
  | .of ix .finishedOut => .inl (.finishedOut ix)
  | .of ix .readyOut => .inl (.readyOut ix)
  | .of ix .saveOut => .inl (.saveOut ix)
  | .of ix .worker => .inr (.main ix)
  | .of ix (.phase i) => .inr (.thread ix i)
  | .master => .inr (.main 0)

/-- The variables of a process. -/
def ofProc (p : Proc) (h : Hand) : (x : Local) → LocalVal x
  | .idle => p.pool.idle
  | .ready => p.pool.ready
  | .busy => p.pool.busy
  | .finished => p.pool.finished
  | .queue i => (p.thr i).queue
  | .stop i => (p.thr i).stop
  | .record => p.static.record
  | .store => p.static.store
  | .inbox => p.inbox
  | .finishedOut => p.finishedOut
  | .readyOut => p.readyOut
  | .saveOut => p.saveOut
  | .worker => ⟨h, p.pc, p.serial, p.current, fun i => (p.thr i).tables⟩
  | .phase i => (p.thr i).phase

/-- The variables of a state. -/
def ofState (st : State) : Mem
  | .of ix x => ofProc (st.base.procs ix) (st.hand ix) x
  | .master => ⟨st.base.fs, st.base.cpuQueue, st.base.openclQueue, st.base.assigned, st.base.fileStore, st.base.pc,
      st.base.todo⟩

/-- The process with given variables; `size` and `opencl` never change. -/
def toProc (size : Nat) (opencl : Nat → Bool) (m : (x : Local) → LocalVal x) : Proc :=
  let d : WorkerData := m .worker
  { size := size
    thr := fun i => ⟨opencl i, d.tables i, m (.queue i), m (.stop i), m (.phase i)⟩
    pool := ⟨m .idle, m .ready, m .busy, m .finished⟩
    static := ⟨m .record, m .store⟩
    inbox := m .inbox
    finishedOut := m .finishedOut
    readyOut := m .readyOut
    saveOut := m .saveOut
    pc := d.pc
    serial := d.serial
    current := d.current }

/-- The state with given variables; `kinds` does not change. -/
def toState (kinds : List (List Bool)) (m : Mem) : State :=
  let d : MasterData := m .master
  { base :=
      { nprocs := kinds.length
        procs := fun ix => toProc (kinds[ix]?.getD []).length (fun i => (kinds[ix]?.getD [])[i]?.getD false) fun x => m (.of ix x)
        fs := d.fs
        cpuQueue := d.cpuQueue
        openclQueue := d.openclQueue
        assigned := d.assigned
        fileStore := d.fileStore
        pc := d.pc
        todo := d.todo }
    hand := fun ix => (m (.of ix .worker) : WorkerData).hand }

/-- `ThreadPool::assign` (src/threaded/thread_pool.cc l.98-115) with the nested `Thread::assign` (src/threaded/thread.cc
l.127-129) in process `ix`. -/
def assignPlan (ix : Nat) (opencl : Bool) (idle : List Nat) : List (Instr Lock Var) :=
  [.acquire (.pool ix), .read (.of ix .idle), .read (.of ix .busy)] ++
    match if opencl then idle.head? else idle.getLast? with
    | some j => [.acquire (.data ix j), .read (.of ix (.queue j))]
    | none => []

/-- A message is sent to a process. -/
def sendPlan (ix : Nat) : List (Instr Lock Var) := [.acquire (.inbox ix), .read (.of ix .inbox)]

/-- What the master does in its next section.
* `flush_finished_blocks` (src/threaded/thread_pool.cc l.168-169)
* `flush_ready_threads` (src/threaded/thread_pool.cc l.142-159)
* `flush_static_store` (src/store/store.cc l.100-108)
* `ThreadPool::assign` with the nested `Thread::assign`
* `Thread::shutdown` (src/threaded/thread.cc l.42-44)
* `send` and `recv` -/
def masterPlan (nprocs size : Nat) (d : MasterData) (idle : List Nat) : List (Instr Lock Var) :=
  match d.pc with
  | .flush _ => [.acquire (.pool 0), .read (.of 0 .finished)]
  | .flushSend ix _ => if ix < nprocs then sendPlan ix else []
  | .flushRecv ix _ => [.acquire (.finishedOut ix), .read (.of ix .finishedOut)]
  | .ready => [.acquire (.pool 0), .read (.of 0 .ready), .read (.of 0 .idle)]
  | .readySend ix => if ix < nprocs then sendPlan ix else []
  | .readyRecv ix => [.acquire (.readyOut ix), .read (.of ix .readyOut)]
  | .save _ => if d.fileStore.isSome then [.acquire (.static 0), .read (.of 0 .record), .read (.of 0 .store)] else []
  | .saveSend ix _ => if ix < nprocs then sendPlan ix else []
  | .saveRecv ix _ => [.acquire (.saveOut ix), .read (.of ix .saveOut)]
  | .configSend ix => if ix < nprocs then sendPlan ix else []
  | .take =>
    match d.openclQueue, d.cpuQueue with
    | ix :: _, _ => if ix = 0 then assignPlan 0 true idle else sendPlan ix
    | [], ix :: _ => if ix = 0 then assignPlan 0 false idle else sendPlan ix
    | [], [] => []
  | .stopSend ix => if ix < nprocs then sendPlan ix else []
  | .shutdown i => if i < size then [.acquire (.data 0 i)] else []
  | _ => []

/-- What the main thread of worker `ix` does in its next section: the calls of the pool as for the master, `recv` and
`send`. -/
def workerPlan (ix size : Nat) (d : WorkerData) (idle : List Nat) : List (Instr Lock Var) :=
  match d.hand with
  | .none =>
    match d.pc with
    | .probe => [.acquire (.inbox ix), .read (.of ix .inbox)]
    | .shutdown i => if i < size then [.acquire (.data ix i)] else []
    | _ => []
  | .got .readyThreads => [.acquire (.pool ix), .read (.of ix .ready), .read (.of ix .idle)]
  | .got .save => [.acquire (.static ix), .read (.of ix .record), .read (.of ix .store)]
  | .got .finishedBlocks => [.acquire (.pool ix), .read (.of ix .finished)]
  | .got (.assign opencl _) => assignPlan ix opencl idle
  | .got _ => []
  | .ready _ => [.acquire (.readyOut ix), .read (.of ix .readyOut)]
  | .saved _ => [.acquire (.saveOut ix), .read (.of ix .saveOut)]
  | .finished _ => [.acquire (.finishedOut ix), .read (.of ix .finishedOut)]

/-- What a worker thread does in its next section; see `Locks.threadPlan`. -/
def threadPlan (ix i : Nat) : Phase → List (Instr Lock Var)
  | .check => [.acquire (.data ix i), .read (.of ix (.stop i)), .read (.of ix (.queue i))]
  | .pop => [.acquire (.data ix i), .read (.of ix (.queue i))]
  | .compute _ => [.acquire (.static ix), .read (.of ix .record), .read (.of ix .store)]
  | .report _ => [.acquire (.pool ix), .read (.of ix .busy), .read (.of ix .ready), .read (.of ix .finished)]
  | _ => []

/-- Variables that are written although they are not read: the flag in `Thread::shutdown` (src/threaded/thread.cc
l.43). -/
def masterExtra (size : Nat) (d : MasterData) : List Var :=
  match d.pc with
  | .shutdown i => if i < size then [.of 0 (.stop i)] else []
  | _ => []

@[inherit_doc masterExtra]
def workerExtra (ix size : Nat) (d : WorkerData) : List Var :=
  match d.hand, d.pc with
  | .none, .shutdown i => if i < size then [.of ix (.stop i)] else []
  | _, _ => []

/-- The mutexes that the main thread holds between two sections: `notify_one` in `Thread::assign` is called while the
mutex of the pool is held (src/threaded/thread_pool.cc l.115). -/
def masterHeld (d : MasterData) : List Lock :=
  match d.pc with
  | .notify _ _ => [.pool 0]
  | _ => []

@[inherit_doc masterHeld]
def workerHeld (ix : Nat) (d : WorkerData) : List Lock :=
  match d.hand, d.pc with
  | .none, .notify _ => [.pool ix]
  | _, _ => []

/-- The master waits for a thread, notifies it, or has ended; the steps for this are in `Sync`.  It also stops if the list
of calls does not fit to where it is, which does not happen. -/
def masterRests (d : MasterData) : Prop :=
  match d.pc with
  | .notify _ _ => True
  | .shutNotify _ => True
  | .join _ => True
  | .finished => True
  | .newStore => ¬ ∃ c rest, d.todo = .config c :: rest
  | .update => ¬ ∃ c rest, d.todo = .config c :: rest
  | .configSend _ => ¬ ∃ c rest, d.todo = .config c :: rest
  | .contains => ¬ ∃ b rest, d.todo = .assign b :: rest
  | .take => ¬ ∃ b rest, d.todo = .assign b :: rest
  | _ => False

/-- The main thread of a worker waits for a thread, notifies it, or has ended. -/
def workerRests (d : WorkerData) : Prop :=
  match d.hand, d.pc with
  | .none, .notify _ => True
  | .none, .shutNotify _ => True
  | .none, .join _ => True
  | .none, .returned => True
  | _, _ => False

/-- Notifications, spurious wake-ups and joins; they do not access shared variables. -/
inductive Sync (kinds : List (List Bool)) (env : Env) : Agent → Mem → Mem → Prop
  | master (m : Mem) (ch : Choice) (st : State) (h : ∃ i b, (m .master : MasterData).pc = .notify i b ∨
      (m .master : MasterData).pc = .shutNotify i ∨ (m .master : MasterData).pc = .join i)
      (hs : step env (toState kinds m) (.master ch) = .ok (some st)) : Sync kinds env (.main 0) m (ofState st)
  | worker (ix : Nat) (m : Mem) (st : State) (hh : (m (.of ix .worker) : WorkerData).hand = .none)
      (h : ∃ i, (m (.of ix .worker) : WorkerData).pc = .notify i ∨ (m (.of ix .worker) : WorkerData).pc = .shutNotify i ∨
        (m (.of ix .worker) : WorkerData).pc = .join i)
      (hs : step env (toState kinds m) (.worker ix) = .ok (some st)) : Sync kinds env (.main ix) m (ofState st)
  | spurious (m : Mem) (ix i : Nat) (st : State) (hs : step env (toState kinds m) (.spurious ix i) = .ok (some st)) :
      Sync kinds env (.thread ix i) m (ofState st)

/-- The label of a section. -/
def label (ch : Choice) : Agent → Mpi.Label
  | .main 0 => .master ch
  | .main ix => .worker ix
  | .thread ix i => .thread ix i

/-- The number of threads of a process. -/
def size (kinds : List (List Bool)) (ix : Nat) : Nat := (kinds[ix]?.getD []).length

/-- The threads of `hycu-mpi`: the effects of sections are those of the machine in the first part. -/
def system (kinds : List (List Bool)) (env : Env) : System Agent Lock Var Choice Val where
  guard := guard
  plan
    | .main 0, m => masterPlan kinds.length (size kinds 0) (m .master) (m (.of 0 .idle))
    | .main ix, m => workerPlan ix (size kinds ix) (m (.of ix .worker)) (m (.of ix .idle))
    | .thread ix i, m => threadPlan ix i (m (.of ix (.phase i)))
  extra
    | .main 0, m => masterExtra (size kinds 0) (m .master)
    | .main ix, m => workerExtra ix (size kinds ix) (m (.of ix .worker))
    | .thread _ _, _ => []
  held
    | .main 0, m => masterHeld (m .master)
    | .main ix, m => if ix < kinds.length then workerHeld ix (m (.of ix .worker)) else []
    | .thread _ _, _ => []
  rest
    | .main 0, m => masterRests (m .master)
    | .main ix, m => ¬ ix < kinds.length ∨ workerRests (m (.of ix .worker))
    | .thread ix i, m => ¬ (ix < kinds.length ∧ i < size kinds ix) ∨ (m (.of ix (.phase i)) : Phase) = .sleep ∨
        (m (.of ix (.phase i)) : Phase) = .done
  act a ch m := do
    let o ← step env (toState kinds m) (label ch a)
    pure (o.map ofState)
  sync := Sync kinds env

/-- The state after the constructor of the pool. -/
def initial (kinds : List (List Bool)) (fs : FileSystem) (todo : List Cmd) : Config Agent Lock Var Val where
  mem := ofState (start kinds fs todo)
  owner _ := none
  prog _ := .out

end MpiLocks
end Hycu
