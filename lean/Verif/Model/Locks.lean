import Mathlib.Logic.Function.Basic
import Verif.Model.Pool

/-!
Threads and mutexes in small steps: the single accesses to shared variables inside of critical sections.

The machine in `Verif.Model.Pool` makes a whole critical section in one step.  Here a critical section consists of many
steps: mutexes are acquired one after the other, shared variables are read one after the other, the result is computed
from what has been read, variables are written one after the other, mutexes are released.  From the moment at which a
thread has read a variable until it has written its final value, it may store arbitrary intermediate values there.

The first part is about any program that is given by what its threads do (`System`), the second one about the threads
of `hycu-threaded`.
-/

namespace Hycu
namespace Locks

/-- What a thread does before it computes: acquire a mutex, read a shared variable. -/
inductive Instr (L X : Type) where
  | acquire (l : L)
  | read (x : X)
deriving DecidableEq

/-- The variables that are read. -/
def reads {L X : Type} (is : List (Instr L X)) : List X :=
  is.filterMap fun i => match i with | .read x => some x | .acquire _ => none

/-- The mutexes that are acquired. -/
def locks {L X : Type} (is : List (Instr L X)) : List L :=
  is.filterMap fun i => match i with | .acquire l => some l | .read _ => none

/-- A program: agents `A` (threads), mutexes `L`, variables `X` with their types `V`, and choices `C` that are not under
its control. -/
structure System (A L X C : Type) (V : X → Type) where
  /-- the mutex that protects a variable, or the only agent that uses it -/
  guard : X → L ⊕ A
  /-- what an agent does in its next section before it computes; later instructions may depend on what has been read -/
  plan : A → ((x : X) → V x) → List (Instr L X)
  /-- variables that are written although they are not read -/
  extra : A → ((x : X) → V x) → List X
  /-- the mutexes that an agent holds between two sections -/
  held : A → ((x : X) → V x) → List L
  /-- the agent has nothing to do, or waits for another agent -/
  rest : A → ((x : X) → V x) → Prop
  /-- the effect of a section as a whole -/
  act : A → C → ((x : X) → V x) → Res (Option ((x : X) → V x))
  /-- steps with condition variables and joins -/
  sync : A → ((x : X) → V x) → ((x : X) → V x) → Prop

section

variable {A L X C : Type} {V : X → Type} [DecidableEq A] [DecidableEq L] [DecidableEq X]

/-- Where an agent is: between two sections, in front of instruction `k` of its section with some values in its
registers, or writing its results (`ws` are still to be written, `ls` are to be released afterwards). -/
inductive Prog (L X : Type) (V : X → Type) where
  | out
  | entering (k : Nat) (reg : (x : X) → V x)
  | leaving (ws : List X) (reg : (x : X) → V x) (ls : List L)

/-- Memory, owners of the mutexes, agents. -/
structure Config (A L X : Type) (V : X → Type) where
  mem : (x : X) → V x
  owner : L → Option A
  prog : A → Prog L X V

/-- The variables that are accessed in a section. -/
def System.touched (S : System A L X C V) (a : A) (reg : (x : X) → V x) : List X := reads (S.plan a reg) ++ S.extra a reg

/-- A store to one variable. -/
def Config.store (c : Config A L X V) (x : X) (v : V x) : Config A L X V := { c with mem := Function.update c.mem x v }

/-- An agent moves on. -/
def Config.go (c : Config A L X V) (a : A) (p : Prog L X V) : Config A L X V := { c with prog := Function.update c.prog a p }

open Classical in
/-- The private variables of an agent get new values. -/
noncomputable def Config.setPrivate (c : Config A L X V) (S : System A L X C V) (a : A) (m : (x : X) → V x) :
    Config A L X V :=
  { c with mem := fun x => if S.guard x = .inr a then m x else c.mem x }

/-- The steps of an agent. -/
inductive Step (S : System A L X C V) (a : A) : Config A L X V → Config A L X V → Prop
  /-- a section begins; there is anything in the registers except for private variables -/
  | enter (c : Config A L X V) (reg : (x : X) → V x) (h : c.prog a = .out) (hr : ¬ S.rest a c.mem)
      (hp : ∀ x, S.guard x = .inr a → reg x = c.mem x) : Step S a c (c.go a (.entering 0 reg))
  /-- a mutex is acquired, which is free -/
  | acquire (c : Config A L X V) (k : Nat) (reg : (x : X) → V x) (l : L) (h : c.prog a = .entering k reg)
      (hi : (S.plan a reg)[k]? = some (.acquire l)) (hf : c.owner l = none) :
      Step S a c { c.go a (.entering (k + 1) reg) with owner := Function.update c.owner l (some a) }
  /-- a variable is read -/
  | read (c : Config A L X V) (k : Nat) (reg : (x : X) → V x) (x : X) (h : c.prog a = .entering k reg)
      (hi : (S.plan a reg)[k]? = some (.read x)) :
      Step S a c (c.go a (.entering (k + 1) (Function.update reg x (c.mem x))))
  /-- the results are computed from the registers -/
  | compute (c : Config A L X V) (k : Nat) (reg s : (x : X) → V x) (ch : C) (h : c.prog a = .entering k reg)
      (hk : (S.plan a reg).length = k) (hs : S.act a ch reg = .ok (some s)) :
      Step S a c ((c.setPrivate S a s).go a (.leaving (S.touched a reg) s
        ((S.held a reg ++ locks (S.plan a reg)).filter fun l => l ∉ S.held a s)))
  /-- a variable is written -/
  | write (c : Config A L X V) (ws : List X) (reg : (x : X) → V x) (ls : List L) (x : X)
      (h : c.prog a = .leaving ws reg ls) (hx : x ∈ ws) :
      Step S a c ((c.store x (reg x)).go a (.leaving (ws.filter fun y => y ≠ x) reg ls))
  /-- a mutex is released -/
  | release (c : Config A L X V) (reg : (x : X) → V x) (l : L) (ls : List L) (h : c.prog a = .leaving [] reg (l :: ls)) :
      Step S a c { c.go a (.leaving [] reg ls) with owner := Function.update c.owner l none }
  /-- the section ends -/
  | exit (c : Config A L X V) (reg : (x : X) → V x) (h : c.prog a = .leaving [] reg []) : Step S a c (c.go a .out)
  /-- a notification, the end of a wait or of a join; mutexes may be released afterwards, for which no registers are
  needed -/
  | sync (c : Config A L X V) (m reg : (x : X) → V x) (h : c.prog a = .out) (hs : S.sync a c.mem m) :
      Step S a c ({ c with mem := m }.go a (.leaving [] reg ((S.held a c.mem).filter fun l => l ∉ S.held a m)))

/-- Stores of intermediate values: to a variable that has been read in front of the computation, or to one that is still
to be written after it. -/
inductive Scribble (S : System A L X C V) : Config A L X V → Config A L X V → Prop
  | before (c : Config A L X V) (a : A) (k : Nat) (reg : (x : X) → V x) (x : X) (v : V x)
      (h : c.prog a = .entering k reg) (hx : x ∈ reads ((S.plan a reg).take k)) : Scribble S c (c.store x v)
  | after (c : Config A L X V) (a : A) (ws : List X) (reg : (x : X) → V x) (ls : List L) (x : X) (v : V x)
      (h : c.prog a = .leaving ws reg ls) (hx : x ∈ ws) : Scribble S c (c.store x v)

/-- States that can be reached. -/
inductive Reachable (S : System A L X C V) (c₀ : Config A L X V) : Config A L X V → Prop
  | refl : Reachable S c₀ c₀
  | step {c c' : Config A L X V} (a : A) (h : Reachable S c₀ c) (hs : Step S a c c') : Reachable S c₀ c'
  | scribble {c c' : Config A L X V} (h : Reachable S c₀ c) (hs : Scribble S c c') : Reachable S c₀ c'

/-- An agent is about to compute something that is undefined or throws, or does not end. -/
def Fails (S : System A L X C V) (c : Config A L X V) : Prop :=
  ∃ a k reg ch, c.prog a = .entering k reg ∧ (S.plan a reg).length = k ∧ ∀ o, S.act a ch reg ≠ .ok o

/-- The next step of an agent, or an intermediate store, may access a shared variable. -/
def Accesses (S : System A L X C V) (c : Config A L X V) (a : A) (x : X) : Prop :=
  match c.prog a with
  | .out => False
  | .entering k reg => (S.plan a reg)[k]? = some (.read x) ∨ x ∈ reads ((S.plan a reg).take k)
  | .leaving ws _ _ => x ∈ ws

end

/-! ### The threads of `hycu-threaded` -/

/-- Threads: the main thread and the worker threads. -/
inductive Agent where
  | main
  | thread (i : Nat)
deriving DecidableEq

/-- Mutexes: `ThreadPool::data_mutex` (src/threaded/thread_pool.hh l.71), `Store::static_mutex` (src/store/store.hh l.132),
`Thread::data_mutex` (src/threaded/thread.hh l.84).  `Thread::main_mutex` is used by its thread only. -/
inductive Lock where
  | pool
  | static
  | data (i : Nat)
deriving DecidableEq

/-- Variables.  `main` is everything that is used by the main thread only, `phase i` what is used by a worker thread
only. -/
inductive Var where
  /-- src/threaded/thread_pool.hh l.74 -/
  | idle
  /-- src/threaded/thread_pool.hh l.75 -/
  | ready
  /-- src/threaded/thread_pool.hh l.76 -/
  | busy
  /-- src/threaded/thread_pool.hh l.78 -/
  | finished
  /-- src/threaded/thread.hh l.94-96 -/
  | queue (i : Nat)
  /-- src/threaded/thread.hh l.82 -/
  | stop (i : Nat)
  /-- src/store/store.hh l.134 -/
  | record
  /-- src/store/store.hh l.133 -/
  | store
  | main
  | phase (i : Nat)
deriving DecidableEq

/-- The variables of the main thread: the files, the members of `StandaloneWorkerPool` (src/worker_pool/standalone.hh
l.76-84), where it is, and the tables of the threads (src/threaded/thread.hh l.91-92), which worker threads do not use. -/
structure MainData where
  fs : FileSystem
  nmbCpu : Nat
  nmbOpencl : Nat
  assigned : OSet Block
  fileStore : Option Run.FileStoreObj
  pc : Run.Pc
  todo : List Run.Cmd
  serial : Nat
  current : Option Run.Tables
  tables : Nat → Option Run.Tables

/-- Types of variables. -/
abbrev Val : Var → Type
  | .idle => List Nat
  | .ready => List Nat
  | .busy => OMap Block Nat
  | .finished => List Block
  | .queue _ => List Run.Job
  | .stop _ => Bool
  | .record => OSet Block
  | .store => StoreMap
  | .main => MainData
  | .phase _ => Run.Phase

/-- Values of all variables. -/
abbrev Mem := (x : Var) → Val x

/-- How variables are protected. -/
def guard : Var → Lock ⊕ Agent
  | .idle => .inl .pool
  | .ready => .inl .pool
  | .busy => .inl .pool
  | .finished => .inl .pool
  | .queue i => .inl (.data i)
  | .stop i => .inl (.data i)
  | .record => .inl .static
  | .store => .inl .static
  | .main => .inr .main
  | .phase i => .inr (.thread i)

/-- The variables of a state of the machine with large steps. -/
def ofState (st : Run.State) : Mem
  | .idle => st.pool.idle
  | .ready => st.pool.ready
  | .busy => st.pool.busy
  | .finished => st.pool.finished
  | .queue i => (st.thr i).queue
  | .stop i => (st.thr i).stop
  | .record => st.static.record
  | .store => st.static.store
  | .main => ⟨st.fs, st.nmbCpu, st.nmbOpencl, st.assigned, st.fileStore, st.pc, st.todo, st.serial, st.current,
      fun i => (st.thr i).tables⟩
  | .phase i => (st.thr i).phase

/-- The state with given variables; `size` and `opencl` never change. -/
def toState (size : Nat) (opencl : Nat → Bool) (m : Mem) : Run.State :=
  let d : MainData := m .main
  { size := size
    thr := fun i => ⟨opencl i, d.tables i, m (.queue i), m (.stop i), m (.phase i)⟩
    pool := ⟨m .idle, m .ready, m .busy, m .finished⟩
    static := ⟨m .record, m .store⟩
    fs := d.fs
    nmbCpu := d.nmbCpu
    nmbOpencl := d.nmbOpencl
    assigned := d.assigned
    fileStore := d.fileStore
    pc := d.pc
    todo := d.todo
    serial := d.serial
    current := d.current
    log := [] }

/-- The thread that gets the next block (src/threaded/thread_pool.cc l.100-107). -/
def chosen (d : MainData) (idle : List Nat) : Option Nat := if d.nmbOpencl ≠ 0 then idle.head? else idle.getLast?

/-- What the main thread does in its next section.
* `flush_finished_blocks` (src/threaded/thread_pool.cc l.168-169)
* `flush_static_store` (src/store/store.cc l.100-108)
* `flush_ready_threads` (src/threaded/thread_pool.cc l.142-159)
* `ThreadPool::assign` (src/threaded/thread_pool.cc l.98-115) with the nested `Thread::assign`
  (src/threaded/thread.cc l.127-129)
* `Thread::shutdown` (src/threaded/thread.cc l.42-44) -/
def mainPlan (size : Nat) (d : MainData) (idle : List Nat) : List (Instr Lock Var) :=
  match d.pc with
  | .wait _ => [.acquire .pool, .read .finished]
  | .fillFinished => [.acquire .pool, .read .finished]
  | .save _ => if d.fileStore.isSome then [.acquire .static, .read .record, .read .store] else []
  | .fillReady => [.acquire .pool, .read .ready, .read .idle]
  | .take => [.acquire .pool, .read .idle, .read .busy] ++
      match chosen d idle with
      | some j => [.acquire (.data j), .read (.queue j)]
      | none => []
  | .shutdown i => if i < size then [.acquire (.data i)] else []
  | _ => []

/-- What a worker thread does in its next section.
* the test of the flags (src/threaded/thread.cc l.61-64)
* taking a block (src/threaded/thread.cc l.80-83)
* `flush_to_static_store` (src/store/store.cc l.79-89)
* `finished_block` (src/threaded/thread_pool.cc l.125-135) -/
def threadPlan (i : Nat) : Run.Phase → List (Instr Lock Var)
  | .check => [.acquire (.data i), .read (.stop i), .read (.queue i)]
  | .pop => [.acquire (.data i), .read (.queue i)]
  | .compute _ => [.acquire .static, .read .record, .read .store]
  | .report _ => [.acquire .pool, .read .busy, .read .ready, .read .finished]
  | _ => []

/-- The main thread waits for another one, notifies it, or has ended; the steps for this are in `Sync`.  It also stops if
the list of calls does not fit to where it is, which does not happen. -/
def mainRests (d : MainData) : Prop :=
  match d.pc with
  | .notify _ _ => True
  | .shutNotify _ => True
  | .join _ => True
  | .finished => True
  | .newStore => ¬ ∃ c rest, d.todo = .config c :: rest
  | .update => ¬ ∃ c rest, d.todo = .config c :: rest
  | .contains => ¬ ∃ b rest, d.todo = .assign b :: rest
  | .take => ¬ ∃ b rest, d.todo = .assign b :: rest
  | _ => False

/-- Notifications, spurious wake-ups and joins; they do not access shared variables.  `notify_one` in `Thread::assign` is
called while the mutex of the pool is held (src/threaded/thread_pool.cc l.115). -/
inductive Sync (size : Nat) (opencl : Nat → Bool) (env : Run.Env) : Agent → Mem → Mem → Prop
  | main (m : Mem) (ch : Run.Choice) (st : Run.State) (h : ∃ i b, (m .main : MainData).pc = .notify i b ∨
      (m .main : MainData).pc = .shutNotify i ∨ (m .main : MainData).pc = .join i)
      (hs : Run.step env (toState size opencl m) (.master ch) = .ok (some st)) : Sync size opencl env .main m (ofState st)
  | spurious (m : Mem) (i : Nat) (st : Run.State)
      (hs : Run.step env (toState size opencl m) (.spurious i) = .ok (some st)) :
      Sync size opencl env (.thread i) m (ofState st)

/-- The label of a section. -/
def label (ch : Run.Choice) : Agent → Run.Label
  | .main => .master ch
  | .thread i => .thread i

/-- The threads of `hycu-threaded`: the effects of sections are those of the machine with large steps. -/
def system (size : Nat) (opencl : Nat → Bool) (env : Run.Env) : System Agent Lock Var Run.Choice Val where
  guard := guard
  plan
    | .main, m => mainPlan size (m .main) (m .idle)
    | .thread i, m => threadPlan i (m (.phase i))
  extra
    | .main, m => match (m .main : MainData).pc with
      | .shutdown i => if i < size then [.stop i] else []
      | _ => []
    | .thread _, _ => []
  held
    | .main, m => match (m .main : MainData).pc with
      | .notify _ _ => [.pool]
      | _ => []
    | .thread _, _ => []
  rest
    | .main, m => mainRests (m .main)
    | .thread i, m => ¬ i < size ∨ (m (.phase i) : Run.Phase) = .sleep ∨ (m (.phase i) : Run.Phase) = .done
  act a ch m := do
    let o ← Run.step env (toState size opencl m) (label ch a)
    pure (o.map ofState)
  sync := Sync size opencl env

/-- The state after the constructor of the pool; see `Run.initial`. -/
def initial (kinds : List Bool) (fs : FileSystem) (todo : List Run.Cmd) : Config Agent Lock Var Val where
  mem := ofState (Run.initial kinds fs todo)
  owner _ := none
  prog _ := .out

end Locks
end Hycu
