import Verif.Model.Compute
import Verif.Model.Mpi

/-!
Runs in which the tables of a configuration are made where the code makes them: in `Thread::update_config`, which is called
by the main thread of a process for each of its worker threads.
-/

namespace Hycu

/-- The tables made by `Thread::update_config` (src/threaded/thread.cc l.108-119); only whether this succeeds. -/
def Flint.makeTables (w : Flint) (c : ConfigNode) : Res Unit := do
  let _ ← w.fqTable c.prime c.primeExponent
  let _ ← w.reductionTables c
  pure ()

/-- `ThreadPool::update_config` (src/threaded/thread_pool.cc l.81-89) makes the same tables for each thread; none if there is
no thread. -/
def makeAll (tab : ConfigNode → Res Unit) (size : Nat) (c : ConfigNode) : Res Unit :=
  if size = 0 then .ok () else tab c

namespace Run

/-- The tables that are made in a step of `hycu-threaded`: in `update_config` (src/worker_pool/standalone.cc l.70). -/
def makes (tab : ConfigNode → Res Unit) (st : State) : Label → Res Unit
  | .master _ =>
    match st.pc, st.todo with
    | .update, .config c :: _ => makeAll tab st.size c
    | _, _ => .ok ()
  | _ => .ok ()

/-- A step, with the tables that are made in it. -/
def makingStep (tab : ConfigNode → Res Unit) (env : Env) (st : State) (l : Label) : Res (Option State) := do
  let _ ← makes tab st l
  step env st l

/-- States that can be reached. -/
inductive MakingReachable (tab : ConfigNode → Res Unit) (env : Env) (st₀ : State) : State → Prop
  | refl : MakingReachable tab env st₀ st₀
  | step {st st' : State} (l : Label) (h : MakingReachable tab env st₀ st)
      (hs : makingStep tab env st l = .ok (some st')) : MakingReachable tab env st₀ st'

end Run

namespace Mpi

/-- The tables that are made in a step of `hycu-mpi`: in `update_config` of the master (src/worker_pool/mpi.cc l.107), and
when a worker handles the message (src/worker_pool/mpi_worker.cc l.53-58). -/
def makes (tab : ConfigNode → Res Unit) (st : State) : Label → Res Unit
  | .master _ =>
    match st.pc, st.todo with
    | .update, .config c :: _ => makeAll tab (st.procs 0).size c
    | _, _ => .ok ()
  | .worker ix =>
    if 0 < ix ∧ ix < st.nprocs then
      match (st.procs ix).pc, (st.procs ix).inbox with
      | .probe, .config c :: _ => makeAll tab (st.procs ix).size c
      | _, _ => .ok ()
    else .ok ()
  | _ => .ok ()

/-- A step, with the tables that are made in it. -/
def makingStep (tab : ConfigNode → Res Unit) (env : Run.Env) (st : State) (l : Label) : Res (Option State) := do
  let _ ← makes tab st l
  step env st l

/-- States that can be reached. -/
inductive MakingReachable (tab : ConfigNode → Res Unit) (env : Run.Env) (st₀ : State) : State → Prop
  | refl : MakingReachable tab env st₀ st₀
  | step {st st' : State} (l : Label) (h : MakingReachable tab env st₀ st)
      (hs : makingStep tab env st l = .ok (some st')) : MakingReachable tab env st₀ st'

end Mpi
end Hycu
