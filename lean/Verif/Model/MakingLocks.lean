import Verif.Model.Making
import Verif.Model.MpiLocks

/-!
Runs in small steps in which the tables of a configuration are made where the code makes them.  The tables of a thread are
made by the main thread of its process and are not used by other threads before a block is assigned, so that there are no
accesses to shared variables in it.
-/

namespace Hycu

/-- Sections in which first something is done that may fail, and changes no variables. -/
def Locks.System.first {A L X C : Type} {V : X → Type} (S : System A L X C V) (pre : A → C → ((x : X) → V x) → Res Unit) :
    System A L X C V :=
  { S with act := fun a ch m => do
      let _ ← pre a ch m
      S.act a ch m }

/-- `hycu-threaded` in small steps, with the tables that are made in `update_config` (src/worker_pool/standalone.cc
l.70). -/
def Locks.making (tab : ConfigNode → Res Unit) (size : Nat) (opencl : Nat → Bool) (env : Run.Env) :
    System Agent Lock Var Run.Choice Val :=
  (system size opencl env).first fun a ch m => Run.makes tab (toState size opencl m) (label ch a)

/-- The tables that are made in a step: in `update_config` of the master (src/worker_pool/mpi.cc l.107), and when a worker
handles the message that it has received (src/worker_pool/mpi_worker.cc l.57). -/
def MpiLocks.makes (tab : ConfigNode → Res Unit) (st : State) : Mpi.Label → Res Unit
  | .master _ =>
    match st.base.pc, st.base.todo with
    | .update, .config c :: _ => makeAll tab (st.base.procs 0).size c
    | _, _ => .ok ()
  | .worker ix =>
    if 0 < ix ∧ ix < st.base.nprocs then
      match st.hand ix with
      | .got (.config c) => makeAll tab (st.base.procs ix).size c
      | _ => .ok ()
    else .ok ()
  | _ => .ok ()

/-- `hycu-mpi` in small steps, with the tables that are made. -/
def MpiLocks.making (tab : ConfigNode → Res Unit) (kinds : List (List Bool)) (env : Run.Env) :
    Locks.System Agent Lock Var Run.Choice Val :=
  (system kinds env).first fun a ch m => makes tab (toState kinds m) (label ch a)

end Hycu
