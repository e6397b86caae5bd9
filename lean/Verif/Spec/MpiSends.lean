import Verif.Spec.MpiRun

/-!
Messages that block.  `send` of boost::mpi calls `MPI_Send`, which may return as soon as the message is copied, or wait until
it is received; which of both happens is not specified, and may be different for every message.
-/

namespace Hycu
namespace Mpi

open Run (Env)

/-- The main thread of a process has sent a message that is not yet received. -/
def Held (st : State) : Label → Prop
  | .master _ => ∃ ix, 0 < ix ∧ ix < st.nprocs ∧ (st.procs ix).inbox ≠ []
  | .worker ix => (st.procs ix).finishedOut ≠ [] ∨ (st.procs ix).readyOut ≠ [] ∨ (st.procs ix).saveOut ≠ []
  | _ => False

/-- An infinite execution, in which all threads are scheduled again and again, except for main threads that wait in `send`:
these need not be scheduled before the message is received.  Moreover, names for new files are found again and again. -/
structure Blocking (env : Env) (st₀ : State) (σ : Nat → State) (ls : Nat → Label) : Prop where
  start : σ 0 = st₀
  next : ∀ n, step env (σ n) (ls n) = .ok (some (σ (n + 1))) ∨
    (step env (σ n) (ls n) = .ok none ∧ σ (n + 1) = σ n)
  thread : ∀ ix i, ix < st₀.nprocs → i < (st₀.procs ix).size → ∀ n, ∃ m, n ≤ m ∧ ls m = .thread ix i
  worker : ∀ ix, 0 < ix → ix < st₀.nprocs → ∀ n, ∃ m, n ≤ m ∧ (ls m = .worker ix ∨ Held (σ m) (.worker ix))
  master : ∀ n, ∃ m, n ≤ m ∧ ((∃ ch, ls m = .master ch ∧ ∀ f d,
    ((∃ k, (σ m).pc = .save k) ∨ ∃ ix k, (σ m).pc = .saveRecv ix k) → (σ m).fileStore = some f → f.valid = true →
    (σ m).fs f.config.resultPath = some d → FileStore.fresh d ch.id = true) ∨ ∀ ch, Held (σ m) (.master ch))

end Mpi
end Hycu
