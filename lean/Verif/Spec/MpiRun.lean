import Verif.Model.Mpi

/-!
What is said about infinite executions of runs with several processes.
-/

namespace Hycu
namespace Mpi

open Run (Env)

/-- A thread does not hold its mutex between the test of the flags and the wait; a notification at this moment is
lost.  This says that it does not happen in a step. -/
def Alert (st : State) : Label → Prop
  | .master _ => ∀ i, (st.pc = .shutNotify i ∨ ∃ b, st.pc = .notify i b) → ((st.procs 0).thr i).phase ≠ .wait
  | .worker ix => ∀ i, ((st.procs ix).pc = .shutNotify i ∨ (st.procs ix).pc = .notify i) →
      ((st.procs ix).thr i).phase ≠ .wait
  | _ => True

/-- An infinite execution, in which the threads of all processes are scheduled again and again.  A step that is not
possible has no effect. -/
structure Exec (env : Env) (st₀ : State) (σ : Nat → State) (ls : Nat → Label) : Prop where
  start : σ 0 = st₀
  next : ∀ n, step env (σ n) (ls n) = .ok (some (σ (n + 1))) ∨
    (step env (σ n) (ls n) = .ok none ∧ σ (n + 1) = σ n)
  thread : ∀ ix i, ix < st₀.nprocs → i < (st₀.procs ix).size → ∀ n, ∃ m, n ≤ m ∧ ls m = .thread ix i
  worker : ∀ ix, 0 < ix → ix < st₀.nprocs → ∀ n, ∃ m, n ≤ m ∧ ls m = .worker ix
  master : ∀ n, ∃ m, n ≤ m ∧ ∃ ch, ls m = .master ch

/-- Whenever the master needs the name of a new file, it will find one. -/
def Renewing (σ : Nat → State) (ls : Nat → Label) : Prop :=
  ∀ n, ∃ m, n ≤ m ∧ ∃ ch, ls m = .master ch ∧ ∀ f d,
    ((∃ k, (σ m).pc = .save k) ∨ ∃ ix k, (σ m).pc = .saveRecv ix k) → (σ m).fileStore = some f → f.valid = true →
    (σ m).fs f.config.resultPath = some d → FileStore.fresh d ch.id = true

/-- Directories can be created. -/
def Creating (ls : Nat → Label) : Prop := ∀ n ch, ls n = .master ch → ch.create = true

/-- All processes have ended. -/
def Over (st : State) : Prop :=
  st.pc = .finished ∧ ∀ ix, 0 < ix → ix < st.nprocs → (st.procs ix).pc = .returned

end Mpi
end Hycu
