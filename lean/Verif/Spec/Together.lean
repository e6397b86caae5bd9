import Verif.Spec.Live
import Verif.Spec.Main
import Verif.Spec.MpiRun

/-!
Several runs at the same time.
-/

namespace Hycu
namespace Live

open Run (Env Sect program)

/-- The same run with other files. -/
def Now.withFs : Now → FileSystem → Now
  | .threaded st, fs => .threaded { st with fs := fs }
  | .mpi st, fs => .mpi { st with fs := fs }

/-- The calls that are left. -/
def Now.todo : Now → List Run.Cmd
  | .threaded st => st.todo
  | .mpi st => st.todo

/-- The main function has returned. -/
def Now.Ended : Now → Prop
  | .threaded st => st.pc = .finished
  | .mpi st => st.pc = .finished

/-- The run can fail in its next step. -/
def Now.Fails (env : Env) : Now → Prop
  | .threaded st => ∃ l, ∀ o, Run.step env st l ≠ .ok o
  | .mpi st => ∃ l, ∀ o, Mpi.step env st l ≠ .ok o

/-- The directories of the sections have the same content. -/
def Agree (ss : List Sect) (fs fs' : FileSystem) : Prop := ∀ s ∈ ss, fs s.cfg.resultPath = fs' s.cfg.resultPath

/-- Runs over the same input as in `Ongoing`, one after the other, while other programs change files, but not in the
directories of the sections. -/
inductive Among (env : Env) (ss : List Sect) : Now → Prop
  | start {fs : FileSystem} {w : Now} (h : Run.Untouched ss fs) (hs : Starts ss fs w) : Among env ss w
  | next {w w' : Now} (h : Among env ss w) (hn : Next env ss w w') : Among env ss w'
  | others {w : Now} (fs : FileSystem) (h : Among env ss w) (hf : Agree ss fs w.fs) : Among env ss (w.withFs fs)

/-- Two runs at the same time, with the same files.  Each of them may end or die and be started again. -/
inductive Together (env : Env) (ss₁ ss₂ : List Sect) : Now → Now → Prop
  | start {fs : FileSystem} {w₁ w₂ : Now} (h₁ : Run.Untouched ss₁ fs) (h₂ : Run.Untouched ss₂ fs) (s₁ : Starts ss₁ fs w₁)
      (s₂ : Starts ss₂ fs w₂) : Together env ss₁ ss₂ w₁ w₂
  | left {w₁ w₁' w₂ : Now} (h : Together env ss₁ ss₂ w₁ w₂) (hn : Next env ss₁ w₁ w₁') :
      Together env ss₁ ss₂ w₁' (w₂.withFs w₁'.fs)
  | right {w₁ w₂ w₂' : Now} (h : Together env ss₁ ss₂ w₁ w₂) (hn : Next env ss₂ w₂ w₂') :
      Together env ss₁ ss₂ (w₁.withFs w₂'.fs) w₂'

end Live

namespace Run

/-- An infinite execution as in `Exec`, where after every step other programs may change files outside of the directories
of the sections. -/
structure ExecAmong (env : Env) (ss : List Sect) (st₀ : State) (σ : Nat → State) (ls : Nat → Label) : Prop where
  start : σ 0 = st₀
  next : ∀ n, ∃ st' fs, (step env (σ n) (ls n) = .ok (some st') ∨ (step env (σ n) (ls n) = .ok none ∧ st' = σ n)) ∧
    Live.Agree ss fs st'.fs ∧ σ (n + 1) = { st' with fs := fs }
  thread : ∀ i, i < st₀.size → ∀ n, ∃ m, n ≤ m ∧ ls m = .thread i
  master : ∀ n, ∃ m, n ≤ m ∧ ∃ ch, ls m = .master ch

end Run

namespace Mpi

open Run (Env Sect)

/-- The same for several processes. -/
structure ExecAmong (env : Env) (ss : List Sect) (st₀ : State) (σ : Nat → State) (ls : Nat → Label) : Prop where
  start : σ 0 = st₀
  next : ∀ n, ∃ st' fs, (step env (σ n) (ls n) = .ok (some st') ∨ (step env (σ n) (ls n) = .ok none ∧ st' = σ n)) ∧
    Live.Agree ss fs st'.fs ∧ σ (n + 1) = { st' with fs := fs }
  thread : ∀ ix i, ix < st₀.nprocs → i < (st₀.procs ix).size → ∀ n, ∃ m, n ≤ m ∧ ls m = .thread ix i
  worker : ∀ ix, 0 < ix → ix < st₀.nprocs → ∀ n, ∃ m, n ≤ m ∧ ls m = .worker ix
  master : ∀ n, ∃ m, n ≤ m ∧ ∃ ch, ls m = .master ch

end Mpi
end Hycu
