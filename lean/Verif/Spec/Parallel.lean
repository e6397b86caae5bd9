import Verif.Model.Parallel
import Verif.Spec.Damage

/-!
Runs at the same time: what is assumed about them.
-/

namespace Hycu
namespace Parallel

open Run (Env Input Sect program)

/-- What a run is told to do. -/
structure Job where
  pool : Pool
  sects : List Sect

/-- The numbers of threads are possible, and with several processes there is a master. -/
def Pool.Possible : Pool → Prop
  | .threaded kinds => kinds.length < 4294967296
  | .mpi kinds => kinds ≠ [] ∧ ∀ k ∈ kinds, k.length < 4294967296

/-- The beginning: no run has made a step.  (A run that is started later makes its first step later.) -/
def initial (jobs : List Job) (fs : FileSystem) : State where
  fs := fs
  runs i := match jobs[i]? with
    | some j => .start fs (program j.sects) j.pool
    | none => .start fs [] (.threaded [])
  tested _ := false

/-- A run that writes a file does not find a file of this name in the directory.  The name was not there when the run
chose it (`FileStore.fresh`); this excludes that another run chose the same name before it was used. -/
def NoClash (P : State) : Label → Prop
  | .step i _ => ∀ p n, (P.runs i).writing = some (p, n) → ∀ d, P.fs p = some d → ∀ e ∈ d, e.1 ≠ n
  | _ => True

/-- States that can be reached by steps which satisfy a condition. -/
inductive Reachable (env : Env) (n : Nat) (ok : State → Label → Prop) (P₀ : State) : State → Prop
  | refl : Reachable env n ok P₀ P₀
  | step {P P' : State} (l : Label) (h : Reachable env n ok P₀ P) (ho : ok P l)
      (hs : Parallel.step env n P l = .ok (some P')) : Reachable env n ok P₀ P'

/-- What is assumed about the jobs: every one of them has a proper input, and different jobs that use the same directory
use it for the same configuration and the same blocks. -/
structure Jobs (env : Env) (result : ConfigNode → Block → StoreMap) (jobs : List Job) : Prop where
  possible : ∀ j ∈ jobs, j.pool.Possible
  input : ∀ j ∈ jobs, Input env j.sects result
  agree : ∀ j ∈ jobs, ∀ j' ∈ jobs, ∀ s ∈ j.sects, ∀ s' ∈ j'.sects, s.cfg.resultPath = s'.cfg.resultPath → s = s'

/-- The jobs that use a directory. -/
def users (jobs : List Job) (p : List Char) : List Job := jobs.filter fun j => j.sects.any fun s => s.cfg.resultPath = p

end Parallel
end Hycu
