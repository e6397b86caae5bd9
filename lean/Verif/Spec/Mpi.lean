import Verif.Model.Mpi
import Verif.Spec.Resume

/-!
Sequences of runs over the same input, with one or several processes.
-/

namespace Hycu
namespace Mpi

open Run (Cont FileStoreObj Env Sect program Untouched)

/-- What a run leaves behind if it ends or dies in the given state: either between two writes, or inside a write (but
not inside the write of a record file).  Only the master writes files, so that it does not matter which process dies
first. -/
inductive Dies (st : State) : FileSystem → Prop
  | between : Dies st st.fs
  | inside (ws : List (List Char × List Char)) (ix : Nat) (k : Cont) (f : FileStoreObj) (d d' : Dir)
      (hpc : st.pc = .write ws ix k) (hf : st.fileStore = some f) (hd : st.fs f.config.resultPath = some d)
      (hc : Dir.Crash ws d d') : Dies st (st.fs.set f.config.resultPath d')

/-- The files after any number of runs over the same input. -/
inductive Past (env : Env) (ss : List Sect) : FileSystem → Prop
  | start (fs : FileSystem) (h : Untouched ss fs) : Past env ss fs
  | run (fs fs' : FileSystem) (kinds : List Bool) (st : Run.State) (h : Past env ss fs)
      (hk : kinds.length < 4294967296) (hr : Run.Reachable env (Run.initial kinds fs (program ss)) st)
      (hd : Run.Dies st fs') : Past env ss fs'
  | mpi (fs fs' : FileSystem) (kinds : List (List Bool)) (st : State) (h : Past env ss fs) (h0 : kinds ≠ [])
      (hk : ∀ k ∈ kinds, k.length < 4294967296) (hr : Reachable env (initial kinds fs (program ss)) st)
      (hd : Dies st fs') : Past env ss fs'

end Mpi
end Hycu
