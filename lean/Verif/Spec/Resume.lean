import Verif.Spec.Directory
import Verif.Spec.History
import Verif.Spec.Run

/-!
Sequences of runs over the same input, each of which may die at any time.
-/

namespace Hycu
namespace Run

/-- What is assumed about the input: blocks are different and not empty, all numbers fit, and the computation of every
block succeeds with a result of counts that can be added up. -/
structure Tasks (env : Env) (ss : List Sect) (result : ConfigNode → Block → StoreMap) : Prop where
  blocks : ∀ s ∈ ss, s.blocks.Nodup
  nonempty : ∀ s ∈ ss, ∀ b ∈ s.blocks, b ≠ []
  fit : ∀ s ∈ ss, ∀ b ∈ s.blocks, ∀ x ∈ b, x.1 < 2147483648 ∧ x.2 < 2147483648
  compute : ∀ s ∈ ss, ∀ b ∈ s.blocks, env.compute s.cfg b = .ok (result s.cfg b)
  keys : ∀ s ∈ ss, ∀ b ∈ s.blocks, ∀ e ∈ result s.cfg b, e.1.Fits
  counts : ∀ s ∈ ss, ∀ b ∈ s.blocks, ∀ e ∈ result s.cfg b, 0 ≤ e.2
  small : ∀ s ∈ ss, ∀ k, Small (total (s.blocks.flatMap (result s.cfg)) k)

/-- The same, and sections have different directories. -/
structure Input (env : Env) (ss : List Sect) (result : ConfigNode → Block → StoreMap) : Prop
    extends Tasks env ss result where
  paths : (ss.map fun s => s.cfg.resultPath).Nodup

/-- Everything in the directory that has the name of a record or store is a regular file. -/
def Plain (d : Dir) : Prop := ∀ e ∈ d, ((∃ s, e.1 = s ++ ".hycu_record".toList) ∨ ∃ s, e.1 = s ++ ".hycu_store".toList) →
  Dir.regular e.2 = true

/-- Nothing has been recorded for the sections: the directories do not exist, or contain no records. -/
def Untouched (ss : List Sect) (fs : FileSystem) : Prop := ∀ s ∈ ss, ∀ d, fs s.cfg.resultPath = some d →
  d.NamesDiffer ∧ Plain d ∧ ∀ e ∈ d, ¬ ∃ s, e.1 = s ++ ".hycu_record".toList

/-- What a run leaves behind if it ends or dies in the given state: either between two writes, or inside a write (but
not inside the write of a record file). -/
inductive Dies (st : State) : FileSystem → Prop
  | between : Dies st st.fs
  | inside (ws : List (List Char × List Char)) (k : Cont) (f : FileStoreObj) (d d' : Dir) (hpc : st.pc = .write ws k)
      (hf : st.fileStore = some f) (hd : st.fs f.config.resultPath = some d) (hc : Dir.Crash ws d d') :
      Dies st (st.fs.set f.config.resultPath d')

/-- The files after any number of runs over the same input. -/
inductive Past (env : Env) (ss : List Sect) : FileSystem → Prop
  | start (fs : FileSystem) (h : Untouched ss fs) : Past env ss fs
  | run (fs fs' : FileSystem) (kinds : List Bool) (st : State) (h : Past env ss fs) (hk : kinds.length < 4294967296)
      (hr : Reachable env (initial kinds fs (program ss)) st) (hd : Dies st fs') : Past env ss fs'

end Run
end Hycu
