import Verif.Spec.Faults
import Verif.Spec.Mpi

/-!
Directories with any content that runs add to, and runs that die at any time.
-/

namespace Hycu

/-- What becomes of a directory to which runs add files: pairs of a record and a store under unused ids, and stores
without record, which are left behind by saves that were interrupted.  `ps` are the pairs that were added. -/
inductive Dir.Grows (d₀ : Dir) : Dir → List (OSet Block × StoreMap) → Prop
  | start : Grows d₀ d₀ []
  | store (d : Dir) (ps : List (OSet Block × StoreMap)) (id : Nat) (c : List Char) (h : Grows d₀ d ps)
      (hid : d.Absent id) : Grows d₀ (d ++ [(FileStore.storeName id, .file c)]) ps
  | pair (d : Dir) (ps : List (OSet Block × StoreMap)) (id : Nat) (p : OSet Block × StoreMap) (h : Grows d₀ d ps)
      (hid : d.Absent id) (hp : PairOk p) : Grows d₀ (d ++ [(FileStore.storeName id, .file (Store.print p.2)),
        (FileStore.recordName id, .file (Record.print p.1))]) (ps ++ [p])

namespace Run

/-- Directories of which nothing is known but that the records in them can be read. -/
def Open (ss : List Sect) (fs : FileSystem) : Prop := ∀ s ∈ ss, ∀ d, fs s.cfg.resultPath = some d →
  d.NamesDiffer ∧ Plain d ∧ ∃ r, FileStore.initialRecord d = .ok r

/-- No block that is cut off looks like another block of the same section. -/
def Distinguishable (ss : List Sect) : Prop := ∀ s ∈ ss, ∀ b ∈ s.blocks, ∀ b' ∈ s.blocks, CutBlock b b' → b' = b

/-- What a run leaves behind if it ends or dies in the given state, either between two writes or inside the next write,
of which any part may have been done. -/
inductive DiesAt (st : State) : FileSystem → Prop
  | between : DiesAt st st.fs
  | inside (n c part : List Char) (ws : List (List Char × List Char)) (k : Cont) (f : FileStoreObj) (d : Dir)
      (hpc : st.pc = .write ((n, c) :: ws) k) (hf : st.fileStore = some f)
      (hd : st.fs f.config.resultPath = some d) (hp : part <+: c) :
      DiesAt st (st.fs.set f.config.resultPath (d.write n part))

end Run

namespace Mpi

open Run (FileStoreObj Cont Env Sect program Untouched)

/-- The same for several processes, where only the master writes. -/
inductive DiesAt (st : State) : FileSystem → Prop
  | between : DiesAt st st.fs
  | inside (n c part : List Char) (ws : List (List Char × List Char)) (ix : Nat) (k : Cont) (f : FileStoreObj) (d : Dir)
      (hpc : st.pc = .write ((n, c) :: ws) ix k) (hf : st.fileStore = some f)
      (hd : st.fs f.config.resultPath = some d) (hp : part <+: c) :
      DiesAt st (st.fs.set f.config.resultPath (d.write n part))

/-- The files after any number of runs over the same input with one or several processes, each of which ended or died
at any time. -/
inductive AnyPast (env : Env) (ss : List Sect) : FileSystem → Prop
  | start (fs : FileSystem) (h : Untouched ss fs) : AnyPast env ss fs
  | run (fs fs' : FileSystem) (kinds : List Bool) (st : Run.State) (h : AnyPast env ss fs)
      (hk : kinds.length < 4294967296) (hr : Run.Reachable env (Run.initial kinds fs (program ss)) st)
      (hd : Run.DiesAt st fs') : AnyPast env ss fs'
  | mpi (fs fs' : FileSystem) (kinds : List (List Bool)) (st : State) (h : AnyPast env ss fs) (h0 : kinds ≠ [])
      (hk : ∀ k ∈ kinds, k.length < 4294967296) (hr : Reachable env (initial kinds fs (program ss)) st)
      (hd : DiesAt st fs') : AnyPast env ss fs'

end Mpi
end Hycu
