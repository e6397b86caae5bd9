import Verif.Spec.Directory
import Verif.Model.MergerMain

/-!
Terms for the properties of the main function of `hycu-merger`.
-/

namespace Hycu
namespace Merger

/-- The command asks for a merge of the files in the directory `d`, which exists, into `output`. -/
def Asks (w : World) (o : Options) (d : Dir) (output : List Char) : Prop :=
  o.help = false ∧ o.outputFile = some output ∧
    ∃ input dir, o.inputPath = some input ∧ w.kind input = .directory dir ∧ w.fs dir = some d

/-- Nothing in the directory is called `s.hycu_record` or `s.hycu_store`. -/
def Free (d : Dir) (s : List Char) : Prop :=
  ∀ e ∈ d, e.1 ≠ s ++ ".hycu_record".toList ∧ e.1 ≠ s ++ ".hycu_store".toList

/-- The name can be opened for writing: it does not exist, or is a file with permissions. -/
def Writable (d : Dir) (n : List Char) : Prop := ∀ e, Dir.lookup d n = some e → ∃ c, e = .file c

/-- Every count multiplied by `n`. -/
def times (n : Nat) (m : StoreMap) : StoreMap := m.map fun e => (e.1, (n : Int) * e.2)

/-- The same command `n` times, as long as it ends with exit code 0. -/
inductive Runs (o : Options) : Nat → World → World → Prop
  | nil (w : World) : Runs o 0 w w
  | snoc {n : Nat} {w w' : World} {fs : FileSystem} (h : Runs o n w w') (h' : main w' o = .ok (fs, 0)) :
      Runs o (n + 1) w { w' with fs := fs }

end Merger
end Hycu
