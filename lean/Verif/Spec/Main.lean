import Verif.Model.Main
import Verif.Spec.Resume

/-!
What is said about the main functions.
-/

namespace Hycu
namespace Main

open Run (Sect Nonzero)

/-- The merger gives the sum of the results of all blocks of a section, and the records have exactly these blocks. -/
def Merged (result : ConfigNode → Block → StoreMap) (fs : FileSystem) (s : Sect) : Prop :=
  ∃ d r m, fs s.cfg.resultPath = some d ∧ Merger.merge d = .ok ⟨0, some (Store.print m, Record.print r)⟩ ∧
    Tally m (s.blocks.flatMap (result s.cfg)) ∧ ∀ b, b ≠ [] → (b ∈ r ↔ b ∈ s.blocks)

/-- The sections before a certain point have been worked off, and those after it have not been touched, except that the
directory of the first of them may have been created; this one has a number that is zero, or its directory does not
exist. -/
structure Stopped (result : ConfigNode → Block → StoreMap) (fs₀ fs : FileSystem) (done rest : List Sect) : Prop where
  nonzero : ∀ s ∈ done, Nonzero s.cfg
  merged : ∀ s ∈ done, Merged result fs s
  reason : ∀ s later, rest = s :: later → ¬ Nonzero s.cfg ∨ fs s.cfg.resultPath = none
  head : ∀ s later, rest = s :: later → fs s.cfg.resultPath = fs₀ s.cfg.resultPath ∨
    (fs₀ s.cfg.resultPath = none ∧ fs s.cfg.resultPath = some [])
  later : ∀ s later, rest = s :: later → ∀ s' ∈ later, fs s'.cfg.resultPath = fs₀ s'.cfg.resultPath

/-- The node for a configuration. -/
def node (c : ConfigNode) : YamlNode :=
  .map ((Yaml.encode c).map fun e => (e.1, match e.2 with | .scalar text => .scalar text | .other => .null))

/-- The names between the separators of a path. -/
def components (p : List Char) : List (List Char) := (p.splitOn '/').filter (fun n => n ≠ [])

end Main
end Hycu
