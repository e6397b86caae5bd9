import Verif.Model.Making
import Verif.Spec.Attempts

/-!
The blocks that a thread has got, and sections whose results have been saved.
-/

namespace Hycu

/-- The jobs of a thread: those in its queue, and the one that it computes or reports. -/
def Run.Thread.given (t : Run.Thread) : List Run.Job :=
  t.queue ++ match t.phase with
    | .compute j => [j]
    | .report j => [j]
    | _ => []

/-- The tables of the configuration of the job have been made successfully. -/
def Run.Job.Made (tab : ConfigNode → Res Unit) (j : Run.Job) : Prop := ∀ tb, j.tables = some tb → tab tb.cfg = .ok ()

/-- All blocks of the section have been computed, and the merger gives the sum of their results. -/
def Saved (env : Run.Env) (fs : FileSystem) (s : Run.Sect) : Prop := (∀ b ∈ s.blocks, ∃ m, env.compute s.cfg b = .ok m) ∧
  ∃ d r m, fs s.cfg.resultPath = some d ∧ Merger.merge d = .ok ⟨0, some (Store.print m, Record.print r)⟩ ∧
    Tally m (s.blocks.flatMap (succeeded env s.cfg)) ∧ ∀ b, b ≠ [] → (b ∈ r ↔ b ∈ s.blocks)

end Hycu
