import Verif.Spec.Mpi

/-!
Inputs for which the computation of some blocks may fail.
-/

namespace Hycu

/-- The result of a block, if its computation succeeds; otherwise nothing. -/
def succeeded (env : Run.Env) (c : ConfigNode) (b : Block) : StoreMap :=
  match env.compute c b with
  | .ok m => m
  | _ => []

/-- What is assumed about the input: blocks are different and not empty, all numbers fit, sections have different
directories, and the results of those computations that succeed are counts that can be added up.  Nothing is assumed
about which computations succeed. -/
structure Attempts (env : Run.Env) (ss : List Run.Sect) : Prop where
  blocks : ∀ s ∈ ss, s.blocks.Nodup
  nonempty : ∀ s ∈ ss, ∀ b ∈ s.blocks, b ≠ []
  fit : ∀ s ∈ ss, ∀ b ∈ s.blocks, ∀ x ∈ b, x.1 < 2147483648 ∧ x.2 < 2147483648
  keys : ∀ s ∈ ss, ∀ b ∈ s.blocks, ∀ m, env.compute s.cfg b = .ok m → ∀ e ∈ m, e.1.Fits
  counts : ∀ s ∈ ss, ∀ b ∈ s.blocks, ∀ m, env.compute s.cfg b = .ok m → ∀ e ∈ m, 0 ≤ e.2
  small : ∀ s ∈ ss, ∀ k, Small (total (s.blocks.flatMap (succeeded env s.cfg)) k)
  paths : (ss.map fun s => s.cfg.resultPath).Nodup

/-- The thread is about to compute a block for which the computation fails in the given way. -/
def Computes (env : Run.Env) (t : Run.Thread) (r : Res StoreMap) : Prop :=
  ∃ j tb, t.phase = .compute j ∧ j.tables = some tb ∧ env.compute tb.cfg j.block = r

end Hycu
