import Verif.Spec.Damage

/-!
Runs one after the other, each of them with an input of its own, over one file system.
-/

namespace Hycu
namespace Series

open Run (Env Input Sect program)

/-- What a run leaves behind, and whether it was complete.  A run that is not complete may have ended or died at any
time, between two writes or inside a write (but not inside the write of a record file). -/
inductive Left (env : Env) (ss : List Sect) (fs : FileSystem) : Bool → FileSystem → Prop
  | threaded (kinds : List Bool) (st : Run.State) (fs' : FileSystem) (hk : kinds.length < 4294967296)
      (hr : Run.Reachable env (Run.initial kinds fs (program ss)) st) (hd : Run.Dies st fs') : Left env ss fs false fs'
  | threadedEnd (kinds : List Bool) (st : Run.State) (hk : kinds.length < 4294967296)
      (hr : Run.Reachable env (Run.initial kinds fs (program ss)) st) (hpc : st.pc = .finished) (ht : st.todo = []) :
      Left env ss fs true st.fs
  | mpi (kinds : List (List Bool)) (st : Mpi.State) (fs' : FileSystem) (h0 : kinds ≠ [])
      (hk : ∀ k ∈ kinds, k.length < 4294967296) (hr : Mpi.Reachable env (Mpi.initial kinds fs (program ss)) st)
      (hd : Mpi.Dies st fs') : Left env ss fs false fs'
  | mpiEnd (kinds : List (List Bool)) (st : Mpi.State) (h0 : kinds ≠ []) (hk : ∀ k ∈ kinds, k.length < 4294967296)
      (hr : Mpi.Reachable env (Mpi.initial kinds fs (program ss)) st) (hpc : st.pc = .finished) (ht : st.todo = []) :
      Left env ss fs true st.fs

/-- The files after runs with the given inputs; the inputs may differ, and may use the same directories for different
configurations. -/
inductive After (env : Env) (fs₀ : FileSystem) : List (List Sect × Bool) → FileSystem → Prop
  | start : After env fs₀ [] fs₀
  | run {l : List (List Sect × Bool)} {fs fs' : FileSystem} {ss : List Sect} {b : Bool} (h : After env fs₀ l fs)
      (hl : Left env ss fs b fs') : After env fs₀ (l ++ [(ss, b)]) fs'

/-- The sections that were written to a directory, and whether their runs were complete. -/
def uses (p : List Char) (l : List (List Sect × Bool)) : List (Sect × Bool) :=
  l.flatMap fun x => (x.1.filter fun s => s.cfg.resultPath = p).map fun s => (s, x.2)

/-- What has been computed for a directory: every use adds blocks of its section that were not recorded before, whatever
the configuration was for which they were recorded; and a complete run adds all of them. -/
inductive Shares : List (Sect × Bool) → List (ConfigNode × Block) → Prop
  | nil : Shares [] []
  | use {us : List (Sect × Bool)} {l : List (ConfigNode × Block)} (s : Sect) (c : Bool) (g : List Block) (h : Shares us l)
      (hn : g.Nodup) (hg : ∀ b ∈ g, b ∈ s.blocks ∧ b ∉ l.map Prod.snd)
      (hc : c = true → ∀ b ∈ s.blocks, b ∉ l.map Prod.snd → b ∈ g) :
      Shares (us ++ [(s, c)]) (l ++ g.map fun b => (s.cfg, b))

/-- The block is given with the configuration of the first of the sections that has it. -/
def First (ts : List Sect) (x : ConfigNode × Block) : Prop :=
  ∃ a t z, ts = a ++ t :: z ∧ t.cfg = x.1 ∧ x.2 ∈ t.blocks ∧ ∀ s ∈ a, x.2 ∉ s.blocks

/-- The blocks of the sections, without those that have been seen before. -/
def firsts : List Block → List Sect → List (ConfigNode × Block)
  | _, [] => []
  | seen, s :: ss => ((s.blocks.filter fun b => b ∉ seen).map fun b => (s.cfg, b)) ++ firsts (seen ++ s.blocks) ss

end Series
end Hycu
