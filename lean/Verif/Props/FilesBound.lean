import Verif.Lemmas.FilesBound
import Verif.Props.PaceLocks

/-!
C89: how many files a run makes.
-/

namespace Hycu

open Run (Env Sect program)

/-- The number of entries of some directories; a directory that does not exist has none. -/
def entries (fs : FileSystem) (S : Finset (List Char)) : Nat :=
  ∑ p ∈ S, (match fs p with | some d => d.length | none => 0)

/-- Calls of `update_config` and `assign` for sections whose results are in some directories. -/
def calls (ss : List Sect) (S : Finset (List Char)) : Nat :=
  ((ss.filter fun s => s.cfg.resultPath ∈ S).map fun s => s.blocks.length + 1).sum

theorem saves_calls (S : Finset (List Char)) (ss : List Sect) : saves S (program ss) false = calls ss S := by
  rw [saves_program]
  unfold calls
  induction ss with
  | nil => rfl
  | cons s ss ih =>
    simp only [Bool.toNat_false, Nat.zero_add] at ih
    by_cases h : s.cfg.resultPath ∈ S
    · simp [h, ih]
    · simp [h, ih]

namespace Run

/-- C89: at any time, a run has made at most two files for each block and each section with results in some directories, in
these directories together. -/
theorem C89_files {env : Env} {kinds : List Bool} {ss : List Sect} {fs : FileSystem} {st : State}
    (h : Reachable env (initial kinds fs (program ss)) st) (S : Finset (List Char)) :
    entries st.fs S ≤ entries fs S + 2 * calls ss S := by
  have := (Owing.reachable h S).files
  rw [saves_calls] at this
  exact (Nat.le_add_right _ _).trans this

/-- One block. -/
def fileSect : Sect := ⟨⟨7, 1, 2, false, 1, "out".toList, 100⟩, [[(0, 10)]]⟩

/-- A step, if it is possible. -/
def tryStep (st : State) (l : Label) : State :=
  match step demoEnv st l with
  | .ok (some st') => st'
  | _ => st

theorem tryStep_reachable {st₀ : State} (ls : List Label) : ∀ {st : State}, Reachable demoEnv st₀ st →
    Reachable demoEnv st₀ (ls.foldl tryStep st) := by
  induction ls with
  | nil => exact fun h => h
  | cons l ls ih =>
    intro st h
    refine ih ?_
    unfold tryStep
    split
    · exact .step _ h ‹_›
    · exact h

/-- A run in which the time to save has always come. -/
def fileRun (n : Nat) : State :=
  ((List.range n).flatMap fun k => [Label.thread 0, .master ⟨true, true, k⟩]).foldl tryStep
    (initial [false] (fun _ => none) (program [fileSect]))

theorem fileRun_reachable (n : Nat) :
    Reachable demoEnv (initial [false] (fun _ => none) (program [fileSect])) (fileRun n) :=
  tryStep_reachable _ .refl

set_option maxRecDepth 20000 in
/-- The bound of `Run.C89_files` is reached: a section with one block gives four files. -/
example : entries (fileRun 22).fs {"out".toList} = 2 * calls [fileSect] {"out".toList} := by
  rw [entries, Finset.sum_singleton]
  rfl

end Run

namespace Mpi

/-- C89: with several processes, two files of each process for each block and each section. -/
theorem C89_files {env : Env} {kinds : List (List Bool)} {ss : List Sect} {fs : FileSystem} {st : State}
    (h0 : kinds ≠ []) (h : Reachable env (initial kinds fs (program ss)) st) (S : Finset (List Char)) :
    entries st.fs S ≤ entries fs S + 2 * kinds.length * calls ss S := by
  have := (Owing.reachable h0 h S).files
  rw [saves_calls] at this
  exact (Nat.le_add_right _ _).trans this

/-- A run with two processes in which the time to save has always come. -/
def fileRun (n : Nat) : State :=
  ((List.range n).flatMap fun k => [Label.thread 1 0, .worker 1, .thread 0 0, .master ⟨true, true, k⟩]).foldl
    (attempt Run.demoEnv) (initial [[false], [false]] (fun _ => none) (program [Run.fileSect]))

theorem fileRun_reachable (n : Nat) :
    Reachable Run.demoEnv (initial [[false], [false]] (fun _ => none) (program [Run.fileSect])) (fileRun n) :=
  attempts_reachable _ .refl

set_option maxRecDepth 20000 in
/-- The bound of `Mpi.C89_files` is reached: a section with one block gives eight files. -/
example : entries (fileRun 54).fs {"out".toList} = 2 * [[false], [false]].length * calls [Run.fileSect] {"out".toList} := by
  rw [entries, Finset.sum_singleton]
  rfl

end Mpi

namespace Locks

/-- C89 for hycu-threaded in small steps. -/
theorem C89_files {env : Env} {kinds : List Bool} {ss : List Sect} {fs : FileSystem} {c : Config Agent Lock Var Val}
    (h : Reachable (runs kinds env) (initial kinds fs (program ss)) c) (S : Finset (List Char)) :
    entries (c.mem .main : MainData).fs S ≤ entries fs S + 2 * calls ss S := by
  obtain ⟨-, st, h1, h2, -⟩ := refines h
  have e : abs (runs kinds env) c .main = c.mem .main := abs_private (S := runs kinds env) (a := .main) rfl
  rw [← e, ← h2]
  exact Run.C89_files h1 S

set_option maxRecDepth 20000 in
/-- The bound of `Locks.C89_files` is reached. -/
example : ∃ c, Reachable (runs [false] Run.demoEnv) (initial [false] (fun _ => none) (program [Run.fileSect])) c ∧
    entries (c.mem .main : MainData).fs {"out".toList} = 2 * calls [Run.fileSect] {"out".toList} := by
  have h4 : (Run.fileRun 22).pc = .write [] .exit := rfl
  obtain ⟨c, h5, _, _, h7⟩ := C54_reaches (Run.fileRun_reachable 22) fun i b h => by rw [h4] at h; cases h
  refine ⟨c, h5, ?_⟩
  rw [h7, entries, Finset.sum_singleton]
  rfl

end Locks

namespace MpiLocks

open Locks (Config Reachable abs abs_private)

/-- C89 for hycu-mpi in small steps. -/
theorem C89_files {env : Env} {kinds : List (List Bool)} {ss : List Sect} {fs : FileSystem}
    {c : Config Agent Lock Var Val} (h0 : kinds ≠ [])
    (h : Reachable (system kinds env) (initial kinds fs (program ss)) c) (S : Finset (List Char)) :
    entries (c.mem .master : MasterData).fs S ≤ entries fs S + 2 * kinds.length * calls ss S := by
  obtain ⟨-, st, hm⟩ := refines h
  have e : abs (system kinds env) c .master = c.mem .master := abs_private (S := system kinds env) (a := .main 0) rfl
  rw [← e, ← hm.2]
  exact Mpi.C89_files h0 (flat_reach hm.1).2 S

set_option maxRecDepth 20000 in
/-- The bound of `MpiLocks.C89_files` is reached. -/
example : ∃ c, Reachable (system [[false], [false]] Run.demoEnv)
      (initial [[false], [false]] (fun _ => none) (program [Run.fileSect])) c ∧
    entries (c.mem .master : MasterData).fs {"out".toList} =
      2 * [[false], [false]].length * calls [Run.fileSect] {"out".toList} := by
  have h4 : (Mpi.fileRun 54).pc = .write [] 1 .exit := rfl
  have h5 : ((Mpi.fileRun 54).procs 1).pc = .probe := rfl
  obtain ⟨c, h6, _, _, h8⟩ := C59_reaches (Mpi.fileRun_reachable 54) (fun i b h => by rw [h4] at h; cases h)
    (fun ix i h0 hx h => by
      have hx : ix < 2 := hx
      obtain rfl : ix = 1 := by omega
      rw [h5] at h
      cases h)
  refine ⟨c, h6, ?_⟩
  rw [h8, entries, Finset.sum_singleton]
  rfl

end MpiLocks

end Hycu
