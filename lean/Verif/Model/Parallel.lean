import Verif.Model.Mpi

/-!
Several runs at the same time, which share a file system: of `hycu-threaded`, of `hycu-mpi`, or of both.
-/

namespace Hycu
namespace Parallel

open Run (Cmd Env)

/-- How a run is started: with one process, of which the kinds of threads are given, or with several processes. -/
inductive Pool where
  | threaded (kinds : List Bool)
  | mpi (kinds : List (List Bool))

/-- The state of a run.  Its own field for the file system is replaced by the file system that is shared (`withFs`)
whenever it makes a step. -/
inductive Prog where
  | threaded (st : Run.State)
  | mpi (st : Mpi.State)

/-- Who makes a step within a run. -/
inductive Move where
  | threaded (l : Run.Label)
  | mpi (l : Mpi.Label)

/-- The main thread, or the main thread of the master. -/
def Move.main : Move → Bool
  | .threaded (.master _) => true
  | .mpi (.master _) => true
  | _ => false

namespace Prog

/-- A run at its beginning (src/executables/threaded.cc l.131-136, src/executables/mpi.cc l.139-144). -/
def start (fs : FileSystem) (todo : List Cmd) : Pool → Prog
  | .threaded kinds => .threaded (Run.initial kinds fs todo)
  | .mpi kinds => .mpi (Mpi.initial kinds fs todo)

def fs : Prog → FileSystem
  | .threaded st => st.fs
  | .mpi st => st.fs

def withFs (fs : FileSystem) : Prog → Prog
  | .threaded st => .threaded { st with fs := fs }
  | .mpi st => .mpi { st with fs := fs }

def todo : Prog → List Cmd
  | .threaded st => st.todo
  | .mpi st => st.todo

/-- The steps of the two machines (`Run.step`, `Mpi.step`). -/
def step (env : Env) : Prog → Move → Res (Option Prog)
  | .threaded st, .threaded l => (Run.step env st l).bind fun o => .ok (o.map .threaded)
  | .mpi st, .mpi l => (Mpi.step env st l).bind fun o => .ok (o.map .mpi)
  | _, _ => .ok none

/-- The main function is about to call `verify` for a configuration, and the numbers in it are not zero
(src/config/config_node.hh l.56-57). -/
def verifying : Prog → Option ConfigNode
  | .threaded st => match st.pc, st.todo with
    | .main, .config c :: _ => if c.prime ≠ 0 ∧ c.primeExponent ≠ 0 ∧ c.genus ≠ 0 ∧ c.countExponent ≠ 0 then some c else none
    | _, _ => none
  | .mpi st => match st.pc, st.todo with
    | .main, .config c :: _ => if c.prime ≠ 0 ∧ c.primeExponent ≠ 0 ∧ c.genus ≠ 0 ∧ c.countExponent ≠ 0 then some c else none
    | _, _ => none

/-- `verify` has returned false: the main function ends, after the destructor of the pool
(src/executables/threaded.cc l.138-139, src/executables/mpi.cc l.146-147). -/
def refused : Prog → Prog
  | .threaded st => .threaded { st with pc := .wait .exit }
  | .mpi st => .mpi { st with pc := .flush (.wait .exit) }

/-- The file that is written next: its directory and its name (src/store/file_store.cc l.72-73). -/
def writing : Prog → Option (List Char × List Char)
  | .threaded st => match st.pc, st.fileStore with
    | .write ((n, _) :: _) _, some f => some (f.config.resultPath, n)
    | _, _ => none
  | .mpi st => match st.pc, st.fileStore with
    | .write ((n, _) :: _) _ _, some f => some (f.config.resultPath, n)
    | _, _ => none

/-- The run has ended, and everything has been done. -/
def complete : Prog → Prop
  | .threaded st => st.pc = .finished ∧ st.todo = []
  | .mpi st => st.pc = .finished ∧ st.todo = []

end Prog

/-- A file system and the runs.  `tested i` means that run `i` is in `verify` between `is_directory`, which returned
false, and `create_directories` (src/config/config_node.hh l.58). -/
structure State where
  fs : FileSystem
  runs : Nat → Prog
  tested : Nat → Bool

/-- A run makes a step, or it tests whether a directory is there, or it finds that a directory was made by another run
after the test. -/
inductive Label where
  | step (i : Nat) (l : Move)
  | test (i : Nat)
  | refuse (i : Nat)

/-- One step of `n` runs; `none` if this step is not possible.  Every write of a file, and every reading of the records
in a directory, is one step.  All other steps of the runs do not use the file system, except that `verify` uses it
twice: the test for the directory, and its creation.  They are one step, or they are two steps with steps of other runs
in between; `create_directories` returns false if the directory was made in the meantime. -/
def step (env : Env) (n : Nat) (P : State) : Label → Res (Option State)
  | .step i l =>
    if i < n ∧ ¬ (P.tested i = true ∧ l.main = true ∧ ∃ c ∈ (P.runs i).verifying, (P.fs c.resultPath).isSome = true) then
      ((P.runs i).withFs P.fs |>.step env l).bind fun o => .ok (o.map fun r =>
        ⟨r.fs, Function.update P.runs i r, if l.main then Function.update P.tested i false else P.tested⟩)
    else .ok none
  | .test i =>
    match (P.runs i).verifying with
    | none => .ok none
    | some c =>
      if i < n ∧ P.fs c.resultPath = none then .ok (some { P with tested := Function.update P.tested i true }) else .ok none
  | .refuse i =>
    match (P.runs i).verifying with
    | none => .ok none
    | some c =>
      if i < n ∧ P.tested i = true ∧ (P.fs c.resultPath).isSome then
        .ok (some ⟨P.fs, Function.update P.runs i (P.runs i).refused, Function.update P.tested i false⟩)
      else .ok none

end Parallel
end Hycu
