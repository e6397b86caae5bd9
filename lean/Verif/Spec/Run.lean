import Verif.Model.Pool
import Verif.Spec.Tally

/-!
What is said about runs: the list of events so far (newest first), and the calls made for a list of sections.
-/

namespace Hycu
namespace Run

/-- The pairs of threads and jobs for which an event of the given kind happened, newest first. -/
def assignedJobs (l : List Event) : List (Nat × Job) :=
  l.filterMap fun e => match e with | .assigned i j => some (i, j) | _ => none

/-- See `assignedJobs`. -/
def takenJobs (l : List Event) : List (Nat × Job) :=
  l.filterMap fun e => match e with | .taken i j => some (i, j) | _ => none

/-- See `assignedJobs`. -/
def flushedJobs (l : List Event) : List (Nat × Job) :=
  l.filterMap fun e => match e with | .flushed i j => some (i, j) | _ => none

/-- See `assignedJobs`. -/
def reportedJobs (l : List Event) : List (Nat × Job) :=
  l.filterMap fun e => match e with | .reported i j => some (i, j) | _ => none

/-- The jobs that have been removed from the set of assigned blocks. -/
def erasedJobs (l : List Event) : List Job :=
  l.filterMap fun e => match e with | .erased j => some j | _ => none

/-- The tables made by the last `update_config`. -/
def lastConfig : List Event → Option Tables
  | [] => none
  | .config t :: _ => some t
  | _ :: l => lastConfig l

/-- The jobs flushed since the static store was emptied for the last time. -/
def pending : List Event → List Job
  | [] => []
  | .flushed _ j :: l => j :: pending l
  | .saved _ _ :: _ => []
  | _ :: l => pending l

/-- The static store has the blocks of the given jobs and the sum of their results. -/
structure Gathers (env : Env) (js : List Job) (s : Store.Static) : Prop where
  sorted : OSet.Sorted s.record
  mem : ∀ b, b ∈ s.record ↔ ∃ j ∈ js, j.block = b
  results : ∃ ms, List.Forall₂ (fun j m => ∃ tb, j.tables = some tb ∧ env.compute tb.cfg j.block = .ok m) js ms ∧
    Tally s.store ms.flatten

/-- A configuration and the blocks to be computed with it. -/
structure Sect where
  cfg : ConfigNode
  blocks : List Block

/-- The calls made by the main loop (src/executables/threaded.cc l.131-148). -/
def program (ss : List Sect) : List Cmd := ss.flatMap fun s => .config s.cfg :: s.blocks.map .assign

/-- The thread sleeps although it has a queued block, and no notification is on the way. -/
structure Asleep (i : Nat) (st : State) : Prop where
  lt : i < st.size
  sleep : (st.thr i).phase = .sleep
  queue : (st.thr i).queue ≠ []
  missed : ∀ b, st.pc ≠ .notify i b

/-- The thread does not hold its mutex between the test of the flags and the wait; a notification at this moment is
lost.  This says that it does not happen in a step. -/
def Alert (st : State) : Label → Prop
  | .master _ => ∀ i, (st.pc = .shutNotify i ∨ ∃ b, st.pc = .notify i b) → (st.thr i).phase ≠ .wait
  | _ => True

/-- An infinite execution, in which every thread is scheduled again and again.  A step that is not possible has no
effect. -/
structure Exec (env : Env) (st₀ : State) (σ : Nat → State) (ls : Nat → Label) : Prop where
  start : σ 0 = st₀
  next : ∀ n, step env (σ n) (ls n) = .ok (some (σ (n + 1))) ∨
    (step env (σ n) (ls n) = .ok none ∧ σ (n + 1) = σ n)
  thread : ∀ i, i < st₀.size → ∀ n, ∃ m, n ≤ m ∧ ls m = .thread i
  master : ∀ n, ∃ m, n ≤ m ∧ ∃ ch, ls m = .master ch

/-- Whenever the main thread needs the name of a new file, it will find one. -/
def Renewing (σ : Nat → State) (ls : Nat → Label) : Prop :=
  ∀ n, ∃ m, n ≤ m ∧ ∃ ch, ls m = .master ch ∧ ∀ k f d, (σ m).pc = .save k → (σ m).fileStore = some f →
    f.valid = true → (σ m).fs f.config.resultPath = some d → FileStore.fresh d ch.id = true

/-- Directories can be created. -/
def Creating (ls : Nat → Label) : Prop := ∀ n ch, ls n = .master ch → ch.create = true

/-- No number in the configuration is zero. -/
structure Nonzero (c : ConfigNode) : Prop where
  prime : c.prime ≠ 0
  exponent : c.primeExponent ≠ 0
  genus : c.genus ≠ 0
  count : c.countExponent ≠ 0
  package : c.packageSize ≠ 0

end Run
end Hycu
