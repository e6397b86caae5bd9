import Verif.Model.Pool
import Verif.Model.ReferenceStore

/-!
The tests in test/threaded.cc up to the comparison: a pool of threads of which each flushes to a `TestStore`.

The pool is that of `Model/Pool`.  There are two differences to a run of `hycu-threaded`.  The configuration is not
verified, and its path is left empty, which is not a directory, so that the file store of the pool is invalid.  Results go
to the static store of `TestStore`, which is a different one than that of `Store` (test/test_store.hh l.84-87).  The latter
is the one that is saved (src/store/store.cc l.96-111), and stays empty.

As in `Model/ReferenceStore`, the missing argument `with_marked_point` of the tests is a part of the configuration.
-/

namespace Hycu
namespace Reference

/-- State of a test: the pool, and the static store of `TestStore`. -/
structure PoolState where
  run : Run.State
  test : StoreMap

/-- A step that does not change the static store of `TestStore`. -/
def PoolState.lift (s : PoolState) (r : Res (Option Run.State)) : Res (Option PoolState) := do
  let o ← r
  pure (o.map fun st => ⟨st, s.test⟩)

/-- Computing and flushing a block (src/threaded/thread.cc l.86-93, test/test_store.hh l.59-72). -/
def flushStep (env : Run.Env) (s : PoolState) (i : Nat) (j : Run.Job) : Res (Option PoolState) :=
  match j.tables with
  | none => .ub
  | some tb => do
    let m ← env.compute tb.cfg j.block
    let t ← flush s.test m
    pure (some ⟨{ s.run.setThread i { s.run.thr i with phase := .report j } with log := .flushed i j :: s.run.log }, t⟩)

/-- Steps of a worker thread (src/threaded/thread.cc l.50-106): as in a run, except for flushing. -/
def poolThread (env : Run.Env) (s : PoolState) (i : Nat) : Res (Option PoolState) :=
  match (s.run.thr i).phase with
  | .compute j => flushStep env s i j
  | _ => s.lift (Run.threadStep env s.run i)

/-- One step of a test. -/
def poolStep (env : Run.Env) (s : PoolState) : Run.Label → Res (Option PoolState)
  | .thread i => if i < s.run.size then poolThread env s i else .ok none
  | l => s.lift (Run.step env s.run l)

/-- The state in which the test calls `update_config` (test/threaded.cc l.39-52); then all blocks are assigned, and the
destructor of the pool is called (l.54-58). -/
def poolInitial (kinds : List Bool) (fs : FileSystem) (c : ConfigNode) (blocks : List Block) : PoolState where
  run := { Run.initial kinds fs (.config c :: blocks.map .assign) with pc := .wait .config }
  test := []

/-- States that can be reached. -/
inductive PoolReachable (env : Run.Env) (s₀ : PoolState) : PoolState → Prop
  | refl : PoolReachable env s₀ s₀
  | step {s s' : PoolState} (l : Run.Label) (h : PoolReachable env s₀ s) (hs : poolStep env s l = .ok (some s')) :
      PoolReachable env s₀ s'

end Reference
end Hycu
