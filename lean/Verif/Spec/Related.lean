import Verif.Spec.Tally
import Verif.Spec.Census
import Verif.Spec.Mpi
import Verif.Spec.Totals

/-!
How tables of results for different configurations are related.
-/

namespace Hycu

/-- The key for counts over the extensions of degree `1..n` only. -/
def Key.cut (n : Nat) (k : Key) : Key := ⟨k.ramification, k.offsets.take n⟩

/-- `t'` is the table that remains of `t` if there are only counts over the extensions of degree `1..n`: keys that have become
equal are merged, and their numbers are added. -/
def CutTable (n : Nat) (t t' : StoreMap) : Prop := Tally t' (t.map fun x => (x.1.cut n, x.2))

/-- `t` is a table of all curves over the field of `q` elements, `t'` of curves that are given by polynomials of odd degree,
that is, with a branch point at infinity.  The line has `q + 1` points which are all alike, and the number of those that are
branch points of a curve is the number of ones in the ramification type. -/
def MarkedTable (q : Nat) (t t' : StoreMap) : Prop :=
  ∀ k, (k.ramification.count 1 : Int) * total t k = (q + 1 : Int) * total t' k

/-- A list of sections that FLINT and the machine can cope with. -/
structure Flint.Work (w : Flint) (ss : List Run.Sect) : Prop where
  setting : ∀ s ∈ ss, Nonempty (w.Setting s.cfg)
  feasible : ∀ s ∈ ss, s.cfg.Feasible
  small : ∀ s ∈ ss,
    polynomials (s.cfg.prime ^ s.cfg.primeExponent) s.cfg.genus s.cfg.withMarkedPoint < 4611686018427387904
  blocks : ∀ s ∈ ss, Terminates (w.blocks s.cfg) s.blocks

/-- The sections have different directories (the assumptions of C62). -/
structure Flint.Job (w : Flint) (ss : List Run.Sect) : Prop extends w.Work ss where
  paths : (ss.map fun s => s.cfg.resultPath).Nodup

/-- `d` is the directory for the configuration `c` after a complete run, with one or with several processes, whatever happened
in earlier runs except for crashes inside the write of a record file. -/
inductive Completed (w : Flint) (c : ConfigNode) (d : Dir) : Prop
  | threaded (ss : List Run.Sect) (hj : w.Job ss) (hc : ∃ s ∈ ss, s.cfg = c) (fs : FileSystem) (hf : Run.Past w.env ss fs)
      (kinds : List Bool) (hk : kinds.length < 4294967296) (st : Run.State)
      (hr : Run.Reachable w.env (Run.initial kinds fs (Run.program ss)) st) (hpc : st.pc = .finished) (ht : st.todo = [])
      (hd : st.fs c.resultPath = some d)
  | several (ss : List Run.Sect) (hj : w.Job ss) (hc : ∃ s ∈ ss, s.cfg = c) (fs : FileSystem) (hf : Mpi.Past w.env ss fs)
      (kinds : List (List Bool)) (h0 : kinds ≠ []) (hk : ∀ k ∈ kinds, k.length < 4294967296) (st : Mpi.State)
      (hr : Mpi.Reachable w.env (Mpi.initial kinds fs (Run.program ss)) st) (hpc : st.pc = .finished) (ht : st.todo = [])
      (hd : st.fs c.resultPath = some d)

end Hycu
