import Verif.Spec.OpenCL
import Verif.Model.OpenCLItems

/-!
What is said about the count with OpenCL, where work items run in single accesses.
-/

namespace Hycu
namespace Items

open OpenCL

/-- The host does not return from `enqueue` before the device has read the coefficients. -/
def Prompt (s : State) : Action → Prop
  | .host => OpenCL.Prompt s.base .host
  | _ => True

/-- Executions whose steps meet a condition. -/
inductive Reachable (P : State → Action → Prop) (junk : Buf → Nat → Nat) (s₀ : State) : State → Prop
  | refl : Reachable P junk s₀ s₀
  | step {s s' : State} {a : Action} (h : Reachable P junk s₀ s) (ha : P s a)
      (hs : Items.step junk s a = .ok (some s')) : Reachable P junk s₀ s'

/-- All executions. -/
def Any (_ : State) (_ : Action) : Prop := True

/-- A kernel for a table and a polynomial with `n` coefficients is about to run on buffers that have the table and the
coefficients, and places for the results. -/
structure Ready (rt : ReductionTable) (t : Nat) (cs : List Nat) (s : State) : Prop where
  queue : s.base.queue = [.kernel (kernelFor rt t (cs.length - 1)) (List.range rt.primePowerPred)]
  todo : s.base.todo = []
  pc : ∀ x, s.pc x = .start
  log : s.log = []
  coeffs : s.base.bufs (.coeffs t (cs.length - 1)) = some cs
  ert : s.base.bufs (.ert t) = some rt.exponentReductionTable
  inc : s.base.bufs (.inc t) = some rt.incrementationTable
  unramified : ∃ u, s.base.bufs (.unramified t) = some u ∧ u.length = rt.primePowerPred
  ramified : ∃ r, s.base.bufs (.ramified t) = some r ∧ r.length = rt.primePowerPred

end Items
end Hycu
