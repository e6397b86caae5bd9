import Verif.Model.OpenCL

/-!
What is said about the count with OpenCL.
-/

namespace Hycu
namespace OpenCL

/-- The host does not return from `enqueue` before the device has read the coefficients.  The code does not take care of
this. -/
def Prompt (s : State) : Action → Prop
  | .host => ∀ r, s.todo = .free .arg :: r → ∀ b n, Cmd.write b .arg n ∉ s.queue
  | .device _ => True

/-- Executions whose steps meet a condition. -/
inductive Reachable (P : State → Action → Prop) (junk : Buf → Nat → Nat) (s₀ : State) : State → Prop
  | refl : Reachable P junk s₀ s₀
  | step {s s' : State} {a : Action} (h : Reachable P junk s₀ s) (ha : P s a) (hs : step junk s a = .ok (some s')) :
      Reachable P junk s₀ s'

/-- All executions. -/
def Any (_ : State) (_ : Action) : Prop := True

/-- How tables are used by careful code.  `used` are the tables that have been made, `live` those that still exist, and
`fresh` those that have been made after the last count: no table is destroyed before there is a count after its
construction. -/
def Careful (rts : Nat → ReductionTable) : (used live fresh : List Nat) → List Event → Prop
  | _, _, _, [] => True
  | used, live, fresh, .table t moved :: es =>
    moved = false ∧ t ∉ used ∧ Careful rts (t :: used) (t :: live) (t :: fresh) es
  | used, live, _, .count t cs :: es =>
    t ∈ live ∧ cs ≠ [] ∧ (∃ n, Curve.countOpencl (rts t) cs (0, 0) = .ok n) ∧ Careful rts used live [] es
  | used, live, fresh, .drop t :: es => t ∈ live ∧ t ∉ fresh ∧ Careful rts used (live.filter (· ≠ t)) fresh es

/-- The counts that are asked for. -/
def counts : List Event → List (Nat × List Nat)
  | [] => []
  | .count t cs :: es => (t, cs) :: counts es
  | _ :: es => counts es

end OpenCL
end Hycu
