import Verif.Spec.OpenCL
import Verif.Model.OpenCLCalls

/-!
What is said about failures of OpenCL.
-/

namespace Hycu
namespace Calls

open OpenCL (Addr Buf Kernel Cmd Event)

/-- As `OpenCL.Prompt`: the host does not return from `enqueue` before the device has read the coefficients. -/
def Prompt (s : State) : Action → Prop
  | .host _ => ∀ r, s.todo = .free .arg :: r → ∀ b n, Cmd.write b .arg n ∉ s.base.queue
  | .device _ => True

/-- Executions whose steps meet a condition. -/
inductive Reachable (P : State → Action → Prop) (junk : Buf → Nat → Nat) (s₀ : State) : State → Prop
  | refl : Reachable P junk s₀ s₀
  | step {s s' : State} {a : Action} (h : Reachable P junk s₀ s) (ha : P s a) (hs : step junk s a = .ok (some s')) :
      Reachable P junk s₀ s'

/-- The buffers to which kernels write. -/
def Result : Obj → Prop
  | .buffer (.unramified _) => True
  | .buffer (.ramified _) => True
  | _ => False

/-- The only call that fails is the constructor of an object. -/
def FailsAt (o : Obj) (s : State) : Action → Prop
  | .host true => ∃ n r, s.todo = .make o n :: r
  | _ => True

/-- Calls whose status is checked. -/
def Checked : Call → Prop
  | .build _ => True
  | .set _ _ _ _ => True
  | .write _ _ _ => True
  | .run _ _ _ => True
  | .read _ _ => True
  | _ => False

end Calls
end Hycu
