import Verif.Model.MpiLocks

/-!
How states of the machine in which the main thread of a worker receives, handles and replies in separate steps correspond to
states of the machine in `Verif.Model.Mpi`.
-/

namespace Hycu
namespace MpiLocks

open Mpi (Proc Msg)

/-- The message that is to be handled. -/
def Hand.msgs : Hand → List Msg
  | .got m => [m]
  | _ => []

/-- The replies that are to be sent. -/
def Hand.finisheds : Hand → List (List Block)
  | .finished bs => [bs]
  | _ => []

@[inherit_doc Hand.finisheds]
def Hand.readys : Hand → List (Nat × Nat)
  | .ready n => [n]
  | _ => []

@[inherit_doc Hand.finisheds]
def Hand.saveds : Hand → List (List Char × List Char)
  | .saved s => [s]
  | _ => []

/-- A message is not received before it is handled, a reply is sent at once. -/
def flatProc (p : Proc) (h : Hand) : Proc :=
  { p with inbox := h.msgs ++ p.inbox, finishedOut := p.finishedOut ++ h.finisheds, readyOut := p.readyOut ++ h.readys,
           saveOut := p.saveOut ++ h.saveds }

@[inherit_doc flatProc]
def flat (st : State) : Mpi.State := { st.base with procs := fun ix => flatProc (st.base.procs ix) (st.hand ix) }

/-! ### Scheduling -/

/-- Threads that wait for notifications. -/
def sleeper : Agent → Prop
  | .main _ => False
  | .thread _ _ => True

/-- The main thread of a process is about to notify a thread (src/threaded/thread.cc l.46, l.131). -/
def Notifies (m : Mem) (ix i : Nat) : Prop :=
  (ix = 0 ∧ ((∃ b, (m .master : MasterData).pc = .notify i b) ∨ (m .master : MasterData).pc = .shutNotify i)) ∨
  (0 < ix ∧ (m (.of ix .worker) : WorkerData).hand = .none ∧
    ((m (.of ix .worker) : WorkerData).pc = .notify i ∨ (m (.of ix .worker) : WorkerData).pc = .shutNotify i))

/-- A thread does not hold its mutex between the test of the flags and the wait; a notification at this moment is
lost.  This says that it does not happen if the given thread makes a step. -/
def Alert (c : Locks.Config Agent Lock Var Val) : Agent → Prop
  | .main ix => c.prog (.main ix) = .out → ∀ i, Notifies c.mem ix i → (c.mem (.of ix (.phase i)) : Run.Phase) ≠ .wait
  | .thread _ _ => True

end MpiLocks
end Hycu
