import Verif.Props.Messages
import Verif.Props.PaceLocks

/-!
C88 for the machine with small steps.
-/

namespace Hycu.MpiLocks

open Run (program)
open Locks (Config Reachable abs abs_private abs_free)

variable {env : Run.Env} {kinds : List (List Bool)} {fs : FileSystem} {ss : List Run.Sect} {c : Config Agent Lock Var Val}

/-- C88 for hycu-mpi in small steps: the bound includes the message that the worker has received and not handled, or the
reply that it is about to send. The queues are looked at when no process is just putting in or taking out a message. -/
theorem C88_messages (hk : ∀ k ∈ kinds, k.length < 4294967296) (hd : ∀ s ∈ ss, s.blocks.Nodup)
    (h : Reachable (system kinds env) (initial kinds fs (program ss)) c) {ix : Nat} {ks : List Bool}
    (hx : kinds[ix]? = some ks) (h1 : c.owner (.inbox ix) = none) (h2 : c.owner (.finishedOut ix) = none)
    (h3 : c.owner (.readyOut ix) = none) (h4 : c.owner (.saveOut ix) = none) :
    (c.mem (.of ix .inbox) : List Mpi.Msg).length + (c.mem (.of ix .finishedOut) : List (List Block)).length +
      (c.mem (.of ix .readyOut) : List (Nat × Nat)).length +
      (c.mem (.of ix .saveOut) : List (List Char × List Char)).length +
      (if (c.mem (.of ix .worker) : WorkerData).hand = .none then 0 else 1) ≤ ks.length + 2 := by
  obtain ⟨-, st, hm⟩ := refines h
  have key := Mpi.C88_messages hk hd (flat_reach hm.1).2 hx
  have e1 : (st.base.procs ix).inbox = c.mem (.of ix .inbox) := by
    rw [← abs_free (S := system kinds env) (l := .inbox ix) (x := .of ix .inbox) rfl h1, ← hm.2]; rfl
  have e2 : (st.base.procs ix).finishedOut = c.mem (.of ix .finishedOut) := by
    rw [← abs_free (S := system kinds env) (l := .finishedOut ix) (x := .of ix .finishedOut) rfl h2, ← hm.2]; rfl
  have e3 : (st.base.procs ix).readyOut = c.mem (.of ix .readyOut) := by
    rw [← abs_free (S := system kinds env) (l := .readyOut ix) (x := .of ix .readyOut) rfl h3, ← hm.2]; rfl
  have e4 : (st.base.procs ix).saveOut = c.mem (.of ix .saveOut) := by
    rw [← abs_free (S := system kinds env) (l := .saveOut ix) (x := .of ix .saveOut) rfl h4, ← hm.2]; rfl
  have e5 : st.hand ix = (c.mem (.of ix .worker) : WorkerData).hand := by
    have e : abs (system kinds env) c (.of ix .worker) = c.mem (.of ix .worker) :=
      abs_private (S := system kinds env) (a := .main ix) rfl
    rw [← e, ← hm.2]
    rfl
  rw [← e1, ← e2, ← e3, ← e4, ← e5]
  simp only [flat, flatProc, List.length_append] at key
  cases hh : st.hand ix <;> rw [hh] at key <;>
    simp only [Hand.msgs, Hand.finisheds, Hand.readys, Hand.saveds, List.length_nil, List.length_singleton] at key <;>
    simp only [reduceCtorEq, if_true, if_false] <;> omega

set_option maxRecDepth 20000 in
/-- The bound of `MpiLocks.C88_messages` is reached. -/
example : ∃ c, Reachable (system [[true], [true]] Run.demoEnv)
      (initial [[true], [true]] (fun _ => none) (program Mpi.queueSects)) c ∧ (∀ l, c.owner l = none) ∧
    (c.mem (.of 1 .inbox) : List Mpi.Msg).length = 3 := by
  have h4 : ∀ i b, (Mpi.queueRun 41 22).pc ≠ .notify i b := by
    intro i b
    have : (Mpi.queueRun 41 22).pc = .flushRecv 1 .fill := rfl
    rw [this]
    exact nofun
  have h5 : ((Mpi.queueRun 41 22).procs 1).pc = .probe := rfl
  obtain ⟨c, h6, _, h7, h8⟩ := C59_reaches (Mpi.queueRun_reachable 41 22) h4 (fun ix i h0 hx h => by
      have hx : ix < 2 := hx
      obtain rfl : ix = 1 := by omega
      rw [h5] at h
      cases h)
  exact ⟨c, h6, h7, by rw [h8]; rfl⟩

end Hycu.MpiLocks
