import Verif.Props.Pace
import Verif.Props.AttemptsLocks

/-!
C86 for the machines with small steps.
-/

namespace Hycu

open Run (program)

namespace Locks

variable {env : Run.Env} {kinds : List Bool} {fs : FileSystem} {ss : List Run.Sect} {c : Config Agent Lock Var Val}

/-- C86 for hycu-threaded in small steps: no thread has more than one block; a thread that computes or reports a block has
an empty queue. The queue is looked at when no thread is just working on it. -/
theorem C86_thread (hk : kinds.length < 4294967296) (hd : ∀ s ∈ ss, s.blocks.Nodup)
    (h : Reachable (runs kinds env) (initial kinds fs (program ss)) c) {i : Nat} (hi : i < kinds.length)
    (ho : c.owner (.data i) = none) :
    (c.mem (.queue i) : List Run.Job).length ≤ 1 ∧
      ∀ j, (c.mem (.phase i) = Run.Phase.compute j ∨ c.mem (.phase i) = Run.Phase.report j) →
        (c.mem (.queue i) : List Run.Job) = [] := by
  obtain ⟨-, st, h1, h2, h3, -⟩ := refines h
  have key := Run.C86_thread hk hd h1 hi
  have hph : (st.thr i).phase = c.mem (.phase i) := by
    have e : abs (runs kinds env) c (.phase i) = c.mem (.phase i) :=
      abs_private (S := runs kinds env) (a := .thread i) rfl
    rw [← e, ← h2]
    rfl
  have hq : (st.thr i).queue = c.mem (.queue i) := by
    have e : abs (runs kinds env) c (.queue i) = c.mem (.queue i) :=
      abs_free (S := runs kinds env) (l := .data i) rfl ho
    rw [← e, ← h2]
    rfl
  unfold Run.Thread.given at key
  rw [hph, hq, List.length_append] at key
  refine ⟨by omega, fun j hj => List.length_eq_zero_iff.1 ?_⟩
  rcases hj with hj | hj <;> rw [hj] at key <;> simp only [List.length_singleton] at key <;> omega

/-- C86 for hycu-threaded in small steps: the set of assigned blocks. -/
theorem C86_assigned (hk : kinds.length < 4294967296) (hd : ∀ s ∈ ss, s.blocks.Nodup)
    (h : Reachable (runs kinds env) (initial kinds fs (program ss)) c) :
    (c.mem .main : MainData).assigned.length ≤ 2 * kinds.length ∧
      ∀ i b, ((c.mem .main : MainData).pc = .notify i b ∨ (c.mem .main : MainData).pc = .insert b) →
        (c.mem .main : MainData).assigned.length + 1 ≤ 2 * kinds.length := by
  obtain ⟨-, st, h1, h2, -⟩ := refines h
  have e : abs (runs kinds env) c .main = c.mem .main := abs_private (S := runs kinds env) (a := .main) rfl
  rw [← e, ← h2]
  exact Run.C86_assigned hk hd h1

set_option maxRecDepth 20000 in
/-- The bounds of `Locks.C86_thread` and `Locks.C86_assigned` are reached with one thread, when no mutex is taken. -/
example : ∃ c, Reachable (runs [false] Run.demoEnv) (initial [false] (fun _ => none) (program [Run.paceSect])) c ∧
    c.owner (.data 0) = none ∧ (c.mem (.queue 0) : List Run.Job).length = 1 ∧
    (c.mem .main : MainData).assigned.length = 2 := by
  obtain ⟨st, h1, h2, h3, h4⟩ : ∃ st, Run.Reachable Run.demoEnv (Run.initial [false] (fun _ => none) (program [Run.paceSect])) st ∧
      (st.thr 0).queue.length = 1 ∧ st.assigned.length = 2 ∧ st.pc = .main :=
    ⟨_, Run.exec_reachable (ls := Run.threadSteps 0 2 ++ Run.mainSteps 15 ++ Run.threadSteps 0 4 ++ Run.mainSteps 4) .refl rfl,
      rfl, rfl, rfl⟩
  obtain ⟨c, h5, _, h6, h7⟩ := C54_reaches h1 fun i b h => by rw [h4] at h; cases h
  exact ⟨c, h5, h6 _, by rw [h7]; exact h2, by rw [h7]; exact h3⟩

end Locks

namespace MpiLocks

open Locks (Config Reachable abs abs_private abs_free)

variable {env : Run.Env} {kinds : List (List Bool)} {fs : FileSystem} {ss : List Run.Sect} {c : Config Agent Lock Var Val}

/-- C86 for hycu-mpi in small steps: no thread of any process has more than one block; a thread that computes or reports a
block has an empty queue. -/
theorem C86_thread (hk : ∀ k ∈ kinds, k.length < 4294967296) (hd : ∀ s ∈ ss, s.blocks.Nodup)
    (h : Reachable (system kinds env) (initial kinds fs (program ss)) c) {ix : Nat} {ks : List Bool}
    (hx : kinds[ix]? = some ks) {i : Nat} (hi : i < ks.length) (ho : c.owner (.data ix i) = none) :
    (c.mem (.of ix (.queue i)) : List Run.Job).length ≤ 1 ∧
      ∀ j, (c.mem (.of ix (.phase i)) = Run.Phase.compute j ∨ c.mem (.of ix (.phase i)) = Run.Phase.report j) →
        (c.mem (.of ix (.queue i)) : List Run.Job) = [] := by
  obtain ⟨-, st, hm⟩ := refines h
  have h2 := hm.2
  have key := Mpi.C86_thread hk hd (flat_reach hm.1).2 hx hi
  have hph : (((flat st).procs ix).thr i).phase = c.mem (.of ix (.phase i)) := by
    have e : abs (system kinds env) c (.of ix (.phase i)) = c.mem (.of ix (.phase i)) :=
      abs_private (S := system kinds env) (a := .thread ix i) rfl
    rw [← e, ← h2]
    rfl
  have hq : (((flat st).procs ix).thr i).queue = c.mem (.of ix (.queue i)) := by
    have e : abs (system kinds env) c (.of ix (.queue i)) = c.mem (.of ix (.queue i)) :=
      abs_free (S := system kinds env) (l := .data ix i) rfl ho
    rw [← e, ← h2]
    rfl
  unfold Run.Thread.given at key
  rw [hph, hq, List.length_append] at key
  refine ⟨by omega, fun j hj => List.length_eq_zero_iff.1 ?_⟩
  rcases hj with hj | hj <;> rw [hj] at key <;> simp only [List.length_singleton] at key <;> omega

open Classical in
/-- C86 for hycu-mpi in small steps: the blocks on the way to a process, with the one that its main thread has received and
not passed on, and the threads of the process that have a block, are not more than its threads. -/
theorem C86_messages (hk : ∀ k ∈ kinds, k.length < 4294967296) (hd : ∀ s ∈ ss, s.blocks.Nodup)
    (h : Reachable (system kinds env) (initial kinds fs (program ss)) c) {ix : Nat} {ks : List Bool}
    (hx : kinds[ix]? = some ks) (hi : c.owner (.inbox ix) = none) (ho : ∀ i, c.owner (.data ix i) = none) :
    (((c.mem (.of ix .worker) : WorkerData).hand.msgs ++ (c.mem (.of ix .inbox) : List Mpi.Msg)).filter
        fun m => m matches .assign ..).length +
      ((Finset.range ks.length).filter fun i => (c.mem (.of ix (.queue i)) : List Run.Job) ≠ [] ∨
        ∃ j, c.mem (.of ix (.phase i)) = Run.Phase.compute j ∨ c.mem (.of ix (.phase i)) = Run.Phase.report j).card ≤
      ks.length := by
  obtain ⟨-, st, hm⟩ := refines h
  have h2 := hm.2
  have key := Mpi.C86_messages hk hd (flat_reach hm.1).2 hx
  have hin : ((flat st).procs ix).inbox =
      (c.mem (.of ix .worker) : WorkerData).hand.msgs ++ (c.mem (.of ix .inbox) : List Mpi.Msg) := by
    have e : abs (system kinds env) c (.of ix .worker) = c.mem (.of ix .worker) :=
      abs_private (S := system kinds env) (a := .main ix) rfl
    rw [← e, ← abs_free (S := system kinds env) (l := .inbox ix) (x := .of ix .inbox) rfl hi, ← h2]
    rfl
  rw [hin] at key
  refine (Nat.add_le_add (le_of_eq rfl) (Finset.card_le_card ?_)).trans key
  intro i hf
  obtain ⟨h3, h4⟩ := Finset.mem_filter.1 hf
  refine Finset.mem_filter.2 ⟨h3, ?_⟩
  have hph : (((flat st).procs ix).thr i).phase = c.mem (.of ix (.phase i)) := by
    have e : abs (system kinds env) c (.of ix (.phase i)) = c.mem (.of ix (.phase i)) :=
      abs_private (S := system kinds env) (a := .thread ix i) rfl
    rw [← e, ← h2]
    rfl
  have hq : (((flat st).procs ix).thr i).queue = c.mem (.of ix (.queue i)) := by
    have e : abs (system kinds env) c (.of ix (.queue i)) = c.mem (.of ix (.queue i)) :=
      abs_free (S := system kinds env) (l := .data ix i) rfl (ho i)
    rw [← e, ← h2]
    rfl
  unfold Run.Thread.given
  rw [hph, hq]
  intro hn
  obtain ⟨h5, h6⟩ := List.append_eq_nil_iff.1 hn
  rcases h4 with h4 | ⟨j, h4 | h4⟩
  · exact h4 h5
  · rw [h4] at h6
    cases h6
  · rw [h4] at h6
    cases h6

/-- C86 for hycu-mpi in small steps: the sets of assigned blocks. -/
theorem C86_assigned (hk : ∀ k ∈ kinds, k.length < 4294967296) (hd : ∀ s ∈ ss, s.blocks.Nodup)
    (h : Reachable (system kinds env) (initial kinds fs (program ss)) c) {ix : Nat} {ks : List Bool}
    (hx : kinds[ix]? = some ks) : ((c.mem .master : MasterData).assigned ix).length ≤ 2 * ks.length ∧
      ∀ b, ((c.mem .master : MasterData).pc = .insert ix b ∨ ix = 0 ∧ ∃ i, (c.mem .master : MasterData).pc = .notify i b) →
        ((c.mem .master : MasterData).assigned ix).length + 1 ≤ 2 * ks.length := by
  obtain ⟨-, st, hm⟩ := refines h
  have e : abs (system kinds env) c .master = c.mem .master := abs_private (S := system kinds env) (a := .main 0) rfl
  rw [← e, ← hm.2]
  exact Mpi.C86_assigned hk hd (flat_reach hm.1).2 hx

set_option maxRecDepth 20000 in
/-- The bounds of `MpiLocks.C86_thread` and `MpiLocks.C86_assigned` are reached with one thread of a worker. -/
example : ∃ c, Reachable (system [[], [false]] Run.demoEnv) (initial [[], [false]] (fun _ => none) (program [Run.paceSect])) c ∧
    c.owner (.data 1 0) = none ∧ (c.mem (.of 1 (.queue 0)) : List Run.Job).length = 1 ∧
    ((c.mem .master : MasterData).assigned 1).length = 2 := by
  have h4 : (Mpi.paceRun (Mpi.paceLabels 30 7)).pc = .main := rfl
  have h5 : ((Mpi.paceRun (Mpi.paceLabels 30 7)).procs 1).pc = .probe := rfl
  obtain ⟨c, h6, _, h7, h8⟩ := C59_reaches (Mpi.paceRun_reachable (Mpi.paceLabels 30 7))
    (fun i b h => by rw [h4] at h; cases h) (fun ix i h0 hx h => by
      have hx : ix < 2 := hx
      obtain rfl : ix = 1 := by omega
      rw [h5] at h
      cases h)
  exact ⟨c, h6, h7 _, by rw [h8]; rfl, by rw [h8]; rfl⟩

set_option maxRecDepth 20000 in
/-- The bound of `MpiLocks.C86_messages` is reached: the only thread of the worker has no block, but one is on the way. -/
example : ∃ c, Reachable (system [[], [false]] Run.demoEnv) (initial [[], [false]] (fun _ => none) (program [Run.paceSect])) c ∧
    (∀ l, c.owner l = none) ∧ (c.mem (.of 1 .inbox) : List Mpi.Msg) = [.assign false [(10, 20)]] := by
  have h4 : (Mpi.paceRun (Mpi.paceLabels 30 5 ++ [.master ⟨false, true, 0⟩])).pc = .insert 1 [(10, 20)] := rfl
  have h5 : ((Mpi.paceRun (Mpi.paceLabels 30 5 ++ [.master ⟨false, true, 0⟩])).procs 1).pc = .probe := rfl
  obtain ⟨c, h6, _, h7, h8⟩ := C59_reaches (Mpi.paceRun_reachable (Mpi.paceLabels 30 5 ++ [.master ⟨false, true, 0⟩]))
    (fun i b h => by rw [h4] at h; cases h) (fun ix i h0 hx h => by
      have hx : ix < 2 := hx
      obtain rfl : ix = 1 := by omega
      rw [h5] at h
      cases h)
  exact ⟨c, h6, h7, by rw [h8]; rfl⟩

end MpiLocks

end Hycu
