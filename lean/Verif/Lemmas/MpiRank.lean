import Mathlib.Tactic.SplitIfs
import Verif.Lemmas.MpiAwake

/-!
Two measures for runs with several processes: what is left to be done, and what is being done.
-/

namespace Hycu
namespace Mpi

open Run (Tables Job Phase Thread ThreadPool FileStoreObj Cmd Cont Choice Env eraseFinished)

/-! ### What is left to be done -/

/-- Steps until the next call, if `n` calls are to be made. -/
def callRank (N s n : Nat) : Nat := 3 * s + 7 * N + 10 + (7 * N + 13) * n

/-- Steps after saving. -/
def contRank (N s n : Nat) : Cont → Nat
  | .exit => 3 * s + N + 3
  | _ => callRank N s n + N + 3

/-- Steps in front of the loops that wait. -/
def callerRank (N s n : Nat) : Caller → Nat
  | .wait k => contRank N s n k + 6 * N + 6
  | .fill => callRank N s n + 2

/-- A bound on the number of steps of the master without polling; `N` is the number of processes, `s` the number of
threads of the master, and `n` the number of calls to be made. -/
def Pc.rank (N s n : Nat) : Pc → Nat
  | .main => callRank N s n + 7 * N + 10
  | .flush c | .flushSend _ c | .flushRecv _ c => callerRank N s n c
  | .waited k => contRank N s n k + 6 * N + 6
  | .ready | .readySend _ | .readyRecv _ | .filled => callRank N s n + 2
  | .save k => contRank N s n k + 6 * N + 5
  | .saveSend ix k => contRank N s n k + 6 * (N - ix)
  | .saveRecv ix k => contRank N s n k + 6 * (N - ix - 1) + 4
  | .write ws ix k => contRank N s n k + 6 * (N - ix - 1) + 1 + ws.length
  | .newStore | .contains => callRank N s n + N + 2
  | .update => callRank N s n + N + 1
  | .configSend ix => callRank N s n + (N - ix)
  | .take => callRank N s n + 1
  | .notify _ _ => callRank N s n + 7 * N + 12
  | .insert _ _ => callRank N s n + 7 * N + 11
  | .stopSend ix => 3 * s + 2 + (N - ix)
  | .shutdown i => 3 * (s - i) + 1
  | .shutNotify i => max (3 * (s - i)) 3
  | .join i => max (3 * (s - i) - 1) 2
  | .finished => 0

/-- The same for workers. -/
def WorkerPc.rank (s : Nat) : WorkerPc → Nat
  | .probe | .notify _ => 3 * s + 2
  | .shutdown i => 3 * (s - i) + 1
  | .shutNotify i => max (3 * (s - i)) 3
  | .join i => max (3 * (s - i) - 1) 2
  | .returned => 0

/-- A thread that has not ended. -/
def living (t : Thread) : Nat :=
  match t.phase with
  | .done => 0
  | _ => 1

/-- What is left to be done in a process. -/
def Proc.rank (p : Proc) : Nat := p.pc.rank p.size + ∑ i ∈ Finset.range p.size, living (p.thr i)

/-- What is left to be done. -/
def State.rank (st : State) : Nat :=
  st.pc.rank st.nprocs (st.procs 0).size st.todo.length + ∑ q ∈ Finset.range st.nprocs, (st.procs q).rank

/-! ### What is being done -/

/-- The steps of a thread until its queue is empty. -/
def toil (t : Thread) : Nat :=
  match t.phase with
  | .check => if t.queue = [] then 0 else 6 * t.queue.length + 1
  | .wait | .sleep => if t.queue = [] then 0 else 6 * t.queue.length + 2
  | .pop => 6 * t.queue.length
  | .compute _ => 6 * t.queue.length + 5
  | .report _ => 6 * t.queue.length + 4
  | .done => 0

/-- The work that is caused by a message. -/
def Msg.toil : Msg → Nat
  | .assign _ _ => 10
  | .config _ => 1
  | _ => 0

/-- The work that is caused by a notification. -/
def WorkerPc.toil : WorkerPc → Nat
  | .notify _ => 1
  | _ => 0

/-- The work of a process. -/
def Proc.toil (p : Proc) : Nat :=
  ∑ i ∈ Finset.range p.size, Mpi.toil (p.thr i) + (p.inbox.map Msg.toil).sum + p.pc.toil

/-- What is being done. -/
def State.toil (st : State) : Nat := ∑ q ∈ Finset.range st.nprocs, (st.procs q).toil

/-! ### Steps that do not count -/

/-- The master polls. -/
def Pc.polls : Pc → Prop
  | .flush _ | .flushSend _ _ | .flushRecv _ _ | .waited _ | .ready | .readySend _ | .readyRecv _ | .filled => True
  | _ => False

/-- Changes of a thread without work. -/
def Nap (t : Thread) (ph : Phase) : Prop :=
  (t.phase = .check ∧ t.stop = false ∧ t.queue = [] ∧ ph = .wait) ∨ (t.phase = .wait ∧ ph = .sleep) ∨
    (t.phase = .sleep ∧ t.queue = [] ∧ ph = .check)

/-- Steps that do not change the measures. -/
inductive Silent (st : State) : Label → State → Prop
  | nap (ix i : Nat) (l : Label) (hl : l = .thread ix i ∨ l = .spurious ix i) (hx : ix < st.nprocs)
      (hi : i < (st.procs ix).size) (ph : Phase) (h : Nap ((st.procs ix).thr i) ph) :
      Silent st l (st.setProc ix ((st.procs ix).setThread i { (st.procs ix).thr i with phase := ph }))
  | answer (ix : Nat) (h0 : 0 < ix) (hx : ix < st.nprocs) (hpc : (st.procs ix).pc = .probe) (r : Req) (ms : List Msg)
      (hi : (st.procs ix).inbox = r.msg :: ms) (p' : Proc)
      (hp : { st.procs ix with inbox := ms }.handle r.msg = .ok p') : Silent st (.worker ix) (st.setProc ix p')
  | poll (ch : Choice) (st' : State) (h : masterStep st ch = .ok (some st')) (hp : st.pc.polls) (hp' : st'.pc.polls) :
      Silent st (.master ch) st'

/-! ### Threads -/

theorem sum_setThread (f : Thread → Nat) (p : Proc) {i : Nat} (hi : i < p.size) (t : Thread) :
    ∑ k ∈ Finset.range p.size, f ((p.setThread i t).thr k) + f (p.thr i) =
      ∑ k ∈ Finset.range p.size, f (p.thr k) + f t :=
  sum_update p.size p.thr (fun _ t => f t) hi t

theorem sum_setThread_same (f : Thread → Nat) (p : Proc) (i : Nat) (t : Thread) (h : f t = f (p.thr i)) :
    ∑ k ∈ Finset.range p.size, f ((p.setThread i t).thr k) = ∑ k ∈ Finset.range p.size, f (p.thr k) :=
  Finset.sum_congr rfl fun k _ => congrFun (Proc.setThread_view f p i t h) k

/-- A step of a thread. -/
theorem TMove.measure {env : Env} {p p' : Proc} {i : Nat} (hi : i < p.size) (h : TMove env p i p') :
    p'.rank < p.rank ∨ (p'.rank = p.rank ∧ (p'.toil < p.toil ∨ (p'.toil = p.toil ∧
      ∃ ph, p' = p.setThread i { p.thr i with phase := ph } ∧ Nap (p.thr i) ph))) := by
  have hr : ∀ t a b, living (p.thr i) = a → living t = b → (p.setThread i t).rank + a = p.rank + b := by
    rintro t a b rfl rfl
    have := sum_setThread living p hi t
    unfold Proc.rank
    show p.pc.rank p.size + ∑ k ∈ Finset.range p.size, living ((p.setThread i t).thr k) + _ = _
    omega
  have hw : ∀ t a b, toil (p.thr i) = a → toil t = b → (p.setThread i t).toil + a = p.toil + b := by
    rintro t a b rfl rfl
    have := sum_setThread toil p hi t
    unfold Proc.toil
    show ∑ k ∈ Finset.range p.size, toil ((p.setThread i t).thr k) + (p.inbox.map Msg.toil).sum + p.pc.toil + _ = _
    omega
  cases h with
  | stop hp hs =>
    left
    have := hr { p.thr i with phase := .done } 1 0 (by unfold living; rw [hp]) rfl
    omega
  | wait hp hs hq =>
    right
    have h1 := hr { p.thr i with phase := .wait } 1 1 (by unfold living; rw [hp]) rfl
    have h2 := hw { p.thr i with phase := .wait } 0 0 (by unfold toil; rw [hp]; exact if_pos hq) (if_pos hq)
    exact ⟨by omega, Or.inr ⟨by omega, .wait, rfl, Or.inl ⟨hp, hs, hq, rfl⟩⟩⟩
  | pick hp hs hq =>
    right
    have h1 := hr { p.thr i with phase := .pop } 1 1 (by unfold living; rw [hp]) rfl
    have h2 := hw { p.thr i with phase := .pop } (6 * (p.thr i).queue.length + 1) (6 * (p.thr i).queue.length)
      (by unfold toil; rw [hp]; exact if_neg hq) rfl
    exact ⟨by omega, Or.inl (by omega)⟩
  | doze hp =>
    right
    have h1 := hr { p.thr i with phase := .sleep } 1 1 (by unfold living; rw [hp]) rfl
    have h2 := hw { p.thr i with phase := .sleep } _ _ rfl rfl
    have h3 : toil { p.thr i with phase := .sleep } = toil (p.thr i) := by
      unfold toil
      rw [hp]
    exact ⟨by omega, Or.inr ⟨by omega, .sleep, rfl, Or.inr (Or.inl ⟨hp, rfl⟩)⟩⟩
  | pop j q hp hq =>
    right
    have h1 := hr { p.thr i with queue := q, phase := .compute j } 1 1 (by unfold living; rw [hp]) rfl
    have h2 := hw { p.thr i with queue := q, phase := .compute j } (6 * (q.length + 1)) (6 * q.length + 5)
      (by unfold toil; rw [hp, hq]; rfl) rfl
    exact ⟨by omega, Or.inl (by omega)⟩
  | compute j hp s =>
    right
    have h1 := hr { p.thr i with phase := .report j } 1 1 (by unfold living; rw [hp]) rfl
    have h2 := hw { p.thr i with phase := .report j } (6 * (p.thr i).queue.length + 5) (6 * (p.thr i).queue.length + 4)
      (by unfold toil; rw [hp]) rfl
    refine ⟨?_, Or.inl ?_⟩
    · show (p.setThread i { p.thr i with phase := .report j }).rank = _
      omega
    · show (p.setThread i { p.thr i with phase := .report j }).toil < _
      omega
  | report j hp r =>
    right
    have h1 := hr { p.thr i with phase := .check } 1 1 (by unfold living; rw [hp]) rfl
    have h2 := hw { p.thr i with phase := .check } (6 * (p.thr i).queue.length + 4) _ (by unfold toil; rw [hp]) rfl
    have h3 : toil { p.thr i with phase := .check } ≤ 6 * (p.thr i).queue.length + 1 := by
      unfold toil
      simp only
      split_ifs <;> omega
    refine ⟨?_, Or.inl ?_⟩
    · show (p.setThread i { p.thr i with phase := .check }).rank = _
      omega
    · show (p.setThread i { p.thr i with phase := .check }).toil < _
      omega
  | spurious hp =>
    right
    have h1 := hr { p.thr i with phase := .check } 1 1 (by unfold living; rw [hp]) rfl
    refine ⟨by omega, ?_⟩
    by_cases hq : (p.thr i).queue = []
    · have h2 := hw { p.thr i with phase := .check } 0 0 (by unfold toil; rw [hp]; exact if_pos hq) (if_pos hq)
      exact Or.inr ⟨by omega, .check, rfl, Or.inr (Or.inr ⟨hp, hq, rfl⟩)⟩
    · have h2 := hw { p.thr i with phase := .check } (6 * (p.thr i).queue.length + 2) (6 * (p.thr i).queue.length + 1)
        (by unfold toil; rw [hp]; exact if_neg hq) (if_neg hq)
      exact Or.inl (by omega)

/-! ### Notifications, flags and jobs -/

theorem wake_rank (p : Proc) (i : Nat) : ∑ k ∈ Finset.range p.size, living ((p.wake i).thr k) =
    ∑ k ∈ Finset.range p.size, living (p.thr k) := by
  unfold Proc.wake
  split
  · rename_i hp
    exact sum_setThread_same living p i _ (by simp only [living, hp])
  · rfl

theorem wake_toil (p : Proc) (i : Nat) : ∑ k ∈ Finset.range p.size, toil ((p.wake i).thr k) ≤
    ∑ k ∈ Finset.range p.size, toil (p.thr k) := by
  refine Finset.sum_le_sum fun k _ => ?_
  rw [Tidy.wake_thr]
  split
  · rename_i hk
    rw [hk.1]
    simp only [toil, hk.2]
    split_ifs <;> omega
  · exact le_refl _

theorem stop_rank (p : Proc) (i : Nat) : ∑ k ∈ Finset.range p.size, living ((p.stop i).thr k) =
    ∑ k ∈ Finset.range p.size, living (p.thr k) := sum_setThread_same living p i _ rfl

theorem assign_measure {p : Proc} {b : Block} {o : Bool} {r : Proc × Nat} (hr : p.assign b o = .ok r) :
    r.1.size = p.size ∧ ∑ k ∈ Finset.range p.size, living (r.1.thr k) = ∑ k ∈ Finset.range p.size, living (p.thr k) ∧
      ∑ k ∈ Finset.range p.size, toil (r.1.thr k) ≤ ∑ k ∈ Finset.range p.size, toil (p.thr k) + 8 := by
  unfold Proc.assign at hr
  obtain ⟨r', _, hr⟩ := Res.bind_eq_ok.1 hr
  cases hr
  refine ⟨rfl, sum_setThread_same living p r'.2 _ rfl, ?_⟩
  let t : Thread := { p.thr r'.2 with queue := (p.thr r'.2).queue ++ [⟨b, (p.thr r'.2).tables⟩] }
  have ht : toil t ≤ toil (p.thr r'.2) + 8 := by
    have hl : t.queue.length = (p.thr r'.2).queue.length + 1 := by simp [t]
    have hn : t.queue ≠ [] := by simp [t]
    unfold toil
    show (match (p.thr r'.2).phase with
      | .check => if t.queue = [] then 0 else 6 * t.queue.length + 1
      | .wait | .sleep => if t.queue = [] then 0 else 6 * t.queue.length + 2
      | .pop => 6 * t.queue.length
      | .compute _ => 6 * t.queue.length + 5
      | .report _ => 6 * t.queue.length + 4
      | .done => 0) ≤ _
    rw [if_neg hn, if_neg hn, hl]
    by_cases hq : (p.thr r'.2).queue = []
    · rw [if_pos hq, if_pos hq, hq]
      cases (p.thr r'.2).phase <;> simp
    · rw [if_neg hq, if_neg hq]
      cases (p.thr r'.2).phase <;> simp only <;> omega
  show ∑ k ∈ Finset.range p.size, toil ((p.setThread r'.2 t).thr k) ≤ _
  by_cases hi : r'.2 < p.size
  · have := sum_setThread toil p hi t
    omega
  · refine le_trans (le_of_eq (Finset.sum_congr rfl fun k hk => ?_)) (Nat.le_add_right _ 8)
    have : k ≠ r'.2 := fun h => hi (by rw [← h]; exact Finset.mem_range.1 hk)
    show toil (Function.update p.thr r'.2 t k) = _
    rw [Function.update_of_ne this]

/-- A step of the main thread of a worker. -/
theorem WMove.measure {p p' : Proc} (h : WMove p p') :
    p'.rank < p.rank ∨ (p'.rank = p.rank ∧ (p'.toil < p.toil ∨ (p'.toil = p.toil ∧ p.pc = .probe ∧
      ∃ (r : Req) (ms : List Msg), p.inbox = r.msg :: ms ∧ { p with inbox := ms }.handle r.msg = .ok p'))) := by
  cases h with
  | config hpc c ms hi =>
    refine Or.inr ⟨?_, Or.inl ?_⟩
    · rfl
    · unfold Proc.toil
      show ∑ i ∈ Finset.range p.size, toil (p.thr i) + (ms.map Msg.toil).sum + p.pc.toil < _
      rw [hi, List.map_cons, List.sum_cons]
      show _ < _ + (1 + _) + _
      omega
  | assign hpc o b ms hi r hr =>
    obtain ⟨h1, h2, h3⟩ := assign_measure hr
    have h4 := (Proc.assign_keeps hr).2
    refine Or.inr ⟨?_, Or.inl ?_⟩
    · unfold Proc.rank
      show (WorkerPc.notify r.2).rank r.1.size + ∑ i ∈ Finset.range r.1.size, living (r.1.thr i) = _
      rw [h1, hpc]
      exact congrArg (_ + ·) h2
    · unfold Proc.toil
      show ∑ i ∈ Finset.range r.1.size, toil (r.1.thr i) + (r.1.inbox.map Msg.toil).sum + 1 < _
      rw [h1, h4, hi, hpc, List.map_cons, List.sum_cons]
      show ∑ i ∈ Finset.range p.size, toil (r.1.thr i) + (ms.map Msg.toil).sum + 1 <
        ∑ i ∈ Finset.range p.size, toil (p.thr i) + (10 + (ms.map Msg.toil).sum) + 0
      have h3' : ∑ i ∈ Finset.range p.size, toil (r.1.thr i) ≤ ∑ i ∈ Finset.range p.size, toil (p.thr i) + 8 := h3
      omega
  | request hpc r ms hi p' hp =>
    obtain ⟨h1, h2, h3, h4, _⟩ := handle_req hp
    refine Or.inr ⟨?_, Or.inr ⟨?_, hpc, r, ms, hi, hp⟩⟩
    · unfold Proc.rank
      rw [h1, h2, h3]
    · unfold Proc.toil
      rw [h1, h2, h3, h4, hi, List.map_cons, List.sum_cons]
      have : r.msg.toil = 0 := by cases r <;> rfl
      rw [this, Nat.zero_add]
  | shutdown hpc ms hi =>
    left
    unfold Proc.rank
    rw [hpc]
    show 3 * (p.size - 0) + 1 + ∑ k ∈ Finset.range p.size, living (p.thr k) <
      3 * p.size + 2 + ∑ k ∈ Finset.range p.size, living (p.thr k)
    omega
  | notify i hpc =>
    refine Or.inr ⟨?_, Or.inl ?_⟩
    · unfold Proc.rank
      show 3 * (p.wake i).size + 2 + ∑ k ∈ Finset.range (p.wake i).size, living ((p.wake i).thr k) = _
      rw [(p.wake_kin i).size, wake_rank, hpc]
      rfl
    · unfold Proc.toil
      show ∑ k ∈ Finset.range (p.wake i).size, toil ((p.wake i).thr k) + ((p.wake i).inbox.map Msg.toil).sum + 0 < _
      rw [(p.wake_kin i).size, (p.wake_keeps i).2, hpc]
      have := wake_toil p i
      show _ < _ + 1
      omega
  | stop i hpc hi =>
    left
    unfold Proc.rank
    show max (3 * (p.size - i)) 3 + ∑ k ∈ Finset.range p.size, living ((p.stop i).thr k) < _
    rw [stop_rank, hpc]
    show _ < 3 * (p.size - i) + 1 + _
    omega
  | stopEnd i hpc hi =>
    left
    unfold Proc.rank
    rw [hpc]
    show 0 + ∑ k ∈ Finset.range p.size, living (p.thr k) <
      3 * (p.size - i) + 1 + ∑ k ∈ Finset.range p.size, living (p.thr k)
    omega
  | shutNotify i hpc =>
    left
    unfold Proc.rank
    show max (3 * ((p.wake i).size - i) - 1) 2 + ∑ k ∈ Finset.range (p.wake i).size, living ((p.wake i).thr k) < _
    rw [(p.wake_kin i).size, wake_rank, hpc]
    show _ < max (3 * (p.size - i)) 3 + _
    omega
  | join i hpc hd =>
    left
    unfold Proc.rank
    rw [hpc]
    show 3 * (p.size - (i + 1)) + 1 + ∑ k ∈ Finset.range p.size, living (p.thr k) <
      max (3 * (p.size - i) - 1) 2 + ∑ k ∈ Finset.range p.size, living (p.thr k)
    omega

/-! ### The master -/

/-- The master does not change what is left to be done in the processes. -/
theorem MStep.procRank {st st' : State} (h : MStep st st') (q : Nat) : (st'.procs q).rank = (st.procs q).rank := by
  have near : ∀ (ix : Nat) (p : Proc), p.rank = (st.procs ix).rank → (Function.update st.procs ix p q).rank = (st.procs q).rank := by
    intro ix p hp
    by_cases hx : q = ix
    · subst hx
      rw [Function.update_self, hp]
    · rw [Function.update_of_ne hx]
  cases h with
  | flush c hpc a ha => exact near _ _ rfl
  | flushSend ix c hpc hi => exact near _ _ rfl
  | flushRecv ix c hpc bs rest ho a ha => exact near _ _ rfl
  | ready hpc => exact near _ _ rfl
  | readySend ix hpc hi => exact near _ _ rfl
  | readyRecv ix hpc n rest ho => exact near _ _ rfl
  | saveLost k hpc f hf h => exact near _ _ rfl
  | saveStart k hpc f hf hv d hd id hid => exact near _ _ rfl
  | saveSend ix k hpc hi => exact near _ _ rfl
  | recvLost ix k hpc s rest ho f hf h => exact near _ _ rfl
  | recvStart ix k hpc s rest ho f hf hv d hd id hid => exact near _ _ rfl
  | update hpc c rest ht => exact near _ _ rfl
  | configSend ix hpc c rest ht hi => exact near _ _ rfl
  | takeLocal hpc b rest ht o cq oq hq r hr =>
    refine near 0 _ ?_
    obtain ⟨h1, h2, _⟩ := assign_measure hr
    unfold Proc.rank
    rw [h1, (Proc.assign_keeps hr).1, h2]
  | takeRemote hpc b rest ht o ix hix cq oq hq => exact near _ _ rfl
  | notify i b hpc =>
    refine near 0 _ ?_
    unfold Proc.rank
    rw [(Proc.wake_kin _ i).size, wake_rank, (Proc.wake_keeps _ i).1]
  | stopSend ix hpc hi => exact near _ _ rfl
  | shutdown i hpc hi =>
    refine near 0 _ ?_
    unfold Proc.rank
    rw [(Proc.stop_kin _ i).size, stop_rank]
    rfl
  | shutNotify i hpc =>
    refine near 0 _ ?_
    unfold Proc.rank
    rw [(Proc.wake_kin _ i).size, wake_rank, (Proc.wake_keeps _ i).1]
  | _ => rfl

theorem callRank_succ (N s n : Nat) : callRank N s (n + 1) = callRank N s n + 7 * N + 13 := by
  unfold callRank
  rw [Nat.mul_add]
  omega

theorem callRank_ge (N s n : Nat) : 3 * s + 7 * N + 10 ≤ callRank N s n := Nat.le_add_right _ _

theorem afterSave_rank (N s n : Nat) (hN : 0 < N) (k : Cont) : (afterSave k).rank N s n < contRank N s n k := by
  cases k <;> simp only [afterSave, Pc.rank, contRank] <;> omega

theorem contRank_le (N s n : Nat) (k : Cont) : contRank N s n k ≤ callRank N s n + N + 3 := by
  have := callRank_ge N s n
  cases k <;> simp only [contRank] <;> omega

/-- A step of the master. -/
theorem MStep.rank {st st' : State} (h : MStep st st') (hN : 0 < st.nprocs) :
    st'.pc.rank st'.nprocs (st'.procs 0).size st'.todo.length < st.pc.rank st.nprocs (st.procs 0).size st.todo.length ∨
      (st'.pc.rank st'.nprocs (st'.procs 0).size st'.todo.length = st.pc.rank st.nprocs (st.procs 0).size st.todo.length ∧
        st.pc.polls ∧ st'.pc.polls) := by
  rw [(h.touch 0).kin.size, h.nprocs]
  generalize hsize : (st.procs 0).size = s
  have hge := callRank_ge st.nprocs s st.todo.length
  have hle := contRank_le st.nprocs s st.todo.length
  cases h with
  | mainEnd hpc ht =>
    left
    rw [hpc]
    simp only [Pc.rank, callerRank, contRank]
    omega
  | mainConfig hpc c rest ht create v hv =>
    left
    rw [hpc]
    show Pc.rank _ _ _ (if _ then _ else _) < _
    split
    · have := hle .config
      simp only [Pc.rank, callerRank]
      omega
    · simp only [Pc.rank, callerRank, contRank]
      omega
  | mainAssign hpc b rest ht now =>
    left
    rw [hpc]
    show Pc.rank _ _ _ (if _ then _ else _) < _
    split
    · have := hle .assign
      simp only [Pc.rank]
      omega
    · simp only [Pc.rank]
      omega
  | flush c hpc a ha => right; rw [hpc]; exact ⟨rfl, trivial, trivial⟩
  | flushSend ix c hpc hi => right; rw [hpc]; exact ⟨rfl, trivial, trivial⟩
  | flushEnd ix c hpc hi => right; rw [hpc]; cases c <;> exact ⟨rfl, trivial, trivial⟩
  | flushRecv ix c hpc bs rest ho a ha => right; rw [hpc]; exact ⟨rfl, trivial, trivial⟩
  | waited k hpc hw =>
    left
    rw [hpc]
    simp only [Pc.rank]
    omega
  | waitOn k hpc => right; rw [hpc]; exact ⟨rfl, trivial, trivial⟩
  | ready hpc => right; rw [hpc]; exact ⟨rfl, trivial, trivial⟩
  | readySend ix hpc hi => right; rw [hpc]; exact ⟨rfl, trivial, trivial⟩
  | readyEnd ix hpc hi => right; rw [hpc]; exact ⟨rfl, trivial, trivial⟩
  | readyRecv ix hpc n rest ho => right; rw [hpc]; exact ⟨rfl, trivial, trivial⟩
  | fillOn hpc => right; rw [hpc]; exact ⟨rfl, trivial, trivial⟩
  | filled hpc hw =>
    left
    rw [hpc]
    simp only [Pc.rank]
    omega
  | saveNone k hpc hf =>
    left
    rw [hpc]
    have := afterSave_rank st.nprocs s st.todo.length hN k
    simp only [Pc.rank] at this ⊢
    omega
  | saveLost k hpc f hf hl =>
    left
    rw [hpc]
    simp only [Pc.rank, State.setProc]
    omega
  | saveStart k hpc f hf hv d hd id' hid =>
    left
    rw [hpc]
    simp only [Pc.rank, State.setProc, FileStore.saveWrites, List.length_cons, List.length_nil]
    omega
  | saveSend ix k hpc hi =>
    left
    rw [hpc]
    simp only [Pc.rank, State.send, State.setProc]
    omega
  | saveEnd ix k hpc hi =>
    left
    rw [hpc]
    have := afterSave_rank st.nprocs s st.todo.length hN k
    simp only [Pc.rank] at this ⊢
    omega
  | recvLost ix k hpc x rest ho f hf hl =>
    left
    rw [hpc]
    simp only [Pc.rank, State.setProc]
    omega
  | recvStart ix k hpc x rest ho f hf hv d hd id' hid =>
    left
    rw [hpc]
    simp only [Pc.rank, State.setProc, FileStore.saveWrites, List.length_cons, List.length_nil]
    omega
  | writeEnd ix k hpc =>
    left
    rw [hpc]
    simp only [Pc.rank, List.length_nil]
    omega
  | writeLost ix k n c ws hpc hl =>
    left
    rw [hpc]
    simp only [Pc.rank, List.length_cons]
    omega
  | write ix k n c ws hpc f hf d hd =>
    left
    rw [hpc]
    simp only [Pc.rank, List.length_cons]
    omega
  | newStoreInvalid hpc c rest ht hd =>
    left
    rw [hpc]
    simp only [Pc.rank]
    omega
  | newStore hpc c rest ht d hd r hr =>
    left
    rw [hpc]
    simp only [Pc.rank]
    omega
  | update hpc c rest ht =>
    left
    rw [hpc]
    simp only [Pc.rank, State.setProc]
    omega
  | configSend ix hpc c rest ht hi =>
    left
    rw [hpc]
    simp only [Pc.rank, State.send, State.setProc]
    omega
  | configEnd ix hpc c rest ht hi =>
    left
    rw [hpc, ht]
    simp only [Pc.rank, List.length_cons, callRank_succ]
    omega
  | skip hpc b rest ht f hf hc =>
    left
    rw [hpc, ht]
    simp only [Pc.rank, List.length_cons, callRank_succ]
    omega
  | fill hpc b rest ht f hf hc =>
    left
    rw [hpc]
    simp only [Pc.rank, callerRank]
    omega
  | noFill hpc b rest ht f hf hc ho =>
    left
    rw [hpc]
    simp only [Pc.rank]
    omega
  | takeLocal hpc b rest ht o cq oq hq r hr =>
    left
    rw [hpc, ht]
    simp only [Pc.rank, List.length_cons, callRank_succ]
    omega
  | takeRemote hpc b rest ht o ix hix cq oq hq =>
    left
    rw [hpc, ht]
    simp only [Pc.rank, List.length_cons, callRank_succ]
    omega
  | notify i b hpc =>
    left
    rw [hpc]
    simp only [Pc.rank, State.setProc]
    omega
  | insert ix b hpc =>
    left
    rw [hpc]
    simp only [Pc.rank]
    omega
  | stopSend ix hpc hi =>
    left
    rw [hpc]
    simp only [Pc.rank]
    omega
  | stopEnd ix hpc hi =>
    left
    rw [hpc]
    simp only [Pc.rank]
    omega
  | shutdown i hpc hi =>
    left
    rw [hpc]
    simp only [Pc.rank]
    omega
  | shutdownEnd i hpc hi =>
    left
    rw [hpc]
    simp only [Pc.rank]
    omega
  | shutNotify i hpc =>
    left
    rw [hpc]
    simp only [Pc.rank]
    omega
  | join i hpc hp =>
    left
    rw [hpc]
    simp only [Pc.rank]
    omega

/-- Polling does not change what is being done. -/
theorem MStep.poll {st st' : State} (h : MStep st st') (hp : st.pc.polls) (q : Nat) :
    (st'.procs q).thr = (st.procs q).thr ∧ (st'.procs q).size = (st.procs q).size ∧
      (st'.procs q).toil = (st.procs q).toil := by
  have near : ∀ (ix : Nat) (p : Proc), p.thr = (st.procs ix).thr → p.size = (st.procs ix).size → p.toil = (st.procs ix).toil →
      (Function.update st.procs ix p q).thr = (st.procs q).thr ∧ (Function.update st.procs ix p q).size = (st.procs q).size ∧
        (Function.update st.procs ix p q).toil = (st.procs q).toil := by
    intro ix p h1 h2 h3
    by_cases hx : q = ix
    · subst hx
      rw [Function.update_self]
      exact ⟨h1, h2, h3⟩
    · rw [Function.update_of_ne hx]
      exact ⟨rfl, rfl, rfl⟩
  have send : ∀ (p : Proc) (m : Msg), m.toil = 0 → (p.send m).toil = p.toil := by
    intro p m hm
    unfold Proc.toil
    show _ + ((p.inbox ++ [m]).map Msg.toil).sum + _ = _
    rw [List.map_append, List.sum_append, List.map_singleton, List.sum_singleton, hm]
    rfl
  cases h with
  | flush c hpc a ha => exact near _ _ rfl rfl rfl
  | flushSend ix c hpc hi => exact near _ _ rfl rfl (send _ _ rfl)
  | flushEnd ix c hpc hi => exact ⟨rfl, rfl, rfl⟩
  | flushRecv ix c hpc bs rest ho a ha => exact near _ _ rfl rfl rfl
  | waited k hpc hw => exact ⟨rfl, rfl, rfl⟩
  | waitOn k hpc => exact ⟨rfl, rfl, rfl⟩
  | ready hpc => exact near _ _ rfl rfl rfl
  | readySend ix hpc hi => exact near _ _ rfl rfl (send _ _ rfl)
  | readyEnd ix hpc hi => exact ⟨rfl, rfl, rfl⟩
  | readyRecv ix hpc n rest ho => exact near _ _ rfl rfl rfl
  | fillOn hpc => exact ⟨rfl, rfl, rfl⟩
  | filled hpc hw => exact ⟨rfl, rfl, rfl⟩
  | _ => simp_all [Pc.polls]

theorem sum_setProc (f : Proc → Nat) (st : State) {ix : Nat} (hx : ix < st.nprocs) (p : Proc) :
    ∑ q ∈ Finset.range st.nprocs, f ((st.setProc ix p).procs q) + f (st.procs ix) =
      ∑ q ∈ Finset.range st.nprocs, f (st.procs q) + f p :=
  sum_update st.nprocs st.procs (fun _ p => f p) hx p

theorem measure_setProc (st : State) {ix : Nat} (hx : ix < st.nprocs) {p : Proc} (hs : p.size = (st.procs ix).size) :
    (st.setProc ix p).rank + (st.procs ix).rank = st.rank + p.rank ∧
      (st.setProc ix p).toil + (st.procs ix).toil = st.toil + p.toil := by
  have h1 := sum_setProc Proc.rank st hx p
  have h2 := sum_setProc Proc.toil st hx p
  have h3 : ((st.setProc ix p).procs 0).size = (st.procs 0).size := by
    by_cases h0 : 0 = ix
    · subst h0
      rw [← hs]
      simp [State.setProc]
    · rw [show (st.setProc ix p).procs 0 = st.procs 0 from Function.update_of_ne h0 ..]
  unfold State.rank State.toil
  rw [h3]
  simp only [show (st.setProc ix p).nprocs = st.nprocs from rfl, show (st.setProc ix p).pc = st.pc from rfl,
    show (st.setProc ix p).todo = st.todo from rfl]
  omega

theorem WMove.size {p p' : Proc} (h : WMove p p') : p'.size = p.size := by
  cases h with
  | config hpc c ms hi => rfl
  | assign hpc o b ms hi r hr => exact (assign_measure hr).1
  | request hpc r ms hi p' hp => exact (handle_req hp).1
  | shutdown hpc ms hi => rfl
  | notify i hpc => exact (p.wake_kin i).size
  | stop i hpc hi => rfl
  | stopEnd i hpc hi => rfl
  | shutNotify i hpc => exact (p.wake_kin i).size
  | join i hpc hd => rfl

/-- Every step brings the end nearer, or is silent. -/
theorem Move.measure {env : Env} {st st' : State} {l : Label} (hN : 0 < st.nprocs) (h : Move env st l st') :
    st'.rank < st.rank ∨ (st'.rank = st.rank ∧ (st'.toil < st.toil ∨ (st'.toil = st.toil ∧ Silent st l st'))) := by
  cases h with
  | thread ix i hx hi p ht hp =>
    obtain ⟨h1, h2⟩ := measure_setProc st hx ht.keeps.2.2
    rcases ht.measure hi with h3 | ⟨h3, h4 | ⟨h4, ph, h5, h6⟩⟩
    · left; omega
    · right; exact ⟨by omega, Or.inl (by omega)⟩
    · right
      refine ⟨by omega, Or.inr ⟨by omega, ?_⟩⟩
      rw [h5]
      exact .nap ix i _ (Or.inl rfl) hx hi ph h6
  | spurious ix i hx hi hp =>
    have ht : TMove env (st.procs ix) i _ := .spurious hp
    obtain ⟨h1, h2⟩ := measure_setProc st hx ht.keeps.2.2
    rcases ht.measure hi with h3 | ⟨h3, h4 | ⟨h4, ph, h5, h6⟩⟩
    · left; omega
    · right; exact ⟨by omega, Or.inl (by omega)⟩
    · right
      refine ⟨by omega, Or.inr ⟨by omega, ?_⟩⟩
      rw [h5]
      exact .nap ix i _ (Or.inr rfl) hx hi ph h6
  | worker ix h0 hx p hw =>
    obtain ⟨h1, h2⟩ := measure_setProc st hx hw.size
    rcases hw.measure with h3 | ⟨h3, h4 | ⟨h4, h5, r, ms, h6, h7⟩⟩
    · left; omega
    · right; exact ⟨by omega, Or.inl (by omega)⟩
    · right
      exact ⟨by omega, Or.inr ⟨by omega, .answer ix h0 hx h5 r ms h6 p h7⟩⟩
  | master ch st' hm =>
    have hm' := masterStep_cases hm
    have hs : ∑ q ∈ Finset.range st'.nprocs, (st'.procs q).rank = ∑ q ∈ Finset.range st.nprocs, (st.procs q).rank := by
      rw [hm'.nprocs]
      exact Finset.sum_congr rfl fun q _ => hm'.procRank q
    unfold State.rank
    rw [hs]
    rcases hm'.rank hN with h1 | ⟨h1, h2, h3⟩
    · left; omega
    · right
      refine ⟨by omega, Or.inr ⟨?_, .poll ch st' hm h2 h3⟩⟩
      unfold State.toil
      rw [hm'.nprocs]
      exact Finset.sum_congr rfl fun q _ => (hm'.poll h2 q).2.2

end Mpi
end Hycu
