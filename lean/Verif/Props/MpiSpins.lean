import Verif.Props.MpiEnds

/-!
C52: runs with several processes, none of which has a thread, never end if there is a block to be computed.
-/

namespace Hycu
namespace Mpi

open Run (Env Sect program Cmd Cont)

/-- The places of the loop in `fill_idle_queues` (src/worker_pool/mpi.cc l.161-188), and in `flush_finished_blocks` when
called from there. -/
inductive Fills : Pc → Prop
  | flush : Fills (.flush .fill)
  | flushSend (ix : Nat) : Fills (.flushSend ix .fill)
  | flushRecv (ix : Nat) : Fills (.flushRecv ix .fill)
  | ready : Fills .ready
  | readySend (ix : Nat) : Fills (.readySend ix)
  | readyRecv (ix : Nat) : Fills (.readyRecv ix)
  | filled : Fills .filled

/-- A process without threads. -/
structure Bare (p : Proc) : Prop where
  size : p.size = 0
  ready : p.pool.ready = []
  inbox : ∀ o b, Msg.assign o b ∉ p.inbox
  readyOut : ∀ n ∈ p.readyOut, n = (0, 0)

theorem Bare.flushReady {p : Proc} (h : Bare p) : p.flushReady.2 = (0, 0) ∧ Bare p.flushReady.1 := by
  have h1 : p.pool.flushReady (fun i => (p.thr i).opencl) = ({ p.pool with ready := [] }, 0, 0) := by
    unfold Run.ThreadPool.flushReady
    rw [h.ready]
    rfl
  unfold Proc.flushReady
  rw [h1]
  exact ⟨rfl, h.size, rfl, h.inbox, h.readyOut⟩

theorem Bare.wake {p : Proc} (h : Bare p) (i : Nat) : Bare (p.wake i) := by
  unfold Proc.wake
  split
  · exact ⟨h.size, h.ready, h.inbox, h.readyOut⟩
  · exact h

theorem Bare.send {p : Proc} (h : Bare p) {m : Msg} (hm : ∀ o b, m ≠ .assign o b) : Bare (p.send m) :=
  ⟨h.size, h.ready, fun o b hmem => (List.mem_append.1 hmem).elim (h.inbox o b)
    fun hmem => hm o b (List.mem_singleton.1 hmem).symm, h.readyOut⟩

theorem Bare.worker {p p' : Proc} (h : Bare p) (hs : WStep p p') : Bare p' := by
  have tail : ∀ {m ms}, p.inbox = m :: ms → ∀ o b, Msg.assign o b ∉ ms := fun hi o b hm =>
    h.inbox o b (by rw [hi]; exact List.mem_cons_of_mem _ hm)
  cases hs with
  | config c ms hi => exact ⟨h.size, h.ready, tail hi, h.readyOut⟩
  | assign o b ms hi r hr => exact (h.inbox o b (by rw [hi]; exact List.mem_cons_self)).elim
  | ready ms hi =>
    obtain ⟨h1, h2⟩ := h.flushReady
    refine ⟨h2.size, h2.ready, tail hi, fun n hn => ?_⟩
    rcases List.mem_append.1 hn with hn | hn
    · exact h.readyOut n hn
    · rw [List.mem_singleton.1 hn, h1]
  | save ms hi => exact ⟨h.size, h.ready, tail hi, h.readyOut⟩
  | finished ms hi => exact ⟨h.size, h.ready, tail hi, h.readyOut⟩
  | shutdown ms hi => exact ⟨h.size, h.ready, tail hi, h.readyOut⟩
  | wake i pc => exact ⟨(h.wake i).size, (h.wake i).ready, (h.wake i).inbox, (h.wake i).readyOut⟩
  | stop i pc => exact ⟨h.size, h.ready, h.inbox, h.readyOut⟩
  | pc pc => exact ⟨h.size, h.ready, h.inbox, h.readyOut⟩

/-- A run without threads. -/
structure NoThreads (st : State) : Prop where
  bare : ∀ ix, Bare (st.procs ix)
  cpu : st.cpuQueue = []
  opencl : st.openclQueue = []
  assigned : ∀ ix, st.assigned ix = []
  take : st.pc ≠ .take
  notify : ∀ i b, st.pc ≠ .notify i b
  insert : ∀ ix b, st.pc ≠ .insert ix b

section

variable {env : Env} {st st' : State} {fs : FileSystem} {todo : List Cmd} {kinds : List (List Bool)}

theorem NoThreads.initial (hk : ∀ k ∈ kinds, k = []) : NoThreads (initial kinds fs todo) := by
  refine ⟨fun ix => ?_, rfl, rfl, fun _ => rfl, nofun, nofun, nofun⟩
  have h : kinds[ix]?.getD [] = [] := by
    cases he : kinds[ix]? with
    | none => rfl
    | some k => exact hk k (List.mem_of_getElem? he)
  show Bare (Proc.initial (kinds[ix]?.getD []))
  rw [h]
  exact ⟨rfl, rfl, nofun, nofun⟩

/-- Steps that change only one process, and where the main thread is. -/
theorem NoThreads.quiet (h : NoThreads st) (ix : Nat) {p : Proc} (h1 : st'.procs = Function.update st.procs ix p)
    (hp : Bare p) (h2 : st'.cpuQueue = st.cpuQueue)
    (h3 : st'.openclQueue = st.openclQueue) (h4 : ∀ ix, st'.assigned ix = [])
    (h5 : st'.pc ≠ .take ∧ (∀ i b, st'.pc ≠ .notify i b) ∧ ∀ i b, st'.pc ≠ .insert i b) : NoThreads st' := by
  refine ⟨fun jx => ?_, h2 ▸ h.cpu, h3 ▸ h.opencl, h4, h5.1, h5.2.1, h5.2.2⟩
  rw [h1]
  by_cases hj : jx = ix
  · subst hj; rw [Function.update_self]; exact hp
  · rw [Function.update_of_ne hj]; exact h.bare jx

/-- Steps that change no process. -/
theorem NoThreads.still (h : NoThreads st) (h1 : st'.procs = st.procs) (h2 : st'.cpuQueue = st.cpuQueue)
    (h3 : st'.openclQueue = st.openclQueue) (h4 : st'.assigned = st.assigned)
    (h5 : st'.pc ≠ .take ∧ (∀ i b, st'.pc ≠ .notify i b) ∧ ∀ i b, st'.pc ≠ .insert i b) : NoThreads st' :=
  ⟨h1 ▸ h.bare, h2 ▸ h.cpu, h3 ▸ h.opencl, h4 ▸ h.assigned, h5.1, h5.2.1, h5.2.2⟩

theorem NoThreads.erase (h : NoThreads st) {ix : Nat} {bs : List Block} {a : OSet Block}
    (ha : Run.eraseFinished bs (st.assigned ix) = .ok a) (jx : Nat) : Function.update st.assigned ix a jx = [] := by
  rw [h.assigned] at ha
  rw [eraseFinished_nil ha]
  by_cases hj : jx = ix
  · subst hj; exact Function.update_self ..
  · rw [Function.update_of_ne hj]; exact h.assigned jx

theorem NoThreads.master (h : NoThreads st) (hs : MStep st st') : NoThreads st' ∧ (Fills st.pc → Fills st'.pc) := by
  have away : ∀ {pc : Pc} {P : Prop}, st.pc = pc → ¬ Fills pc → Fills st.pc → P :=
    fun h1 h2 h3 => absurd (h1 ▸ h3) h2
  cases hs with
  | mainEnd hpc | waited k hpc | waitOn k hpc | saveNone k hpc | newStoreInvalid hpc | newStore hpc | configEnd ix hpc | skip hpc
  | stopEnd ix hpc | shutdownEnd i hpc | join i hpc | writeEnd ix k hpc | writeLost ix k n c ws hpc | write ix k n c ws hpc
  | mainConfig hpc | mainAssign hpc | saveEnd ix k hpc =>
    refine ⟨h.still rfl rfl rfl rfl ?_, away hpc nofun⟩
    first
    | (refine ⟨?_, fun _ _ => ?_, fun _ _ => ?_⟩ <;> intro h <;> cases h)
    | (dsimp only; split <;> refine ⟨?_, fun _ _ => ?_, fun _ _ => ?_⟩ <;> intro h <;> cases h)
    | (cases k <;> refine ⟨?_, fun _ _ => ?_, fun _ _ => ?_⟩ <;> intro h <;> cases h)
  | flush c hpc a ha =>
    refine ⟨h.quiet 0 rfl ⟨(h.bare 0).size, (h.bare 0).ready, (h.bare 0).inbox, (h.bare 0).readyOut⟩ rfl rfl (h.erase ha)
      ⟨nofun, nofun, nofun⟩, fun hf => ?_⟩
    rw [hpc] at hf
    cases hf
    exact .flushSend 1
  | flushSend ix c hpc hi =>
    refine ⟨h.quiet ix rfl ((h.bare ix).send nofun) rfl rfl h.assigned ⟨nofun, nofun, nofun⟩, fun hf => ?_⟩
    rw [hpc] at hf
    cases hf
    exact .flushRecv ix
  | flushEnd ix c hpc hi =>
    refine ⟨h.still rfl rfl rfl rfl (by cases c <;> exact ⟨nofun, nofun, nofun⟩), fun hf => ?_⟩
    rw [hpc] at hf
    cases hf
    exact .ready
  | flushRecv ix c hpc bs rest ho a ha =>
    refine ⟨h.quiet ix rfl ⟨(h.bare ix).size, (h.bare ix).ready, (h.bare ix).inbox, (h.bare ix).readyOut⟩ rfl rfl
      (h.erase ha) ⟨nofun, nofun, nofun⟩, fun hf => ?_⟩
    rw [hpc] at hf
    cases hf
    exact .flushSend _
  | ready hpc =>
    obtain ⟨h1, h2⟩ := (h.bare 0).flushReady
    refine ⟨h.quiet 0 rfl h2 ?_ ?_ h.assigned ⟨nofun, nofun, nofun⟩, fun _ => .readySend 1⟩
    · show st.cpuQueue ++ List.replicate (st.procs 0).flushReady.2.1 0 = _
      rw [h1]
      exact List.append_nil _
    · show st.openclQueue ++ List.replicate (st.procs 0).flushReady.2.2 0 = _
      rw [h1]
      exact List.append_nil _
  | readySend ix hpc hi =>
    exact ⟨h.quiet ix rfl ((h.bare ix).send nofun) rfl rfl h.assigned ⟨nofun, nofun, nofun⟩, fun _ => .readyRecv ix⟩
  | readyEnd ix hpc hi => exact ⟨h.still rfl rfl rfl rfl ⟨nofun, nofun, nofun⟩, fun _ => .filled⟩
  | readyRecv ix hpc n rest ho =>
    obtain rfl := (h.bare ix).readyOut n (by rw [ho]; exact List.mem_cons_self)
    refine ⟨h.quiet ix rfl ⟨(h.bare ix).size, (h.bare ix).ready, (h.bare ix).inbox, fun n hn => (h.bare ix).readyOut n ?_⟩
      (List.append_nil _) (List.append_nil _) h.assigned ⟨nofun, nofun, nofun⟩, fun _ => .readySend _⟩
    rw [ho]
    exact List.mem_cons_of_mem _ hn
  | fillOn hpc => exact ⟨h.still rfl rfl rfl rfl ⟨nofun, nofun, nofun⟩, fun _ => .flush⟩
  | filled hpc hne => exact absurd ⟨h.cpu, h.opencl⟩ hne
  | saveLost k hpc | saveStart k hpc =>
    exact ⟨h.quiet 0 rfl ⟨(h.bare 0).size, (h.bare 0).ready, (h.bare 0).inbox, (h.bare 0).readyOut⟩ rfl rfl h.assigned
      ⟨nofun, nofun, nofun⟩, away hpc nofun⟩
  | saveSend ix k hpc hi | configSend ix hpc | stopSend ix hpc =>
    exact ⟨h.quiet ix rfl ((h.bare ix).send nofun) rfl rfl h.assigned ⟨nofun, nofun, nofun⟩, away hpc nofun⟩
  | recvLost ix k hpc | recvStart ix k hpc =>
    exact ⟨h.quiet ix rfl ⟨(h.bare ix).size, (h.bare ix).ready, (h.bare ix).inbox, (h.bare ix).readyOut⟩ rfl rfl h.assigned
      ⟨nofun, nofun, nofun⟩, away hpc nofun⟩
  | update hpc =>
    exact ⟨h.quiet 0 rfl ⟨(h.bare 0).size, (h.bare 0).ready, (h.bare 0).inbox, (h.bare 0).readyOut⟩ rfl rfl h.assigned
      ⟨nofun, nofun, nofun⟩, away hpc nofun⟩
  | fill hpc => exact ⟨h.still rfl rfl rfl rfl ⟨nofun, nofun, nofun⟩, fun _ => .flush⟩
  | noFill hpc b rest ht f hf hc ho => exact absurd h.opencl ho
  | takeLocal hpc | takeRemote hpc => exact absurd hpc h.take
  | notify i b hpc => exact absurd hpc (h.notify i b)
  | insert ix b hpc => exact absurd hpc (h.insert ix b)
  | shutdown i hpc hi => rw [(h.bare 0).size] at hi; exact absurd hi (Nat.not_lt_zero i)
  | shutNotify i hpc =>
    exact ⟨h.quiet 0 rfl ((h.bare 0).wake i) rfl rfl h.assigned ⟨nofun, nofun, nofun⟩, away hpc nofun⟩

theorem NoThreads.trans (h : NoThreads st) (hs : Trans env st st') : NoThreads st' ∧ (Fills st.pc → Fills st'.pc) := by
  cases hs with
  | thread ix hx i hi => rw [(h.bare ix).size] at hi; exact absurd hi (Nat.not_lt_zero i)
  | worker ix h0 hx p hp =>
    exact ⟨h.quiet ix rfl ((h.bare ix).worker hp) rfl rfl h.assigned ⟨h.take, h.notify, h.insert⟩, id⟩
  | master st' hm => exact h.master hm

theorem NoThreads.reachable (h : NoThreads st) (hr : Reachable env st st') :
    NoThreads st' ∧ (Fills st.pc → Fills st'.pc) := by
  induction hr with
  | refl => exact ⟨h, id⟩
  | step l _ hs ih =>
    have := ih.1.trans (step_trans hs)
    exact ⟨this.1, fun h => this.2 (ih.2 h)⟩

/-- C52: a run in which no process has a thread never assigns a block, and as soon as `assign` is called for a block that is
not in the records read at the beginning of the section, the master remains in the loop of `fill_idle_queues` for ever. -/
theorem C52_spins (hk : ∀ k ∈ kinds, k = []) (hr : Reachable env (initial kinds fs todo) st) :
    (∀ ix, st.assigned ix = []) ∧ ∀ b rest f, st.pc = .contains → st.todo = .assign b :: rest → st.fileStore = some f →
      FileStore.contains f.initial b = false → ∀ ch st₁, step env st (.master ch) = .ok (some st₁) →
      ∀ st', Reachable env st₁ st' → Fills st'.pc := by
  have h := ((NoThreads.initial hk).reachable hr).1
  refine ⟨h.assigned, fun b rest f hpc ht hf hc ch st₁ hs st' hr' => ?_⟩
  refine ((h.trans (step_trans hs)).1.reachable hr').2 ?_
  have hs' : masterStep st ch = Res.ok (some st₁) := hs
  unfold masterStep at hs'
  rw [hpc] at hs'
  dsimp only at hs'
  rw [ht] at hs'
  dsimp only at hs'
  unfold containsStep at hs'
  rw [hf] at hs'
  dsimp only at hs'
  rw [hc, if_neg (by decide), if_pos h.opencl] at hs'
  cases hs'
  exact .flush

end

def bareInit : State := initial [[], []] (fun _ => some []) (program [Run.lostSect])

/-- The master and one worker up to the call of `assign`. -/
def bareLabels : List Label :=
  [.master Run.lostChoice, .master Run.lostChoice, .master Run.lostChoice, .worker 1, .master Run.lostChoice,
    .master Run.lostChoice, .master Run.lostChoice, .master Run.lostChoice, .master Run.lostChoice, .master Run.lostChoice,
    .master Run.lostChoice, .master Run.lostChoice, .master Run.lostChoice]

/-- Hypotheses of `C52_spins`: two processes without threads, one block. -/
example : ∃ st b rest f st₁, Reachable Run.lostEnv bareInit st ∧ st.pc = .contains ∧ st.todo = .assign b :: rest ∧
    st.fileStore = some f ∧ FileStore.contains f.initial b = false ∧
    step Run.lostEnv st (.master Run.lostChoice) = .ok (some st₁) := by
  refine ⟨_, _, _, _, _, exec_reachable (ls := bareLabels) .refl rfl, rfl, rfl, rfl, rfl, rfl⟩

end Mpi
end Hycu
