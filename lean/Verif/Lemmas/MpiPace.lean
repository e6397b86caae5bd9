import Verif.Lemmas.Pace
import Verif.Lemmas.MpiInv

/-!
How many blocks are in work or finished and not yet acknowledged, if there are several processes.
-/

namespace Hycu.Mpi

open Run (Tables Job Phase Thread ThreadPool FileStoreObj Cmd Cont Choice Env eraseFinished Book lead Distinct)

/-- The finished blocks of a process have been taken, while those threads that reported before have not. -/
def Pc.window : Pc → Nat → Proc → Prop
  | .flushSend jx _, ix, _ => ix < jx
  | .flushRecv jx _, ix, p => ix < jx ∨ ix = jx ∧ p.finishedOut ≠ []
  | .ready, _, _ => True
  | .readySend jx, ix, _ => jx ≤ ix
  | .readyRecv jx, ix, p => jx < ix ∨ ix = jx ∧ p.readyOut = []
  | _, _, _ => False

/-- Blocks that have been finished and are not acknowledged belong to threads that have reported since, apart from one for
each thread; and to those only, in the window between the two steps of filling the queues. -/
structure PaceAt (pc : Pc) (ix : Nat) (p : Proc) : Prop where
  always : p.pool.finished.length + p.finishedOut.flatten.length ≤ p.pool.ready.length + p.size
  window : pc.window ix p → p.pool.finished.length ≤ p.pool.ready.length

/-- What `PaceAt` is about. -/
structure Slow (p p' : Proc) : Prop where
  ready : p'.pool.ready = p.pool.ready
  finished : p'.pool.finished = p.pool.finished
  finishedOut : p'.finishedOut = p.finishedOut
  readyOut : p'.readyOut = p.readyOut
  size : p'.size = p.size

theorem Slow.rfl' (p : Proc) : Slow p p := ⟨rfl, rfl, rfl, rfl, rfl⟩

theorem Slow.window {p p' : Proc} (h : Slow p p') {pc : Pc} {ix : Nat} : pc.window ix p' ↔ pc.window ix p := by
  unfold Pc.window
  split <;> simp [h.finishedOut, h.readyOut]

theorem PaceAt.slow {pc pc' : Pc} {ix : Nat} {p p' : Proc} (h : PaceAt pc ix p) (hs : Slow p p')
    (hw : pc'.window ix p → pc.window ix p) : PaceAt pc' ix p' := by
  refine ⟨?_, fun hx => ?_⟩
  · rw [hs.ready, hs.finished, hs.finishedOut, hs.size]
    exact h.always
  · rw [hs.ready, hs.finished]
    exact h.window (hw (hs.window.1 hx))

theorem Slow.wake (p : Proc) (i : Nat) : Slow p (p.wake i) := by
  unfold Proc.wake
  split
  · exact ⟨rfl, rfl, rfl, rfl, rfl⟩
  · exact .rfl' p

theorem Slow.assign {p : Proc} {b : Block} {o : Bool} {r : Proc × Nat} (h : p.assign b o = .ok r) : Slow p r.1 := by
  unfold Proc.assign at h
  obtain ⟨q, hq, h⟩ := Res.bind_eq_ok.1 h
  cases h
  obtain ⟨e1, e2⟩ := ThreadPool.assign_lists hq
  exact ⟨e1, e2, rfl, rfl, rfl⟩

theorem PerProc.size_eq {pc : Pc} {cpu ocl : Nat} {asg : OSet Block} {ld : List Block} {ix : Nat} {p : Proc}
    (h : PerProc pc cpu ocl asg ld ix p) :
    p.promised false + p.promised true + p.pool.ready.length + p.pool.busy.length ≤ p.size := by
  have h1 := h.ok.book.perm.length_eq
  obtain ⟨a, b, e, _, _, e1, e2⟩ := h.ok.book.split
  rw [e] at h1
  simp only [List.length_append, List.length_map, List.length_range] at h1
  omega

theorem inBlocks_length (p : Proc) : p.inBlocks.length = p.promised false + p.promised true := by
  unfold Proc.inBlocks Proc.promised
  induction p.inbox with
  | nil => rfl
  | cons m ms ih =>
    cases m with
    | assign o b => cases o <;> simp [Msg.block?, Msg.isAssign, ih] <;> omega
    | _ =>
      rw [List.filterMap_cons_none rfl]
      simpa [Msg.isAssign] using ih

/-- All processes. -/
def Pace (st : State) : Prop := ∀ q, q < st.nprocs → PaceAt st.pc q (st.procs q)

theorem PaceAt.thread {env : Env} {pc : Pc} {ix i : Nat} {p p' : Proc} (h : PaceAt pc ix p)
    (ht : Proc.TStep env p i p') : PaceAt pc ix p' := by
  cases ht with
  | phase t => exact h.slow ⟨rfl, rfl, rfl, rfl, rfl⟩ id
  | pop j q => exact h.slow ⟨rfl, rfl, rfl, rfl, rfl⟩ id
  | compute j => exact h.slow ⟨rfl, rfl, rfl, rfl, rfl⟩ id
  | report j hp r hf =>
    unfold ThreadPool.finishedBlock at hf
    split at hf
    · cases hf
    · cases hf
      have h1 := h.always
      refine ⟨?_, fun hx => ?_⟩
      · show (p.pool.finished ++ _).length + p.finishedOut.flatten.length ≤ (p.pool.ready ++ _).length + p.size
        simp only [List.length_append, List.length_singleton]
        omega
      · have hx : pc.window ix p := by
          unfold Pc.window at hx ⊢
          split at hx <;> exact hx
        have := h.window hx
        show (p.pool.finished ++ _).length ≤ (p.pool.ready ++ _).length
        simp only [List.length_append, List.length_singleton]
        omega

theorem PaceAt.worker {pc : Pc} {cpu ocl : Nat} {asg : OSet Block} {ld : List Block} {ix : Nat} {p p' : Proc}
    (h : PaceAt pc ix p) (hp : PerProc pc cpu ocl asg ld ix p) (hw : WStep p p') : PaceAt pc ix p' := by
  have hs := hp.size_eq
  cases hw with
  | config c ms hi => exact h.slow ⟨rfl, rfl, rfl, rfl, rfl⟩ id
  | assign o b ms hi r hr =>
    have := Slow.assign hr
    exact h.slow ⟨this.ready, this.finished, this.finishedOut, this.readyOut, this.size⟩ id
  | ready ms hi =>
    obtain ⟨he, rfl, h1, h2, _⟩ := Proc.Prot.request (r' := .ready) hp.prot hi
    have hpc : pc = .readyRecv ix := by
      unfold Pc.expects at he
      split at he <;> first | (split at he <;> simp_all) | cases he
    subst hpc
    have := h.window (Or.inr ⟨rfl, h2⟩)
    refine ⟨?_, fun hx => ?_⟩
    · show p.pool.finished.length + p.finishedOut.flatten.length ≤ 0 + p.size
      rw [h1]
      simp only [List.flatten_nil, List.length_nil]
      omega
    · rcases hx with hx | ⟨_, hx⟩
      · omega
      · exact absurd hx (by simp)
  | save ms hi => exact h.slow ⟨rfl, rfl, rfl, rfl, rfl⟩ id
  | finished ms hi =>
    obtain ⟨he, rfl, h1, h2, _⟩ := Proc.Prot.request (r' := .finished) hp.prot hi
    have := h.always
    refine ⟨?_, fun hx => Nat.zero_le _⟩
    show 0 + (p.finishedOut ++ [p.pool.finished]).flatten.length ≤ p.pool.ready.length + p.size
    rw [h1] at this ⊢
    simpa using this
  | shutdown ms hi => exact h.slow ⟨rfl, rfl, rfl, rfl, rfl⟩ id
  | wake i pc =>
    have := Slow.wake p i
    exact h.slow ⟨this.ready, this.finished, this.finishedOut, this.readyOut, this.size⟩ id
  | stop i pc => exact h.slow ⟨rfl, rfl, rfl, rfl, rfl⟩ id
  | pc pc => exact h.slow ⟨rfl, rfl, rfl, rfl, rfl⟩ id

theorem Pace.setProc {st : State} (h : Pace st) {ix : Nat} {p : Proc} {pc' : Pc} (hp : PaceAt pc' ix p)
    (hw : ∀ q, q < st.nprocs → q ≠ ix → pc'.window q (st.procs q) → st.pc.window q (st.procs q)) :
    ∀ q, q < st.nprocs → PaceAt pc' q (Function.update st.procs ix p q) := by
  intro q hq
  by_cases hx : q = ix
  · subst hx
    rw [Function.update_self]
    exact hp
  · rw [Function.update_of_ne hx]
    exact (h q hq).slow (.rfl' _) (hw q hq hx)

theorem Pace.master {st st' : State} (h : Pace st) (hi : Inv st) (hm : MStep st st') : Pace st' := by
  have keep : ∀ (pc' : Pc), (∀ q, q < st.nprocs → pc'.window q (st.procs q) → st.pc.window q (st.procs q)) →
      ∀ q, q < st.nprocs → PaceAt pc' q (st.procs q) :=
    fun pc' hw q hq => (h q hq).slow (.rfl' _) (hw q hq)
  have one : ∀ (pc' : Pc) (ix : Nat) (p : Proc), Slow (st.procs ix) p →
      (∀ q, q < st.nprocs → pc'.window q (st.procs q) → st.pc.window q (st.procs q)) →
      ∀ q, q < st.nprocs → PaceAt pc' q (Function.update st.procs ix p q) := by
    intro pc' ix p hs hw q hq
    by_cases hx : q = ix
    · subst hx
      rw [Function.update_self]
      exact (h q hq).slow hs (hw q hq)
    · rw [Function.update_of_ne hx]
      exact (h q hq).slow (.rfl' _) (hw q hq)
  cases hm with
  | mainConfig hpc c rest ht create v hv =>
    refine keep _ fun q _ hx => ?_
    split at hx <;> cases hx
  | mainAssign hpc b rest ht now =>
    refine keep _ fun q _ hx => ?_
    split at hx <;> cases hx
  | flush c hpc a ha =>
    have h0 := (h 0 hi.pos).always
    refine h.setProc ⟨?_, fun _ => Nat.zero_le _⟩ fun q hq hne hx => ?_
    · show 0 + (st.procs 0).finishedOut.flatten.length ≤ (st.procs 0).pool.ready.length + (st.procs 0).size
      omega
    · have hx : q < 1 := hx
      omega
  | flushSend ix c hpc hix =>
    refine one _ ix _ ⟨rfl, rfl, rfl, rfl, rfl⟩ fun q hq hx => ?_
    rw [hpc]
    rcases hx with hx | ⟨rfl, hx⟩
    · exact hx
    · have := (hi.each q hq).prot
      rw [hpc] at this
      exact absurd this.2.1 hx
  | flushEnd ix c hpc hix =>
    refine keep _ fun q hq hx => ?_
    rw [hpc]
    exact Nat.lt_of_lt_of_le hq (Nat.le_of_not_lt hix)
  | flushRecv ix c hpc bs rest ho a ha =>
    have hs := hi.started
    rw [hpc] at hs
    have h0 := (h ix hs.2).always
    have hw := (h ix hs.2).window
    rw [hpc] at hw
    have hw := hw (Or.inr ⟨rfl, by rw [ho]; simp⟩)
    rw [ho] at h0
    simp only [List.flatten_cons, List.length_append] at h0
    refine h.setProc ⟨?_, fun _ => hw⟩ fun q hq hne hx => ?_
    · show (st.procs ix).pool.finished.length + rest.flatten.length ≤ (st.procs ix).pool.ready.length + (st.procs ix).size
      omega
    · rw [hpc]
      have hx : q < ix + 1 := hx
      exact Or.inl (by omega)
  | ready hpc =>
    have hw := (h 0 hi.pos).window
    rw [hpc] at hw
    have hw := hw trivial
    have hp := (hi.each 0 hi.pos).prot
    rw [hpc] at hp
    have hs := (hi.each 0 hi.pos).size_eq
    refine h.setProc ⟨?_, fun hx => ?_⟩ fun q hq hne hx => ?_
    · show (st.procs 0).pool.finished.length + (st.procs 0).finishedOut.flatten.length ≤ 0 + (st.procs 0).size
      rw [hp.2.1]
      simp only [List.flatten_nil, List.length_nil]
      omega
    · have hx : 1 ≤ 0 := hx
      omega
    · rw [hpc]
      trivial
  | readySend ix hpc hix =>
    refine one _ ix _ ⟨rfl, rfl, rfl, rfl, rfl⟩ fun q hq hx => ?_
    rw [hpc]
    rcases hx with hx | ⟨rfl, hx⟩
    · exact Nat.le_of_lt hx
    · exact Nat.le_refl q
  | readyRecv ix hpc n rest ho =>
    have hs := hi.started
    rw [hpc] at hs
    refine h.setProc ⟨(h ix hs.2).always, fun hx => ?_⟩ fun q hq hne hx => ?_
    · have hx : ix + 1 ≤ ix := hx
      omega
    · rw [hpc]
      have hx : ix + 1 ≤ q := hx
      exact Or.inl hx
  | saveNone k => exact keep _ fun q _ hx => by cases k <;> cases hx
  | saveLost k => exact one _ _ _ ⟨rfl, rfl, rfl, rfl, rfl⟩ fun q _ hx => by cases hx
  | saveStart k => exact one _ _ _ ⟨rfl, rfl, rfl, rfl, rfl⟩ fun q _ hx => by cases hx
  | saveSend ix k => exact one _ _ _ ⟨rfl, rfl, rfl, rfl, rfl⟩ fun q _ hx => by cases hx
  | saveEnd ix k => exact keep _ fun q _ hx => by cases k <;> cases hx
  | recvLost ix k => exact one _ _ _ ⟨rfl, rfl, rfl, rfl, rfl⟩ fun q _ hx => by cases hx
  | recvStart ix k => exact one _ _ _ ⟨rfl, rfl, rfl, rfl, rfl⟩ fun q _ hx => by cases hx
  | update => exact one _ _ _ ⟨rfl, rfl, rfl, rfl, rfl⟩ fun q _ hx => by cases hx
  | configSend ix => exact one _ _ _ ⟨rfl, rfl, rfl, rfl, rfl⟩ fun q _ hx => by cases hx
  | takeLocal hpc b rest ht o cq oq hq r hr => exact one _ _ _ (Slow.assign hr) fun q _ hx => by cases hx
  | takeRemote => exact one _ _ _ ⟨rfl, rfl, rfl, rfl, rfl⟩ fun q _ hx => by cases hx
  | notify i b hpc => exact one _ _ _ (Slow.wake _ i) fun q _ hx => by cases hx
  | stopSend ix => exact one _ _ _ ⟨rfl, rfl, rfl, rfl, rfl⟩ fun q _ hx => by cases hx
  | shutdown i => exact one _ _ _ ⟨rfl, rfl, rfl, rfl, rfl⟩ fun q _ hx => by cases hx
  | shutNotify i hpc => exact one _ _ _ (Slow.wake _ i) fun q _ hx => by cases hx
  | _ => exact keep _ fun q _ hx => by cases hx

theorem Pace.trans {env : Env} {st st' : State} (h : Pace st) (hi : Inv st) (ht : Trans env st st') : Pace st' := by
  cases ht with
  | thread ix hx i hj p ht => exact h.setProc ((h ix hx).thread ht) fun q _ _ hw => hw
  | worker ix h0 hx p hw => exact h.setProc ((h ix hx).worker (hi.each ix hx) hw) fun q _ _ hw => hw
  | master st' hm => exact h.master hi hm

theorem Pace.reachable {env : Env} {kinds : List (List Bool)} {fs : FileSystem} {todo : List Cmd} {st : State}
    (hi : Inv (Mpi.initial kinds fs todo)) (h : Reachable env (Mpi.initial kinds fs todo) st) : Pace st := by
  induction h with
  | refl => exact fun q _ => ⟨Nat.zero_le _, fun hx => by cases hx⟩
  | step l hr hs ih => exact ih.trans (hi.reachable hr) (step_trans hs)

/-- Blocks that a process has been given. -/
theorem PaceAt.held {pc : Pc} {cpu ocl : Nat} {asg : OSet Block} {ld : List Block} {ix : Nat} {p : Proc}
    (h : PaceAt pc ix p) (hp : PerProc pc cpu ocl asg ld ix p) : asg.length + (pc.inflight ix).length ≤ 2 * p.size := by
  have e : (asg ++ pc.inflight ix).Perm
      (p.inBlocks ++ (p.pool.busy.map Prod.fst ++ p.pool.finished) ++ p.finishedOut.flatten) := by
    rw [List.perm_iff_count]
    intro b
    have := hp.ledger b
    unfold Proc.held Proc.known at this
    simp only [List.count_append]
    omega
  have e := e.length_eq
  simp only [List.length_append, List.length_map, inBlocks_length] at e
  have := hp.size_eq
  have := h.always
  omega

end Hycu.Mpi
