import Verif.Props.Pace

/-!
C88: how many messages wait to be received.

The statement counts the elements of the four queues of the model between the master and a process: `inbox` (sends of
src/worker_pool/mpi.cc, lines 77, 111, 138, 149, 174, 202 and 261) and the replies that the master has not received
(`finishedOut`, `readyOut`, `saveOut`; src/worker_pool/mpi_worker.cc,
lines 79, 88 and 97).
-/

namespace Hycu.Mpi

open Run (Env Sect program Cmd)

/-- Workers that have been told to stop get no other message. -/
def Last (st : State) : Prop := ∀ q, 0 < q → q < st.nprocs → st.pc.closing q → (st.procs q).inbox.length ≤ 1

theorem WStep.inbox_le {p p' : Proc} (h : WStep p p') : p'.inbox.length ≤ p.inbox.length := by
  cases h with
  | config c ms hi => rw [hi]; exact Nat.le_succ _
  | assign o b ms hi r hr =>
    show r.1.inbox.length ≤ _
    rw [(Proc.assign_keeps hr).2, hi]
    exact Nat.le_succ _
  | ready ms hi => rw [hi]; exact Nat.le_succ _
  | save ms hi => rw [hi]; exact Nat.le_succ _
  | finished ms hi => rw [hi]; exact Nat.le_succ _
  | shutdown ms hi => rw [hi]; exact Nat.le_succ _
  | wake i pc =>
    show (p.wake i).inbox.length ≤ _
    rw [(Proc.wake_keeps p i).2]
  | stop i pc => exact Nat.le_refl _
  | pc pc => exact Nat.le_refl _

theorem Last.proc {st : State} (h : Last st) {ix : Nat} {p : Proc} (hp : p.inbox.length ≤ (st.procs ix).inbox.length) :
    Last (st.setProc ix p) := by
  intro q h0 hq hc
  show (Function.update st.procs ix p q).inbox.length ≤ 1
  by_cases hx : q = ix
  · subst hx
    rw [Function.update_self]
    exact hp.trans (h q h0 hq hc)
  · rw [Function.update_of_ne hx]
    exact h q h0 hq hc

theorem Last.trans {env : Env} {st st' : State} (h : Last st) (hi : Inv st) (ht : Trans env st st') : Last st' := by
  cases ht with
  | thread ix hx i hlt p ht =>
    refine h.proc (le_of_eq (congrArg _ ?_))
    cases ht <;> rfl
  | worker ix h0 hx p hw => exact h.proc hw.inbox_le
  | master st' hm =>
    have only : ∀ {q : Nat} {p : Proc}, 0 < q → Function.update st.procs 0 p q = st.procs q :=
      fun h0 => Function.update_of_ne (Nat.ne_of_gt h0) ..
    cases hm with
    | mainConfig hpc c rest ht create v hv =>
      intro q h0 hq hc
      simp only at hc
      split at hc <;> cases hc
    | mainAssign hpc b rest ht now =>
      intro q h0 hq hc
      simp only at hc
      split at hc <;> cases hc
    | flushEnd ix c =>
      intro q h0 hq hc
      cases c <;> cases hc
    | saveNone k =>
      intro q h0 hq hc
      cases k
      · cases hc
      · cases hc
      · have hc : q < 1 := hc
        omega
    | saveEnd ix k =>
      intro q h0 hq hc
      cases k
      · cases hc
      · cases hc
      · have hc : q < 1 := hc
        omega
    | stopSend ix hpc hix =>
      intro q h0 hq hc
      have hc : q < ix + 1 := hc
      show (Function.update st.procs ix _ q).inbox.length ≤ 1
      by_cases hx : q = ix
      · subst hx
        rw [Function.update_self]
        have := (hi.each q hq).calm (by rw [hpc]; exact Nat.le_refl q)
        show ((st.procs q).inbox ++ [_]).length ≤ 1
        rw [this]
        exact Nat.le_refl _
      · rw [Function.update_of_ne hx]
        refine h q h0 hq ?_
        rw [hpc]
        show q < ix
        omega
    | stopEnd ix hpc hix =>
      intro q h0 hq hc
      refine h q h0 hq ?_
      rw [hpc]
      exact Nat.lt_of_lt_of_le hq (Nat.le_of_not_lt hix)
    | shutdown i hpc hlt =>
      intro q h0 hq hc
      show (Function.update st.procs 0 _ q).inbox.length ≤ 1
      rw [only h0]
      exact h q h0 hq (by rw [hpc]; trivial)
    | shutdownEnd i hpc hlt => exact fun q h0 hq _ => h q h0 hq (by rw [hpc]; trivial)
    | shutNotify i hpc =>
      intro q h0 hq hc
      show (Function.update st.procs 0 _ q).inbox.length ≤ 1
      rw [only h0]
      exact h q h0 hq (by rw [hpc]; trivial)
    | join i hpc hp => exact fun q h0 hq _ => h q h0 hq (by rw [hpc]; trivial)
    | _ => exact fun q h0 hq hc => by cases hc

theorem Last.reachable {env : Env} {kinds : List (List Bool)} {fs : FileSystem} {todo : List Cmd} {st : State}
    (hi : Inv (Mpi.initial kinds fs todo)) (h : Reachable env (Mpi.initial kinds fs todo) st) : Last st := by
  induction h with
  | refl => exact fun q _ _ hc => by cases hc
  | step l hr hs ih => exact ih.trans (hi.reachable hr) (step_trans hs)

theorem length_kinds (l : List Msg) (hr : ∀ m ∈ l, ¬ m.isReq) (hs : .shutdown ∉ l) : l.length =
    (l.countP (Msg.isAssign false) + l.countP (Msg.isAssign true)) + (l.filter fun m => m matches .config _).length := by
  induction l with
  | nil => rfl
  | cons m l ih =>
    have := ih (fun m hm => hr m (List.mem_cons_of_mem _ hm)) fun hm => hs (List.mem_cons_of_mem _ hm)
    cases m with
    | assign o b => cases o <;> simp [Msg.isAssign, this] <;> omega
    | config c => simp [Msg.isAssign, this]; omega
    | finishedBlocks => exact absurd ⟨.finished, rfl⟩ (hr _ List.mem_cons_self)
    | readyThreads => exact absurd ⟨.ready, rfl⟩ (hr _ List.mem_cons_self)
    | save => exact absurd ⟨.save, rfl⟩ (hr _ List.mem_cons_self)
    | shutdown => exact absurd List.mem_cons_self hs

theorem configs_le {l : List Msg} (h : ∀ c, .config c ∉ l.tail) : (l.filter fun m => m matches .config _).length ≤ 1 := by
  cases l with
  | nil => exact Nat.zero_le _
  | cons m l =>
    have : l.filter (fun m => m matches .config _) = [] := by
      rw [List.filter_eq_nil_iff]
      intro m hm
      cases m with
      | config c => exact absurd hm (h c)
      | _ => simp
    rw [List.filter_cons]
    split <;> simp [this]

variable {env : Env} {kinds : List (List Bool)} {ss : List Sect} {fs : FileSystem} {st : State}

/-- C88: the messages that a process has not received, and the replies that the master has not received from it, are at most
two more than the threads of the process. -/
theorem C88_messages (hk : ∀ k ∈ kinds, k.length < 4294967296) (hd : ∀ s ∈ ss, s.blocks.Nodup)
    (h : Reachable env (initial kinds fs (program ss)) st) {ix : Nat} {ks : List Bool} (hx : kinds[ix]? = some ks) :
    (st.procs ix).inbox.length + (st.procs ix).finishedOut.length + (st.procs ix).readyOut.length +
      (st.procs ix).saveOut.length ≤ ks.length + 2 := by
  obtain ⟨hlt, _⟩ := List.getElem?_eq_some_iff.1 hx
  have h0 : kinds ≠ [] := List.length_pos_iff.1 (Nat.zero_lt_of_lt hlt)
  have hq := (Kinds.reachable h).2 ix ks hx
  have hi := Inv.initial h0 hk fs (Run.distinct_program hd)
  have hlt' : ix < st.nprocs := (Kinds.reachable h).1 ▸ hlt
  have hp := (hi.reachable h).each ix hlt'
  have h1 := hp.size_eq
  rw [hq.1] at h1
  unfold Proc.promised at h1
  have key : ∀ l : List Msg, (∃ r, (st.procs ix).inbox = l ++ r) → (∀ m ∈ l, ¬ m.isReq) → l.length ≤ ks.length + 1 := by
    rintro l ⟨r, hl⟩ hr
    by_cases hs : .shutdown ∈ l
    · have : (st.procs ix).inbox.length ≤ 1 := by
        rcases Nat.eq_zero_or_pos ix with hz | hz
        · rw [hp.zero hz]
          exact Nat.zero_le _
        · by_contra hc
          refine hc (Last.reachable hi h ix hz hlt' ?_)
          by_contra hcl
          exact (Serves.reachable h ix hz hlt' hcl).inbox (by rw [hl]; exact List.mem_append_left _ hs)
      rw [hl, List.length_append] at this
      omega
    · have h2 := configs_le (l := l) fun c hc => hp.config c (by
        rw [hl]
        cases l with
        | nil => cases hc
        | cons m l => exact List.mem_append_left _ hc)
      have h3 := length_kinds l hr hs
      rw [hl, List.countP_append, List.countP_append] at h1
      omega
  have hpr := hp.prot
  cases he : st.pc.expects ix with
  | none =>
    rw [he] at hpr
    have := key _ ⟨[], (List.append_nil _).symm⟩ hpr.1
    rw [hpr.2.1, hpr.2.2.1, hpr.2.2.2]
    simp only [List.length_nil]
    omega
  | some r =>
    rw [he] at hpr
    rcases hpr with ⟨⟨l, hl, hm⟩, hsil⟩ | ⟨hin, hrep⟩
    · have := key l ⟨_, hl⟩ hm
      rw [hsil.1, hsil.2.1, hsil.2.2, hl]
      simp only [List.length_nil, List.length_append, List.length_singleton]
      omega
    · rw [hin]
      cases r with
      | finished =>
        obtain ⟨⟨_, e1⟩, e2, e3⟩ := hrep
        rw [e1, e2, e3]
        simp only [List.length_nil, List.length_singleton]
        omega
      | ready =>
        obtain ⟨e1, ⟨_, e2⟩, e3⟩ := hrep
        rw [e1, e2, e3]
        simp only [List.length_nil, List.length_singleton]
        omega
      | save =>
        obtain ⟨e1, e2, _, e3⟩ := hrep
        rw [e1, e2, e3]
        simp only [List.length_nil, List.length_singleton]
        omega

/-- A section with one block, and one with three. -/
def queueSects : List Sect :=
  [⟨⟨7, 1, 2, false, 1, "out".toList, 100⟩, [[(0, 10)]]⟩,
   ⟨⟨11, 1, 2, false, 1, "out2".toList, 100⟩, [[(0, 10)], [(10, 20)], [(20, 30)]]⟩]

/-- Both processes have a device, and the worker receives nothing after the first `n` rounds. -/
def queueRun (n m : Nat) : State :=
  (((List.range n).flatMap fun k => [Label.master ⟨false, true, k⟩, .worker 1, .thread 1 0, .thread 0 0]) ++
    (List.range m).map fun k => Label.master ⟨false, true, k⟩).foldl (attempt Run.demoEnv)
    (initial [[true], [true]] (fun _ => none) (program queueSects))

theorem queueRun_reachable (n m : Nat) :
    Reachable Run.demoEnv (initial [[true], [true]] (fun _ => none) (program queueSects)) (queueRun n m) :=
  attempts_reachable _ .refl

set_option maxRecDepth 20000 in
/-- The bound of `C88_messages` is reached: the device of the worker was left over from the first section. -/
example : ((queueRun 41 22).procs 1).inbox =
    [.config ⟨11, 1, 2, false, 1, "out2".toList, 100⟩, .assign true [(0, 10)], .finishedBlocks] ∧
    [[true], [true]][1]? = some [true] :=
  ⟨rfl, rfl⟩

example : (∀ k ∈ [[true], [true]], k.length < 4294967296) ∧ ∀ s ∈ queueSects, s.blocks.Nodup := by decide

end Hycu.Mpi
