import Verif.Lemmas.MpiWeak
import Verif.Spec.MpiSends

/-!
Messages that block are received, so that executions in which main threads wait in `send` are executions in the sense of
`Mpi.Exec`.
-/

namespace Hycu
namespace Mpi

open Run (FileStoreObj Choice Env)

variable {env : Env} {st₀ : State} {σ : Nat → State} {ls : Nat → Label}

theorem Blocking.sound (h : Blocking env st₀ σ ls) (hs : Sound st₀) (ha : ∀ n, Alert (σ n) (ls n)) (n : Nat) : Sound (σ n) := by
  induction n with
  | zero => rw [h.start]; exact hs
  | succ n ih =>
    rcases h.next n with h1 | ⟨_, h1⟩
    · exact ih.step (ha n) h1
    · rw [h1]; exact ih

theorem Blocking.nprocs (h : Blocking env st₀ σ ls) (n : Nat) : (σ n).nprocs = st₀.nprocs := by
  induction n with
  | zero => rw [h.start]
  | succ n ih =>
    rcases h.next n with h1 | ⟨_, h1⟩
    · exact (step_move h1).shape.1.trans ih
    · rw [h1]; exact ih

/-- While messages are to be received, no reply has been sent. -/
theorem Inv.silent {st : State} (h : Inv st) {ix : Nat} (hx : ix < st.nprocs) (hi : (st.procs ix).inbox ≠ []) :
    ¬ Held st (.worker ix) := by
  have hs : (st.procs ix).silent := by
    have hp := (h.each ix hx).prot
    cases he : st.pc.expects ix with
    | none => rw [he] at hp; exact hp.2
    | some r =>
      rw [he] at hp
      rcases hp with h1 | h1
      · exact h1.2
      · exact absurd h1.1 hi
  rintro (h1 | h1 | h1)
  · exact h1 hs.1
  · exact h1 hs.2.1
  · exact h1 hs.2.2

/-- While a reply is to be received, the master waits for it. -/
theorem Inv.waits {st : State} (h : Inv st) {ix : Nat} (hx : ix < st.nprocs) (hi : Held st (.worker ix)) :
    ∃ r, st.pc.expects ix = some r ∧ r.replied (st.procs ix) := by
  have hp := (h.each ix hx).prot
  have hns : ¬ (st.procs ix).silent := fun hs => by
    rcases hi with h1 | h1 | h1
    · exact h1 hs.1
    · exact h1 hs.2.1
    · exact h1 hs.2.2
  cases he : st.pc.expects ix with
  | none => rw [he] at hp; exact absurd hp.2 hns
  | some r =>
    rw [he] at hp
    rcases hp with h1 | h1
    · exact absurd h1.2 hns
    · exact ⟨r, rfl, h1.2⟩

/-- If the master expects a reply after a step, then it has just sent the request. -/
theorem MStep.asks {st st' : State} (h : MStep st st') {ix : Nat} {r : Req} (he : st'.pc.expects ix = some r) :
    (st'.procs ix).inbox ≠ [] := by
  have hsend : ∀ jx m, ix = jx → ((st.send jx m).procs ix).inbox ≠ [] := by
    rintro _ m rfl
    rw [show (st.send ix m).procs ix = (st.procs ix).send m from Function.update_self ..]
    simp [Proc.send]
  have hif : ∀ {jx : Nat} {q : Req}, (if ix = jx then some q else none) = some r → ix = jx := by
    intro jx q h
    by_contra hne
    rw [if_neg hne] at h
    cases h
  cases h with
  | mainConfig hpc c rest ht create v hv =>
    obtain ⟨f, b⟩ := v
    cases b <;> cases he
  | mainAssign hpc b rest ht now => cases now <;> cases he
  | flushSend jx c hpc hi => exact hsend jx _ (hif he)
  | flushEnd jx c hpc hi => cases c <;> cases he
  | readySend jx hpc hi => exact hsend jx _ (hif he)
  | saveNone k hpc hf => cases k <;> cases he
  | saveSend jx k hpc hi => exact hsend jx _ (hif he)
  | saveEnd jx k hpc hi => cases k <;> cases he
  | _ => cases he

/-- After a step of the master there is no reply that it has not received. -/
theorem MStep.received {st st' : State} (h : MStep st st') (hi : Inv st') {ix : Nat} (hx : ix < st'.nprocs) :
    ¬ Held st' (.worker ix) := by
  intro hh
  obtain ⟨r, h1, _⟩ := hi.waits hx hh
  exact hi.silent hx (h.asks h1) hh

/-- What a worker has to do does not increase; it decreases if there are messages. -/
theorem WMove.effort {p p' : Proc} (h : WMove p p') : p'.effort ≤ p.effort ∧
    (p.inbox ≠ [] → (p.pc = .probe ∨ ∃ i, p.pc = .notify i) → p'.effort < p.effort) := by
  have hmsg : ∀ m ms, p.inbox = m :: ms → p.pc = .probe → p'.inbox = ms → p'.effort < p.effort := by
    intro m ms h1 h2 h3
    unfold Proc.effort
    rw [h1, h2, h3]
    simp only [List.length_cons]
    split <;> omega
  have hrest : p.pc ≠ .probe → p'.inbox = p.inbox → (∀ i, p'.pc ≠ .notify i) → p'.effort ≤ p.effort ∧
      (p.inbox ≠ [] → (p.pc = .probe ∨ ∃ i, p.pc = .notify i) → p'.effort < p.effort) := by
    intro h1 h2 h3
    have h4 : p'.effort = 2 * p.inbox.length := by
      unfold Proc.effort
      rw [h2]
      split
      · rename_i i h
        exact absurd h (h3 i)
      · rfl
    have h5 : p.effort = 2 * p.inbox.length + match p.pc with
        | .notify _ => 1
        | _ => 0 := rfl
    refine ⟨by omega, fun _ h6 => ?_⟩
    rcases h6 with h6 | ⟨i, h6⟩
    · exact absurd h6 h1
    · rw [h6] at h5
      simp only at h5
      omega
  have hlt : p'.effort < p.effort → p'.effort ≤ p.effort ∧
      (p.inbox ≠ [] → (p.pc = .probe ∨ ∃ i, p.pc = .notify i) → p'.effort < p.effort) := fun h => ⟨h.le, fun _ _ => h⟩
  cases h with
  | config hpc c ms hi => exact hlt (hmsg _ ms hi hpc rfl)
  | assign hpc o b ms hi r hr => exact hlt (hmsg _ ms hi hpc (Proc.assign_keeps hr).2)
  | request hpc r ms hi _ hp => exact hlt (hmsg _ ms hi hpc (by cases r <;> cases hp <;> rfl))
  | shutdown hpc ms hi => exact hlt (hmsg _ ms hi hpc rfl)
  | notify i hpc => exact hrest (by rw [hpc]; simp) (Proc.wake_keeps p i).2 (by simp)
  | stop i hpc hi => exact hrest (by rw [hpc]; simp) rfl (by simp)
  | stopEnd i hpc hi => exact hrest (by rw [hpc]; simp) rfl (by simp)
  | shutNotify i hpc => exact hrest (by rw [hpc]; simp) (Proc.wake_keeps p i).2 (by simp)
  | join i hpc hd => exact hrest (by rw [hpc]; simp) rfl (by simp)

/-- Steps of others change neither the messages to a worker nor where it is. -/
theorem Move.near {st st' : State} {l : Label} (h : Move env st l st') (hl : ∀ ch, l ≠ .master ch) {ix : Nat} :
    (l = .worker ix ∧ WMove (st.procs ix) (st'.procs ix)) ∨
      (l ≠ .worker ix ∧ (st'.procs ix).pc = (st.procs ix).pc ∧ (st.procs ix).Wire (st'.procs ix)) := by
  have hset : ∀ jx p, (ix = jx → p.pc = (st.procs jx).pc ∧ (st.procs jx).Wire p) →
      ((st.setProc jx p).procs ix).pc = (st.procs ix).pc ∧ (st.procs ix).Wire ((st.setProc jx p).procs ix) := by
    intro jx p hp
    by_cases hx : ix = jx
    · subst hx
      rw [show (st.setProc ix p).procs ix = p from Function.update_self ..]
      exact hp rfl
    · rw [show (st.setProc jx p).procs ix = st.procs ix from Function.update_of_ne hx ..]
      exact ⟨rfl, rfl, rfl, rfl, rfl⟩
  cases h with
  | thread jx i hx hi p ht hp => exact Or.inr ⟨by simp, hset jx p fun _ => ⟨ht.keeps.1, by cases ht <;> exact ⟨rfl, rfl, rfl, rfl⟩⟩⟩
  | spurious jx i hx hi hp => exact Or.inr ⟨by simp, hset jx _ fun _ => ⟨rfl, rfl, rfl, rfl, rfl⟩⟩
  | worker jx h0 hx p hw =>
    by_cases hj : ix = jx
    · subst hj
      refine Or.inl ⟨rfl, ?_⟩
      rw [show (st.setProc ix p).procs ix = p from Function.update_self ..]
      exact hw
    · exact Or.inr ⟨by simp; omega, hset jx p fun h => absurd h hj⟩
  | master ch st' h => exact absurd rfl (hl ch)

/-- A worker with messages is where it receives them. -/
theorem Sound.place {st : State} (h : Sound st) {ix : Nat} (h0 : 0 < ix) (hx : ix < st.nprocs)
    (hi : (st.procs ix).inbox ≠ []) : (st.procs ix).pc = .probe ∨ ∃ i, (st.procs ix).pc = .notify i := by
  by_cases hc : st.pc.closing ix
  · rcases h.ended ix h0 hx hc with h1 | h1
    · exact h1.1
    · exact absurd h1.2 hi
  · exact (h.serves ix h0 hx hc).pc

/-- If the master makes no steps, the messages to a worker are received. -/
theorem Blocking.drain (h : Blocking env st₀ σ ls) (hs : ∀ n, Sound (σ n)) {n : Nat}
    (hm : ∀ m, n ≤ m → ∀ ch, ls m = .master ch → σ (m + 1) = σ m) {ix : Nat} (h0 : 0 < ix) (hx : ix < st₀.nprocs) :
    ∃ k, n ≤ k ∧ ∀ m, k ≤ m → ((σ m).procs ix).inbox = [] := by
  have hmove : ∀ m, n ≤ m → σ (m + 1) = σ m ∨ ((ls m = .worker ix ∧ WMove ((σ m).procs ix) ((σ (m + 1)).procs ix)) ∨
      (ls m ≠ .worker ix ∧ ((σ (m + 1)).procs ix).pc = ((σ m).procs ix).pc ∧
        ((σ m).procs ix).Wire ((σ (m + 1)).procs ix))) := by
    intro m hn
    by_cases hc : ∃ ch, ls m = .master ch
    · obtain ⟨ch, hc⟩ := hc
      exact Or.inl (hm m hn ch hc)
    · rcases h.next m with h1 | ⟨_, h1⟩
      · exact Or.inr ((step_move h1).near fun ch hl => hc ⟨ch, hl⟩)
      · exact Or.inl h1
  have heq : ∀ {p p' : Proc}, p'.pc = p.pc → p'.inbox = p.inbox → p'.effort = p.effort := by
    intro p p' h1 h2
    unfold Proc.effort
    rw [h1, h2]
  obtain ⟨k, hk, hconst⟩ := settles (f := fun m => ((σ m).procs ix).effort) (n := n) fun m hn => by
    rcases hmove m hn with h1 | ⟨_, h1⟩ | ⟨_, h1, h2⟩
    · rw [h1]
    · exact h1.effort.1
    · exact (heq h1 h2.inbox).le
  refine ⟨k, hk, fun m hkm => ?_⟩
  by_contra hi
  have hall : ∀ j, m ≤ j → ((σ j).procs ix).inbox ≠ [] ∧ (ls j = .worker ix → σ (j + 1) = σ j) := by
    intro j hj
    have hstep : ∀ j, m ≤ j → ((σ j).procs ix).inbox ≠ [] → (ls j = .worker ix → σ (j + 1) = σ j) ∧
        ((σ (j + 1)).procs ix).inbox ≠ [] := by
      intro j hj hi
      rcases hmove j (hk.trans (hkm.trans hj)) with h1 | ⟨_, h1⟩ | ⟨h1, _, h2⟩
      · exact ⟨fun _ => h1, by rw [h1]; exact hi⟩
      · have h2 := h1.effort.2 hi ((hs j).place h0 (by rw [h.nprocs]; exact hx) hi)
        have h3 := hconst j (by omega)
        have h4 := hconst (j + 1) (by omega)
        omega
      · exact ⟨fun h3 => absurd h3 h1, by rw [h2.inbox]; exact hi⟩
    have hne : ((σ j).procs ix).inbox ≠ [] := by
      induction j, hj using Nat.le_induction with
      | base => exact hi
      | succ j hj ih => exact (hstep j hj ih).2
    exact ⟨hne, (hstep j hj hne).1⟩
  obtain ⟨j, hj, h1 | h1⟩ := h.worker ix h0 hx m
  · obtain ⟨h2, h3⟩ := hall j hj
    have hlt : ix < (σ j).nprocs := by rw [h.nprocs]; exact hx
    have hst : step env (σ j) (.worker ix) = .ok none := by
      rcases h.next j with h4 | ⟨h4, _⟩
      · have h5 := (hs j).place h0 hlt h2
        have h6 : WMove ((σ j).procs ix) ((σ (j + 1)).procs ix) := by
          rcases (step_move h4).near (fun ch hl => by rw [h1] at hl; cases hl) (ix := ix) with h7 | h7
          · exact h7.2
          · exact absurd h1 h7.1
        have := h6.effort.2 h2 h5
        rw [h3 h1] at this
        exact absurd this (lt_irrefl _)
      · rw [← h1]; exact h4
    simp only [step] at hst
    rw [if_pos ⟨h0, hlt⟩] at hst
    obtain ⟨o, ho, hst⟩ := Res.bind_eq_ok.1 hst
    cases o with
    | some p => cases hst
    | none =>
      unfold Proc.workerStep at ho
      rcases (hs j).place h0 hlt h2 with h5 | ⟨i, h5⟩
      · rw [h5] at ho
        simp only at ho
        split at ho
        · rename_i h6
          exact h2 h6
        · exact some_map_ne ho
      · rw [h5] at ho
        cases ho
  · exact (hs j).inv.silent (by rw [h.nprocs]; exact hx) (hall j hj).1 h1

/-- If the master makes no steps, all messages are received. -/
theorem Blocking.drained (h : Blocking env st₀ σ ls) (hs : ∀ n, Sound (σ n)) {n : Nat}
    (hm : ∀ m, n ≤ m → ∀ ch, ls m = .master ch → σ (m + 1) = σ m) :
    ∃ k, n ≤ k ∧ ∀ m, k ≤ m → ∀ ch, ¬ Held (σ m) (.master ch) := by
  have key : ∀ j, j ≤ st₀.nprocs → ∃ k, n ≤ k ∧ ∀ m, k ≤ m → ∀ ix, 0 < ix → ix < j → ((σ m).procs ix).inbox = [] := by
    intro j
    induction j with
    | zero => exact fun _ => ⟨n, le_rfl, fun _ _ ix _ hx => absurd hx (Nat.not_lt_zero ix)⟩
    | succ j ih =>
      intro hj
      obtain ⟨k, h1, h2⟩ := ih (by omega)
      by_cases h0 : 0 < j
      · obtain ⟨k', h3, h4⟩ := h.drain hs hm h0 (show j < st₀.nprocs by omega)
        refine ⟨max k k', by omega, fun m hm ix hp hx => ?_⟩
        by_cases e : ix = j
        · subst e
          exact h4 m (by omega)
        · exact h2 m (by omega) ix hp (by omega)
      · exact ⟨k, h1, fun m hm ix hp hx => h2 m hm ix hp (by omega)⟩
  obtain ⟨k, h1, h2⟩ := key st₀.nprocs le_rfl
  refine ⟨k, h1, fun m hm ch hh => ?_⟩
  obtain ⟨ix, h3, h4, h5⟩ := hh
  exact h5 (h2 m hm ix h3 (by rw [h.nprocs] at h4; exact h4))

/-- The master is scheduled again and again. -/
theorem Blocking.renewing (h : Blocking env st₀ σ ls) (hs : ∀ n, Sound (σ n)) : Renewing σ ls := by
  intro n
  by_contra hno
  have hm : ∀ m, n ≤ m → ∀ ch, ls m = .master ch → σ (m + 1) = σ m := by
    intro m hm ch hl
    rcases h.next m with h1 | ⟨_, h1⟩
    · rw [hl] at h1
      exact absurd ⟨m, hm, ch, hl, fun f d h2 h3 h4 h5 => fresh_of_some h1 h2 h3 h4 h5⟩ hno
    · exact h1
  obtain ⟨k, h1, h2⟩ := h.drained hs hm
  obtain ⟨m, h3, ⟨ch, h4, h5⟩ | h4⟩ := h.master k
  · exact hno ⟨m, by omega, ch, h4, h5⟩
  · exact h2 m h3 ⟨false, false, 0⟩ (h4 _)

/-- The main thread of a worker is scheduled again and again. -/
theorem Blocking.answers (h : Blocking env st₀ σ ls) (hs : ∀ n, Sound (σ n)) {ix : Nat} (h0 : 0 < ix) (hx : ix < st₀.nprocs)
    (n : Nat) : ∃ m, n ≤ m ∧ ls m = .worker ix := by
  by_contra hno
  have hlt : ∀ m, ix < (σ m).nprocs := fun m => by rw [h.nprocs]; exact hx
  -- a reply that has been received stays so
  have hstep : ∀ m, n ≤ m → ¬ Held (σ m) (.worker ix) → ¬ Held (σ (m + 1)) (.worker ix) := by
    intro m hm hh
    rcases h.next m with h1 | ⟨_, h1⟩
    · by_cases hc : ∃ ch, ls m = .master ch
      · obtain ⟨ch, hc⟩ := hc
        rw [hc] at h1
        exact (masterStep_cases h1).received (hs (m + 1)).inv (hlt _)
      · rcases (step_move h1).near (fun ch hl => hc ⟨ch, hl⟩) (ix := ix) with h2 | ⟨_, _, h2⟩
        · exact absurd ⟨m, hm, h2.1⟩ hno
        · intro h3
          refine hh ?_
          simp only [Held, h2.finishedOut, h2.readyOut, h2.saveOut] at h3
          exact h3
    · rw [h1]; exact hh
  obtain ⟨k, hk, hfree⟩ : ∃ k, n ≤ k ∧ ¬ Held (σ k) (.worker ix) := by
    by_contra hall
    have hall : ∀ m, n ≤ m → Held (σ m) (.worker ix) := fun m hm => by
      by_contra hh
      exact hall ⟨m, hm, hh⟩
    obtain ⟨m, hm, ch, h1, h2⟩ := h.renewing hs n
    rcases h.next m with h3 | ⟨h3, _⟩
    · rw [h1] at h3
      exact (masterStep_cases h3).received (hs (m + 1)).inv (hlt _) (hall (m + 1) (by omega))
    · rw [h1] at h3
      obtain ⟨r, h4, h5⟩ := (hs m).inv.waits (hlt m) (hall m hm)
      rcases blocked (hs m).fits h3 with h7 | ⟨i, h7, _⟩ | ⟨jx, c, h7, h8⟩ | ⟨jx, h7, h8⟩ | ⟨jx, c, h7, h8⟩ | ⟨h7, f, d, h8, h9, h10, h11⟩
      · rw [h7] at h4; cases h4
      · rw [h7] at h4; cases h4
      · rw [h7] at h4
        unfold Pc.expects at h4
        simp only at h4
        split at h4
        · rename_i e
          subst e
          cases h4
          obtain ⟨⟨bs, h9⟩, _⟩ := h5
          rw [h8] at h9
          cases h9
        · cases h4
      · rw [h7] at h4
        unfold Pc.expects at h4
        simp only at h4
        split at h4
        · rename_i e
          subst e
          cases h4
          obtain ⟨_, ⟨bs, h9⟩, _⟩ := h5
          rw [h8] at h9
          cases h9
        · cases h4
      · rw [h7] at h4
        unfold Pc.expects at h4
        simp only at h4
        split at h4
        · rename_i e
          subst e
          cases h4
          obtain ⟨_, _, bs, h9⟩ := h5
          rw [h8] at h9
          cases h9
        · cases h4
      · rw [h2 f d h7 h8 h9 h10] at h11
        cases h11
  have hstay : ∀ m, k ≤ m → ¬ Held (σ m) (.worker ix) := by
    intro m hm
    induction m, hm using Nat.le_induction with
    | base => exact hfree
    | succ m hm ih => exact hstep m (hk.trans hm) ih
  obtain ⟨m, hm, h1 | h1⟩ := h.worker ix h0 hx k
  · exact hno ⟨m, hk.trans hm, h1⟩
  · exact hstay m hm h1

/-- Executions in which main threads wait in `send` are fair. -/
theorem Blocking.exec (h : Blocking env st₀ σ ls) (hs : Sound st₀) (ha : ∀ n, Alert (σ n) (ls n)) :
    Exec env st₀ σ ls ∧ Renewing σ ls := by
  have hsound := h.sound hs ha
  have hr := h.renewing hsound
  refine ⟨⟨h.start, h.next, h.thread, fun ix h0 hx n => h.answers hsound h0 hx n, fun n => ?_⟩, hr⟩
  obtain ⟨m, h1, ch, h2, _⟩ := hr n
  exact ⟨m, h1, ch, h2⟩

end Mpi
end Hycu
