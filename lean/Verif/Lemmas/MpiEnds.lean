import Verif.Lemmas.MpiRank

/-!
Runs with several processes end.
-/

namespace Hycu
namespace Mpi

open Run (Tables Job Phase Thread ThreadPool FileStoreObj Cmd Cont Choice Env eraseFinished)

theorem some_map_ne {α β : Type} {x : Res α} {g : α → β} (h : (do let a ← x; pure (some (g a))) = .ok none) : False := by
  obtain ⟨_, _, h⟩ := Res.bind_eq_ok.1 h
  cases h

/-! ### Silent steps -/

theorem eraseFinished_nil {bs : List Block} {a : OSet Block} (h : eraseFinished bs [] = .ok a) : a = [] := by
  cases bs with
  | nil => cases h; rfl
  | cons b bs =>
    unfold eraseFinished at h
    rw [if_neg (by simp [OSet.contains])] at h
    cases h

/-- The effect of a silent step on a process. -/
structure Hush (p p' : Proc) : Prop where
  pc : p'.pc = p.pc
  size : p'.size = p.size
  inbox : ∀ m ms, p.inbox = m :: ms → ¬ m.isReq → ∃ ms', p'.inbox = m :: ms'
  thr : ∀ i, p'.thr i = p.thr i ∨ ∃ ph, Nap (p.thr i) ph ∧ p'.thr i = { p.thr i with phase := ph }
  finished : p.pool.finished = [] → p'.pool.finished = []
  ready : p.pool.ready = [] → p'.pool.ready = []

theorem Hush.refl (p : Proc) : Hush p p := ⟨rfl, rfl, fun _ ms h _ => ⟨ms, h⟩, fun _ => Or.inl rfl, id, id⟩

theorem flushReady_ready {p : Proc} : p.flushReady.1.pool.ready = [] := rfl

/-- The effect of polling on a process. -/
theorem MStep.hush {st st' : State} (h : MStep st st') (hp : st.pc.polls) (q : Nat) : Hush (st.procs q) (st'.procs q) := by
  have ht := h.touch q
  have hx := h.poll hp q
  refine ⟨ht.pc, ht.kin.size, fun m ms hi _ => ?_, fun i => Or.inl (by rw [hx.1]), ?_, ?_⟩
  · rcases ht.inbox with h1 | ⟨x, h1⟩
    · exact ⟨ms, by rw [h1, hi]⟩
    · exact ⟨ms ++ [x], by rw [h1, hi]; rfl⟩
  · have near : ∀ (ix : Nat) (p : Proc), (p.pool.finished = (st.procs ix).pool.finished ∨ p.pool.finished = []) →
        (st.procs q).pool.finished = [] → (Function.update st.procs ix p q).pool.finished = [] := by
      intro ix p hf hq
      by_cases hx : q = ix
      · subst hx
        rw [Function.update_self]
        rcases hf with hf | hf
        · rw [hf, hq]
        · exact hf
      · rw [Function.update_of_ne hx, hq]
    cases h with
    | flush c hpc a ha => exact near _ _ (Or.inr rfl)
    | flushSend ix c hpc hi => exact near _ _ (Or.inl rfl)
    | flushEnd ix c hpc hi => exact id
    | flushRecv ix c hpc bs rest ho a ha => exact near ix _ (by exact Or.inl rfl)
    | waited k hpc hw => exact id
    | waitOn k hpc => exact id
    | ready hpc => exact near _ _ (Or.inl rfl)
    | readySend ix hpc hi => exact near _ _ (Or.inl rfl)
    | readyEnd ix hpc hi => exact id
    | readyRecv ix hpc n rest ho => exact near ix _ (by exact Or.inl rfl)
    | fillOn hpc => exact id
    | filled hpc hw => exact id
    | _ => simp_all [Pc.polls]
  · have near : ∀ (ix : Nat) (p : Proc), (p.pool.ready = (st.procs ix).pool.ready ∨ p.pool.ready = []) →
        (st.procs q).pool.ready = [] → (Function.update st.procs ix p q).pool.ready = [] := by
      intro ix p hf hq
      by_cases hx : q = ix
      · subst hx
        rw [Function.update_self]
        rcases hf with hf | hf
        · rw [hf, hq]
        · exact hf
      · rw [Function.update_of_ne hx, hq]
    cases h with
    | flush c hpc a ha => exact near _ _ (Or.inl rfl)
    | flushSend ix c hpc hi => exact near _ _ (Or.inl rfl)
    | flushEnd ix c hpc hi => exact id
    | flushRecv ix c hpc bs rest ho a ha => exact near ix _ (by exact Or.inl rfl)
    | waited k hpc hw => exact id
    | waitOn k hpc => exact id
    | ready hpc => exact near _ _ (Or.inr rfl)
    | readySend ix hpc hi => exact near _ _ (Or.inl rfl)
    | readyEnd ix hpc hi => exact id
    | readyRecv ix hpc n rest ho => exact near ix _ (by exact Or.inl rfl)
    | fillOn hpc => exact id
    | filled hpc hw => exact id
    | _ => simp_all [Pc.polls]

theorem MStep.clear {st st' : State} (h : MStep st st') (hp : st.pc.polls) (q : Nat) (hq : st.assigned q = []) :
    st'.assigned q = [] := by
  have near : ∀ (ix : Nat) (bs : List Block) (a : OSet Block), eraseFinished bs (st.assigned ix) = .ok a →
      Function.update st.assigned ix a q = [] := by
    intro ix bs a ha
    by_cases hx : q = ix
    · subst hx
      rw [Function.update_self]
      rw [hq] at ha
      exact eraseFinished_nil ha
    · rw [Function.update_of_ne hx, hq]
  cases h with
  | flush c hpc a ha => exact near _ _ _ ha
  | flushSend ix c hpc hi => exact hq
  | flushEnd ix c hpc hi => exact hq
  | flushRecv ix c hpc bs rest ho a ha => exact near _ _ _ ha
  | waited k hpc hw => exact hq
  | waitOn k hpc => exact hq
  | ready hpc => exact hq
  | readySend ix hpc hi => exact hq
  | readyEnd ix hpc hi => exact hq
  | readyRecv ix hpc n rest ho => exact hq
  | fillOn hpc => exact hq
  | filled hpc hw => exact hq
  | _ => simp_all [Pc.polls]

theorem Silent.hush {st st' : State} {l : Label} (h : Silent st l st') (q : Nat) : Hush (st.procs q) (st'.procs q) := by
  have near : ∀ (ix : Nat) (p : Proc), Hush (st.procs ix) p → Hush (st.procs q) ((st.setProc ix p).procs q) := by
    intro ix p hp
    by_cases hx : q = ix
    · subst hx
      rw [show (st.setProc q p).procs q = p from Function.update_self ..]
      exact hp
    · rw [show (st.setProc ix p).procs q = st.procs q from Function.update_of_ne hx ..]
      exact .refl _
  cases h with
  | nap ix i l hl hx hi ph hn =>
    refine near ix _ ⟨rfl, rfl, fun _ ms h _ => ⟨ms, h⟩, fun k => ?_, id, id⟩
    show Function.update (st.procs ix).thr i _ k = _ ∨ _
    by_cases hk : k = i
    · subst hk
      right
      exact ⟨ph, hn, Function.update_self ..⟩
    · left
      rw [Function.update_of_ne hk]
  | answer ix h0 hx hpc r ms hi p' hp =>
    obtain ⟨h1, h2, h3, h4, h5, h6⟩ := handle_req hp
    refine near ix _ ⟨h3, h1, fun m ms' hi' hm => ?_, fun k => Or.inl (by rw [h2]), fun hf => ?_, fun hf => ?_⟩
    · rw [hi] at hi'
      cases hi'
      exact absurd ⟨r, rfl⟩ hm
    · rcases h5 with ⟨h5, _⟩ | h5
      · rw [h5]; exact hf
      · exact h5
    · rcases h6 with ⟨h6, _⟩ | h6
      · rw [h6]; exact hf
      · exact h6
  | poll ch st' hm hp hp' => exact (masterStep_cases hm).hush hp q

theorem Silent.clear {st st' : State} {l : Label} (h : Silent st l st') (q : Nat) (hq : st.assigned q = []) :
    st'.assigned q = [] := by
  cases h with
  | nap ix i l hl hx hi ph hn => exact hq
  | answer ix h0 hx hpc r ms hi p' hp => exact hq
  | poll ch st' hm hp hp' => exact (masterStep_cases hm).clear hp q hq

theorem Silent.pc {st st' : State} {l : Label} (h : Silent st l st') :
    st'.pc = st.pc ∨ (st.pc.polls ∧ st'.pc.polls ∧ ∃ ch, l = .master ch ∧ masterStep st ch = .ok (some st')) := by
  cases h with
  | nap ix i l hl hx hi ph hn => exact Or.inl rfl
  | answer ix h0 hx hpc r ms hi p' hp => exact Or.inl rfl
  | poll ch st' hm hp hp' => exact Or.inr ⟨hp, hp', ch, rfl, hm⟩

theorem Silent.nprocs {st st' : State} {l : Label} (h : Silent st l st') : st'.nprocs = st.nprocs := by
  cases h with
  | nap ix i l hl hx hi ph hn => rfl
  | answer ix h0 hx hpc r ms hi p' hp => rfl
  | poll ch st' hm hp hp' => exact (masterStep_cases hm).nprocs

/-! ### When the master is blocked -/

theorem blocked {st : State} (hfit : Fits st) {ch : Choice} (hs : masterStep st ch = .ok none) :
    st.pc = .finished ∨ (∃ i, st.pc = .join i ∧ ((st.procs 0).thr i).phase ≠ .done) ∨
      (∃ ix c, st.pc = .flushRecv ix c ∧ (st.procs ix).finishedOut = []) ∨
      (∃ ix, st.pc = .readyRecv ix ∧ (st.procs ix).readyOut = []) ∨
      (∃ ix k, st.pc = .saveRecv ix k ∧ (st.procs ix).saveOut = []) ∨
      (((∃ k, st.pc = .save k) ∨ ∃ ix k, st.pc = .saveRecv ix k) ∧
        ∃ f d, st.fileStore = some f ∧ f.valid = true ∧ st.fs f.config.resultPath = some d ∧ FileStore.fresh d ch.id = false) := by
  unfold Fits at hfit
  unfold masterStep at hs
  split at hs
  · exact (some_map_ne hs).elim
  · exact (some_map_ne hs).elim
  · split at hs <;> cases hs
  · rename_i ix c hpc
    unfold flushRecvStep at hs
    split at hs
    · rename_i ho
      exact Or.inr (Or.inr (Or.inl ⟨ix, c, hpc, ho⟩))
    · obtain ⟨_, _, hs⟩ := Res.bind_eq_ok.1 hs
      cases hs
  · cases hs
  · cases hs
  · split at hs <;> cases hs
  · rename_i ix hpc
    unfold readyRecvStep at hs
    split at hs
    · rename_i ho
      exact Or.inr (Or.inr (Or.inr (Or.inl ⟨ix, hpc, ho⟩)))
    · cases hs
  · cases hs
  · rename_i k hpc
    unfold saveStep at hs
    split at hs
    · cases hs
    · rename_i f hf
      unfold fileSave at hs
      simp only at hs
      split at hs
      · rename_i hv
        split at hs
        · cases hs
        · rename_i d hd
          split at hs
          · cases hs
          · rename_i hid
            exact Or.inr (Or.inr (Or.inr (Or.inr (Or.inr ⟨Or.inl ⟨k, hpc⟩, f, d, hf, hv, hd, by simpa using hid⟩))))
      · cases hs
  · split at hs <;> cases hs
  · rename_i ix k hpc
    unfold saveRecvStep at hs
    split at hs
    · rename_i ho
      exact Or.inr (Or.inr (Or.inr (Or.inr (Or.inl ⟨ix, k, hpc, ho⟩))))
    · split at hs
      · cases hs
      · rename_i f hf
        unfold fileSave at hs
        simp only at hs
        split at hs
        · rename_i hv
          split at hs
          · cases hs
          · rename_i d hd
            split at hs
            · cases hs
            · rename_i hid
              exact Or.inr (Or.inr (Or.inr (Or.inr (Or.inr ⟨Or.inr ⟨ix, k, hpc⟩, f, d, hf, hv, hd, by simpa using hid⟩))))
        · cases hs
  · cases hs
  · cases hs
  · rename_i hpc
    rw [hpc] at hfit
    obtain ⟨c, rest, ht⟩ := hfit
    rw [ht] at hs
    exact (some_map_ne hs).elim
  · rename_i hpc
    rw [hpc] at hfit
    obtain ⟨c, rest, ht⟩ := hfit
    rw [ht] at hs
    cases hs
  · rename_i ix hpc
    rw [hpc] at hfit
    obtain ⟨c, rest, ht⟩ := hfit
    rw [ht] at hs
    simp only at hs
    split at hs <;> cases hs
  · rename_i hpc
    rw [hpc] at hfit
    obtain ⟨c, rest, ht⟩ := hfit
    rw [ht] at hs
    exact (some_map_ne hs).elim
  · rename_i hpc
    rw [hpc] at hfit
    obtain ⟨c, rest, ht⟩ := hfit
    rw [ht] at hs
    exact (some_map_ne hs).elim
  · cases hs
  · cases hs
  · split at hs <;> cases hs
  · split at hs <;> cases hs
  · cases hs
  · rename_i i hpc
    split at hs
    · cases hs
    · rename_i hp
      exact Or.inr (Or.inl ⟨i, hpc, hp⟩)
  · rename_i hpc
    exact Or.inl hpc

/-! ### Executions with silent steps only -/

/-- From some time on, all steps are silent. -/
structure Still (env : Env) (σ : Nat → State) (ls : Nat → Label) (n N : Nat) (sz : Nat → Nat) (T : Nat) : Prop where
  sound : ∀ m, n ≤ m → Sound (σ m)
  toil : ∀ m, n ≤ m → (σ m).toil = T
  nprocs : ∀ m, n ≤ m → (σ m).nprocs = N
  size : ∀ m q, n ≤ m → q < N → ((σ m).procs q).size = sz q
  next : ∀ m, n ≤ m → (step env (σ m) (ls m) = .ok none ∧ σ (m + 1) = σ m) ∨
    (step env (σ m) (ls m) = .ok (some (σ (m + 1))) ∧ Silent (σ m) (ls m) (σ (m + 1)))
  thread : ∀ ix i, ix < N → i < sz ix → ∀ k, ∃ m, k ≤ m ∧ ls m = .thread ix i
  worker : ∀ ix, 0 < ix → ix < N → ∀ k, ∃ m, k ≤ m ∧ ls m = .worker ix
  master : Renewing σ ls

theorem leads {σ : Nat → State} {n : Nat} {L : Nat → Prop} {P Q : State → Prop} (hL : ∀ k, ∃ m, k ≤ m ∧ L m)
    (hs : ∀ m, n ≤ m → P (σ m) → P (σ (m + 1)) ∨ Q (σ (m + 1)))
    (hl : ∀ m, n ≤ m → L m → P (σ m) → Q (σ (m + 1))) {k : Nat} (hk : n ≤ k) (hp : P (σ k)) : ∃ m, k ≤ m ∧ Q (σ m) := by
  by_contra hno
  have hno' : ∀ m, k ≤ m → ¬ Q (σ m) := fun m hm hq => hno ⟨m, hm, hq⟩
  have hall : ∀ m, k ≤ m → P (σ m) := by
    intro m hm
    induction hm with
    | refl => exact hp
    | @step m hm ih =>
      rcases hs m (hk.trans hm) ih with h | h
      · exact h
      · exact absurd h (hno' (m + 1) (Nat.le_succ_of_le hm))
  obtain ⟨m, hm, hlm⟩ := hL k
  exact hno' (m + 1) (Nat.le_succ_of_le hm) (hl m (hk.trans hm) hlm (hall m hm))

namespace Still

variable {env : Env} {σ : Nat → State} {ls : Nat → Label} {n N : Nat} {sz : Nat → Nat} {T : Nat}

/-- Something that would have to change does not hold. -/
theorem never (h : Still env σ ls n N sz T) {L : Nat → Prop} {P : State → Prop} (hL : ∀ k, ∃ m, k ≤ m ∧ L m)
    (hs : ∀ m l st', n ≤ m → P (σ m) → Silent (σ m) l st' → P st')
    (hl : ∀ m, n ≤ m → L m → P (σ m) → step env (σ m) (ls m) ≠ .ok none ∧ ∀ st', ¬ Silent (σ m) (ls m) st')
    {k : Nat} (hk : n ≤ k) : ¬ P (σ k) := by
  intro hp
  have hs' : ∀ m, n ≤ m → P (σ m) → P (σ (m + 1)) ∨ False := by
    intro m hm hpm
    rcases h.next m hm with ⟨_, h2⟩ | ⟨_, h2⟩
    · rw [h2]; exact Or.inl hpm
    · exact Or.inl (hs m _ _ hm hpm h2)
  have hl' : ∀ m, n ≤ m → L m → P (σ m) → False := by
    intro m hm hlm hpm
    obtain ⟨h1, h2⟩ := hl m hm hlm hpm
    rcases h.next m hm with ⟨h3, _⟩ | ⟨_, h3⟩
    · exact h1 h3
    · exact h2 _ h3
  obtain ⟨_, _, hf⟩ := leads (Q := fun _ => False) hL hs' hl' hk hp
  exact hf

/-- A thread with something to do. -/
theorem no_thread (h : Still env σ ls n N sz T) {ix i : Nat} (hx : ix < N) (hi : i < sz ix) {k : Nat} (hk : n ≤ k)
    (hp : ((((σ k).procs ix).thr i).phase = .check ∧
        ((((σ k).procs ix).thr i).queue ≠ [] ∨ (((σ k).procs ix).thr i).stop = true)) ∨
      (((σ k).procs ix).thr i).phase = .pop ∨ (∃ j, (((σ k).procs ix).thr i).phase = .compute j) ∨
      ∃ j, (((σ k).procs ix).thr i).phase = .report j) : False := by
  let A : Thread → Prop := fun t => (t.phase = .check ∧ (t.queue ≠ [] ∨ t.stop = true)) ∨ t.phase = .pop ∨
    (∃ j, t.phase = .compute j) ∨ ∃ j, t.phase = .report j
  have hnap : ∀ t ph, A t → ¬ Nap t ph := by
    intro t ph ha hn
    rcases hn with ⟨h1, h2, h3, _⟩ | ⟨h1, _⟩ | ⟨h1, _⟩
    · rcases ha with ⟨_, h4 | h4⟩ | h4 | ⟨j, h4⟩ | ⟨j, h4⟩
      · exact h4 h3
      · rw [h2] at h4; cases h4
      · rw [h1] at h4; cases h4
      · rw [h1] at h4; cases h4
      · rw [h1] at h4; cases h4
    · rcases ha with ⟨h4, _⟩ | h4 | ⟨j, h4⟩ | ⟨j, h4⟩ <;> rw [h1] at h4 <;> cases h4
    · rcases ha with ⟨h4, _⟩ | h4 | ⟨j, h4⟩ | ⟨j, h4⟩ <;> rw [h1] at h4 <;> cases h4
  refine h.never (P := fun st => A ((st.procs ix).thr i)) (h.thread ix i hx hi) (fun m l st' hm hpm hs => ?_)
    (fun m hm hlm hpm => ?_) hk hp
  · rcases (hs.hush ix).thr i with h1 | ⟨ph, h1, _⟩
    · show A ((st'.procs ix).thr i)
      rw [h1]
      exact hpm
    · exact absurd h1 (hnap _ _ hpm)
  · rw [hlm]
    refine ⟨fun hs => ?_, fun st' hs => ?_⟩
    · simp only [step] at hs
      rw [if_pos ⟨by rw [h.nprocs m hm]; exact hx, by rw [h.size m ix hm hx]; exact hi⟩] at hs
      obtain ⟨o, ho, hs⟩ := Res.bind_eq_ok.1 hs
      cases o with
      | some p => cases hs
      | none =>
        unfold Proc.threadStep at ho
        simp only at ho
        rcases hpm with ⟨h4, _⟩ | h4 | ⟨j, h4⟩ | ⟨j, h4⟩
        · rw [h4] at ho
          simp only at ho
          split at ho
          · cases ho
          · split at ho <;> cases ho
        · rw [h4] at ho
          simp only at ho
          split at ho <;> cases ho
        · rw [h4] at ho
          simp only at ho
          split at ho
          · cases ho
          · obtain ⟨_, _, ho⟩ := Res.bind_eq_ok.1 ho
            obtain ⟨_, _, ho⟩ := Res.bind_eq_ok.1 ho
            cases ho
        · rw [h4] at ho
          simp only at ho
          obtain ⟨_, _, ho⟩ := Res.bind_eq_ok.1 ho
          cases ho
    · cases hs with
      | nap ix' i' l hl hx' hi' ph hn =>
        rcases hl with hl | hl
        · cases hl
          exact hnap _ _ hpm hn
        · cases hl

/-- A worker with something to do other than to answer. -/
theorem no_worker (h : Still env σ ls n N sz T) {ix : Nat} (h0 : 0 < ix) (hx : ix < N) {P : State → Prop}
    (hs : ∀ m l st', n ≤ m → P (σ m) → Silent (σ m) l st' → P st')
    (hp : ∀ m, n ≤ m → P (σ m) → ((σ m).procs ix).workerStep ≠ .ok none ∧
      (((σ m).procs ix).pc = .probe → ∀ (r : Req) ms, ((σ m).procs ix).inbox ≠ r.msg :: ms)) {k : Nat} (hk : n ≤ k) :
    ¬ P (σ k) := by
  refine h.never (h.worker ix h0 hx) hs (fun m hm hlm hpm => ?_) hk
  obtain ⟨h1, h2⟩ := hp m hm hpm
  rw [hlm]
  refine ⟨fun hst => ?_, fun st' hst => ?_⟩
  · simp only [step] at hst
    rw [if_pos ⟨h0, by rw [h.nprocs m hm]; exact hx⟩] at hst
    obtain ⟨o, ho, hst⟩ := Res.bind_eq_ok.1 hst
    cases o with
    | some p => cases hst
    | none => exact h1 ho
  · cases hst with
    | answer _ _ _ hpc r ms hi p' hp => exact h2 hpc r ms hi
    | nap ix' i' l hl hx' hi' ph hn => rcases hl with hl | hl <;> cases hl

/-- Places of a worker where it can go on. -/
theorem no_pc (h : Still env σ ls n N sz T) {ix : Nat} (h0 : 0 < ix) (hx : ix < N) {w : WorkerPc}
    (hw : (∃ i, w = .notify i) ∨ (∃ i, w = .shutdown i) ∨ ∃ i, w = .shutNotify i) {k : Nat} (hk : n ≤ k) :
    ((σ k).procs ix).pc ≠ w := by
  refine h.no_worker (P := fun st => (st.procs ix).pc = w) h0 hx (fun m l st' hm hpm hs => ?_) (fun m hm hpm => ?_) hk
  · show (st'.procs ix).pc = w
    rw [(hs.hush ix).pc]
    exact hpm
  · unfold Proc.workerStep
    rw [hpm]
    rcases hw with ⟨i, rfl⟩ | ⟨i, rfl⟩ | ⟨i, rfl⟩
    · exact ⟨by simp, by simp⟩
    · refine ⟨?_, by simp⟩
      simp only
      split <;> simp
    · exact ⟨by simp, by simp⟩

/-- Messages are received. -/
theorem no_message (h : Still env σ ls n N sz T) {ix : Nat} (h0 : 0 < ix) (hx : ix < N) {m : Msg} (hr : ¬ m.isReq)
    {k : Nat} (hk : n ≤ k) (hpc : ((σ k).procs ix).pc = .probe) (ms : List Msg) : ((σ k).procs ix).inbox ≠ m :: ms := by
  intro hi
  refine h.no_worker (P := fun st => (st.procs ix).pc = .probe ∧ ∃ ms, (st.procs ix).inbox = m :: ms) h0 hx
    (fun t l st' hm hpm hs => ?_) (fun t hm hpm => ?_) hk ⟨hpc, ms, hi⟩
  · obtain ⟨h1, ms, h2⟩ := hpm
    exact ⟨(hs.hush ix).pc.trans h1, (hs.hush ix).inbox m ms h2 hr⟩
  · obtain ⟨h1, ms, h2⟩ := hpm
    refine ⟨fun hst => ?_, fun _ r ms' hi' => ?_⟩
    · unfold Proc.workerStep at hst
      rw [h1] at hst
      simp only at hst
      rw [h2] at hst
      exact some_map_ne hst
    · rw [h2] at hi'
      cases hi'
      exact hr ⟨r, rfl⟩

/-- A thread that is told to stop stops. -/
theorem no_join (h : Still env σ ls n N sz T) {ix i : Nat} (hx : ix < N) {k : Nat} (hk : n ≤ k)
    (hp : (σ k).place ix = .join i) : (((σ k).procs ix).thr i).phase = .done := by
  have hs := h.sound k hk
  have ht := hs.neat ix (by rw [h.nprocs k hk]; exact hx)
  obtain ⟨h1, h2⟩ := ht.join i (Or.inr hp)
  rw [h.size k ix hk hx] at h1
  cases hph : (((σ k).procs ix).thr i).phase with
  | check => exact (h.no_thread hx h1 hk (Or.inl ⟨hph, Or.inr h2⟩)).elim
  | wait => have := ht.stop i (Or.inl hph) h2; rw [hp] at this; cases this
  | sleep => have := ht.stop i (Or.inr hph) h2; rw [hp] at this; cases this
  | pop => exact (h.no_thread hx h1 hk (Or.inr (Or.inl hph))).elim
  | compute j => exact (h.no_thread hx h1 hk (Or.inr (Or.inr (Or.inl ⟨j, hph⟩)))).elim
  | report j => exact (h.no_thread hx h1 hk (Or.inr (Or.inr (Or.inr ⟨j, hph⟩)))).elim
  | done => rfl

theorem nap_done {t : Thread} {ph : Phase} (h : Nap t ph) : t.phase ≠ .done := by
  rcases h with ⟨h, _⟩ | ⟨h, _⟩ | ⟨h, _⟩ <;> rw [h] <;> simp

/-- The master can go on. -/
theorem no_master (h : Still env σ ls n N sz T) {P : State → Prop}
    (hs : ∀ m l st', n ≤ m → P (σ m) → Silent (σ m) l st' → P st')
    (hp : ∀ m, n ≤ m → P (σ m) → (σ m).pc ≠ .finished ∧
      (∀ i, (σ m).pc = .join i → (((σ m).procs 0).thr i).phase = .done) ∧
      (∀ ix c, (σ m).pc ≠ .flushRecv ix c) ∧ (∀ ix, (σ m).pc ≠ .readyRecv ix) ∧
      (∀ ix k, (σ m).pc = .saveRecv ix k → ((σ m).procs ix).saveOut ≠ []) ∧
      ∀ ch st', masterStep (σ m) ch = .ok (some st') → (σ m).pc.polls → st'.pc.polls → False) {k : Nat} (hk : n ≤ k) :
    ¬ P (σ k) := by
  refine h.never h.master hs (fun m hm hlm hpm => ?_) hk
  obtain ⟨ch, hl, hf⟩ := hlm
  obtain ⟨h1, h2, h3, h4, h5, h6⟩ := hp m hm hpm
  rw [hl]
  refine ⟨fun hst => ?_, fun st' hst => ?_⟩
  · rcases blocked (h.sound m hm).fits hst with h7 | ⟨i, h7, h8⟩ | ⟨ix, c, h7, _⟩ | ⟨ix, h7, _⟩ | ⟨ix, c, h7, h8⟩ |
      ⟨h7, f, d, h8, hv, h9, h10⟩
    · exact h1 h7
    · exact h8 (h2 i h7)
    · exact h3 ix c h7
    · exact h4 ix h7
    · exact h5 ix c h7 h8
    · rw [hf f d h7 h8 hv h9] at h10
      cases h10
  · cases hst with
    | poll _ _ hm hp hp' => exact h6 ch st' hm hp hp'
    | nap ix' i' l hl hx' hi' ph hn => rcases hl with hl | hl <;> cases hl

/-- Places of the master where it can go on. -/
theorem no_place (h : Still env σ ls n N sz T) {pc : Pc} (hpoll : ¬ pc.polls) (hf : pc ≠ .finished)
    (hr : ∀ ix k, pc ≠ .saveRecv ix k) {k : Nat} (hk : n ≤ k) : (σ k).pc ≠ pc := by
  refine h.no_master (P := fun st => st.pc = pc) (fun m l st' hm hpm hs => ?_) (fun m hm hpm => ?_) hk
  · rcases hs.pc with h1 | ⟨h1, _⟩
    · exact h1.trans hpm
    · rw [hpm] at h1
      exact absurd h1 hpoll
  · rw [hpm]
    refine ⟨hf, fun i hi => ?_, fun ix c hi => ?_, fun ix hi => ?_, fun ix k hi => absurd hi (hr ix k),
      fun ch st' _ hp _ => hpoll hp⟩
    · refine h.no_join (by rw [← h.nprocs m hm]; exact (h.sound m hm).inv.pos) hm ?_
      unfold State.place
      rw [if_pos rfl, hpm, hi]
      rfl
    · rw [hi] at hpoll
      exact hpoll trivial
    · rw [hi] at hpoll
      exact hpoll trivial

/-- Workers do not notify. -/
theorem serving (h : Still env σ ls n N sz T) {ix : Nat} (h0 : 0 < ix) (hx : ix < N) {k : Nat} (hk : n ≤ k)
    (hc : ¬ (σ k).pc.closing ix) : ((σ k).procs ix).pc = .probe ∧ ∀ m ∈ ((σ k).procs ix).inbox, m.isReq := by
  have hs := h.sound k hk
  have hser := hs.serves ix h0 (by rw [h.nprocs k hk]; exact hx) hc
  have hpc : ((σ k).procs ix).pc = .probe := by
    rcases hser.pc with h1 | ⟨i, h1⟩
    · exact h1
    · exact absurd h1 (h.no_pc h0 hx (Or.inl ⟨i, rfl⟩) hk)
  refine ⟨hpc, fun m hm => ?_⟩
  cases hi : ((σ k).procs ix).inbox with
  | nil => rw [hi] at hm; cases hm
  | cons x ms =>
    by_cases hr : x.isReq
    · obtain ⟨r, rfl⟩ := hr
      obtain ⟨_, h2, _⟩ := (hs.inv.each ix (by rw [h.nprocs k hk]; exact hx)).prot.request hi
      rw [hi, h2, List.mem_singleton] at hm
      exact ⟨r, hm⟩
    · exact absurd hi (h.no_message h0 hx hr hk hpc ms)

theorem not_closing {pc : Pc} (hp : pc.polls) (ix : Nat) : ¬ pc.closing ix := by
  cases pc <;> first | exact id | cases hp

theorem not_place {st : State} (hp : st.pc.polls) : st.pc.place = .probe := by
  cases hpc : st.pc <;> rw [hpc] at hp <;> first | rfl | cases hp

theorem no_inflight {st : State} (hp : st.pc.polls) (ix : Nat) : st.pc.inflight ix = [] := by
  cases hpc : st.pc <;> rw [hpc] at hp <;> first | rfl | cases hp

/-- If the master polls, nothing is done elsewhere. -/
theorem rest (h : Still env σ ls n N sz T) {k : Nat} (hk : n ≤ k) (hp : (σ k).pc.polls) {q : Nat} (hq : q < N) :
    (σ k).place q = .probe ∧ (∀ m ∈ ((σ k).procs q).inbox, m.isReq) ∧ ((σ k).procs q).pool.busy = [] := by
  have hs := h.sound k hk
  have hq' : q < (σ k).nprocs := by rw [h.nprocs k hk]; exact hq
  have h1 : (σ k).place q = .probe ∧ ∀ m ∈ ((σ k).procs q).inbox, m.isReq := by
    by_cases h0 : q = 0
    · subst h0
      refine ⟨by unfold State.place; rw [if_pos rfl]; exact not_place hp, fun m hm => ?_⟩
      rw [(hs.inv.each 0 hq').zero rfl] at hm
      cases hm
    · obtain ⟨h1, h2⟩ := h.serving (Nat.pos_of_ne_zero h0) hq hk (not_closing hp q)
      exact ⟨by unfold State.place; rw [if_neg h0]; exact h1, h2⟩
  refine ⟨h1.1, h1.2, ?_⟩
  have ht := hs.neat q hq'
  rw [h1.1] at ht
  have hb := (hs.inv.each q hq').ok
  have hj : ∀ i, i < ((σ k).procs q).size → (((σ k).procs q).thr i).jobs = [] := by
    intro i hi
    have hi' : i < sz q := by rw [← h.size k q hk hq]; exact hi
    have hqu : (((σ k).procs q).thr i).phase = .check ∨ (((σ k).procs q).thr i).phase = .wait ∨
        (((σ k).procs q).thr i).phase = .sleep → (((σ k).procs q).thr i).queue = [] := by
      intro hph
      by_contra hne
      rcases hph with hph | hph | hph
      · exact h.no_thread hq hi' hk (Or.inl ⟨hph, Or.inl hne⟩)
      · have := ht.queue i (Or.inl hph) hne; cases this
      · have := ht.queue i (Or.inr hph) hne; cases this
    unfold Run.Thread.jobs
    cases hph : (((σ k).procs q).thr i).phase with
    | check => rw [hqu (Or.inl hph)]; rfl
    | wait => rw [hqu (Or.inr (Or.inl hph))]; rfl
    | sleep => rw [hqu (Or.inr (Or.inr hph))]; rfl
    | pop => exact (h.no_thread hq hi' hk (Or.inr (Or.inl hph))).elim
    | compute j => exact (h.no_thread hq hi' hk (Or.inr (Or.inr (Or.inl ⟨j, hph⟩)))).elim
    | report j => exact (h.no_thread hq hi' hk (Or.inr (Or.inr (Or.inr ⟨j, hph⟩)))).elim
    | done => exact (ht.flag i (ht.done i hph)).elim
  cases hbusy : ((σ k).procs q).pool.busy with
  | nil => rfl
  | cons e l =>
    exfalso
    have hlt : e.2 < ((σ k).procs q).size := by
      rw [← List.mem_range, ← hb.book.perm.mem_iff, hbusy]
      simp
    rcases hb.book.own e.2 hlt with ⟨_, h1⟩ | ⟨j, h1, _⟩
    · exact h1 (by rw [hbusy]; simp)
    · rw [hj e.2 hlt] at h1
      cases h1

/-- A process without finished blocks has no assigned blocks. -/
theorem clean (h : Still env σ ls n N sz T) {k : Nat} (hk : n ≤ k) (hp : (σ k).pc.polls) {q : Nat} (hq : q < N)
    (hf : ((σ k).procs q).pool.finished = []) (ho : ((σ k).procs q).finishedOut = []) : (σ k).assigned q = [] := by
  obtain ⟨_, h2, h3⟩ := h.rest hk hp hq
  have hpp := (h.sound k hk).inv.each q (by rw [h.nprocs k hk]; exact hq)
  have hin : ((σ k).procs q).inBlocks = [] := by
    unfold Proc.inBlocks
    refine List.filterMap_eq_nil_iff.2 fun m hm => ?_
    obtain ⟨r, rfl⟩ := h2 m hm
    cases r <;> rfl
  refine List.eq_nil_iff_forall_not_mem.2 fun b hb => ?_
  have h4 := hpp.ledger b
  rw [no_inflight hp] at h4
  unfold Proc.held Proc.known at h4
  rw [hin, h3, hf, ho] at h4
  have := List.count_pos_iff.2 hb
  simp at h4
  omega

/-- The master polls. -/
theorem go (h : Still env σ ls n N sz T) {A B : State → Prop}
    (hA : ∀ m l st', n ≤ m → A (σ m) → Silent (σ m) l st' → (∀ ch, l ≠ .master ch) → A st')
    (hB : ∀ m ch st', n ≤ m → A (σ m) → masterStep (σ m) ch = .ok (some st') → Silent (σ m) (.master ch) st' → B st')
    (hN : ∀ m ch, n ≤ m → A (σ m) → masterStep (σ m) ch ≠ .ok none) {k : Nat} (hk : n ≤ k) (ha : A (σ k)) :
    ∃ m, k ≤ m ∧ B (σ m) := by
  refine leads h.master (fun m hm hpm => ?_) (fun m hm hlm hpm => ?_) hk ha
  · rcases h.next m hm with ⟨_, h2⟩ | ⟨h1, h2⟩
    · rw [h2]; exact Or.inl hpm
    · by_cases hl : ∃ ch, ls m = .master ch
      · obtain ⟨ch, hl⟩ := hl
        rw [hl] at h1 h2
        exact Or.inr (hB m ch _ hm hpm h1 h2)
      · exact Or.inl (hA m _ _ hm hpm h2 fun ch hch => hl ⟨ch, hch⟩)
  · obtain ⟨ch, hl, _⟩ := hlm
    rcases h.next m hm with ⟨h1, _⟩ | ⟨h1, h2⟩
    · rw [hl] at h1
      exact absurd h1 (hN m ch hm hpm)
    · rw [hl] at h1 h2
      exact hB m ch _ hm hpm h1 h2

/-- Something that is not changed by silent steps. -/
def Kept (σ : Nat → State) (n : Nat) (E : State → Prop) : Prop :=
  ∀ m l st', n ≤ m → Silent (σ m) l st' → E (σ m) → E st'

theorem kept_clear (j ix : Nat) : Kept σ n fun st => ∀ q, j ≤ q → q < ix → st.assigned q = [] :=
  fun _ _ _ _ hs he q h1 h2 => hs.clear q (he q h1 h2)

theorem kept_ready (j ix : Nat) : Kept σ n fun st => ∀ q, j ≤ q → q < ix → (st.procs q).pool.ready = [] :=
  fun _ _ _ _ hs he q h1 h2 => (hs.hush q).ready (he q h1 h2)

theorem silent_pc {st st' : State} {l : Label} (h : Silent st l st') (hl : ∀ ch, l ≠ .master ch) : st'.pc = st.pc := by
  rcases h.pc with h1 | ⟨_, _, ch, h1, _⟩
  · exact h1
  · exact absurd h1 (hl ch)

/-- The worker has not yet handled the request. -/
def Asked (ix : Nat) (r : Req) (st : State) : Prop :=
  (st.procs ix).pc = .probe ∧ (st.procs ix).inbox = [r.msg] ∧ (st.procs ix).silent

/-- The worker has just handled the request. -/
def Answered (ix : Nat) (r : Req) (st : State) : Prop :=
  (st.procs ix).inbox = [] ∧ r.replied (st.procs ix)

/-- What was handed out is not there. -/
def Handed (ix : Nat) : Req → State → Prop
  | .finished, st => (st.procs ix).pool.finished = []
  | .ready, st => (st.procs ix).pool.ready = []
  | .save, _ => True

theorem kept_handed (ix : Nat) (r : Req) : Kept σ n (Handed ix r) := by
  intro m l st' hm hs he
  cases r with
  | finished => exact (hs.hush ix).finished he
  | ready => exact (hs.hush ix).ready he
  | save => trivial

/-- Requests are answered. -/
theorem answer (h : Still env σ ls n N sz T) {E : State → Prop} (hE : Kept σ n E) {pc : Pc} {ix : Nat} {r : Req}
    (he : pc.expects ix = some r) (h0 : 0 < ix) (hx : ix < N) {k : Nat} (hk : n ≤ k) (hpc : (σ k).pc = pc)
    (ha : Asked ix r (σ k)) (hEk : E (σ k)) :
    ∃ m, k ≤ m ∧ (σ m).pc = pc ∧ Answered ix r (σ m) ∧ Handed ix r (σ m) ∧ E (σ m) := by
  have key : ∀ m l st', n ≤ m → ((σ m).pc = pc ∧ Asked ix r (σ m) ∧ E (σ m)) → Silent (σ m) l st' →
      (l ≠ .worker ix ∧ st'.pc = pc ∧ Asked ix r st' ∧ E st') ∨
      (st'.pc = pc ∧ Answered ix r st' ∧ Handed ix r st' ∧ E st') := by
    rintro m l st' hm ⟨h1, ⟨h2, h3, h4⟩, h5⟩ hs
    have hE' := hE m l st' hm hs h5
    cases hs with
    | nap jx i l hl hjx hi ph hn =>
      refine Or.inl ⟨by rcases hl with rfl | rfl <;> simp, h1, ?_, hE'⟩
      unfold Asked
      by_cases hj : ix = jx
      · subst hj
        rw [show ((σ m).setProc ix (((σ m).procs ix).setThread i _)).procs ix = ((σ m).procs ix).setThread i _ from
          Function.update_self ..]
        exact ⟨h2, h3, h4⟩
      · rw [show ((σ m).setProc jx (((σ m).procs jx).setThread i _)).procs ix = (σ m).procs ix from
          Function.update_of_ne hj ..]
        exact ⟨h2, h3, h4⟩
    | answer jx hj0 hjx hjpc r' ms hi p' hp =>
      by_cases hj : ix = jx
      · subst hj
        right
        rw [h3] at hi
        obtain ⟨h6, h7⟩ := List.cons_eq_cons.1 hi
        have h6 := Req.msg_inj h6
        subst h6
        obtain ⟨h8, h9, h10⟩ := h4
        unfold Answered
        have e : ((σ m).setProc ix p').procs ix = p' := Function.update_self ..
        rw [e]
        refine ⟨h1, ?_, ?_, hE'⟩
        · cases r <;> cases hp
          · exact ⟨h7.symm, ⟨_, by show _ ++ _ = _; rw [show ({ (σ m).procs ix with inbox := ms } : Proc).flushFinished.1.finishedOut = ((σ m).procs ix).finishedOut from rfl, h8]; rfl⟩, h9, h10⟩
          · exact ⟨h7.symm, h8, ⟨_, by show _ ++ _ = _; rw [show ({ (σ m).procs ix with inbox := ms } : Proc).flushReady.1.readyOut = ((σ m).procs ix).readyOut from rfl, h9]; rfl⟩, h10⟩
          · exact ⟨h7.symm, h8, h9, ⟨_, by show _ ++ _ = _; rw [show ({ (σ m).procs ix with inbox := ms } : Proc).flushStatic.1.saveOut = ((σ m).procs ix).saveOut from rfl, h10]; rfl⟩⟩
        · cases r
          · show (((σ m).setProc ix p').procs ix).pool.finished = []
            rw [e]; cases hp; rfl
          · show (((σ m).setProc ix p').procs ix).pool.ready = []
            rw [e]; cases hp; rfl
          · trivial
      · refine Or.inl ⟨by simpa using Ne.symm hj, h1, ?_, hE'⟩
        unfold Asked
        rw [show ((σ m).setProc jx p').procs ix = (σ m).procs ix from Function.update_of_ne hj ..]
        exact ⟨h2, h3, h4⟩
    | poll ch st' hms hp hp' =>
      exfalso
      obtain ⟨h8, h9, h10⟩ := h4
      unfold masterStep at hms
      rw [h1] at hms hp
      cases pc <;> first | cases he | skip
      · rename_i jx c
        simp only [Pc.expects] at he
        split at he
        · rename_i hj
          subst hj
          simp only [flushRecvStep] at hms
          rw [h8] at hms
          cases hms
        · cases he
      · rename_i jx
        simp only [Pc.expects] at he
        split at he
        · rename_i hj
          subst hj
          simp only [readyRecvStep] at hms
          rw [h9] at hms
          cases hms
        · cases he
      · cases hp
  refine leads (P := fun st => st.pc = pc ∧ Asked ix r st ∧ E st)
    (Q := fun st => st.pc = pc ∧ Answered ix r st ∧ Handed ix r st ∧ E st) (h.worker ix h0 hx)
    (fun m hm hpm => ?_) (fun m hm hlm hpm => ?_) hk ⟨hpc, ha, hEk⟩
  · rcases h.next m hm with ⟨_, h2⟩ | ⟨h1, h2⟩
    · rw [h2]; exact Or.inl hpm
    · rcases key m _ _ hm hpm h2 with ⟨_, h3⟩ | h3
      · exact Or.inl h3
      · exact Or.inr h3
  · rcases h.next m hm with ⟨h1, _⟩ | ⟨h1, h2⟩
    · exfalso
      rw [hlm] at h1
      obtain ⟨_, ⟨h2, h3, _⟩, _⟩ := hpm
      simp only [step] at h1
      rw [if_pos ⟨h0, by rw [h.nprocs m hm]; exact hx⟩] at h1
      obtain ⟨o, ho, h1⟩ := Res.bind_eq_ok.1 h1
      cases o with
      | some p => cases h1
      | none =>
        unfold Proc.workerStep at ho
        rw [h2] at ho
        simp only at ho
        rw [h3] at ho
        exact some_map_ne ho
    · rcases key m _ _ hm hpm h2 with ⟨h3, _⟩ | h3
      · exact absurd hlm h3
      · exact h3

/-- While the master waits for a worker, the request is either not handled or answered. -/
theorem waiting (h : Still env σ ls n N sz T) {ix : Nat} {r : Req} (h0 : 0 < ix) (hx : ix < N) {k : Nat} (hk : n ≤ k)
    (he : (σ k).pc.expects ix = some r) (hc : ¬ (σ k).pc.closing ix) : Asked ix r (σ k) ∨ Answered ix r (σ k) := by
  obtain ⟨h1, h2⟩ := h.serving h0 hx hk hc
  have hp := ((h.sound k hk).inv.each ix (by rw [h.nprocs k hk]; exact hx)).prot
  rw [he] at hp
  rcases hp with ⟨⟨l, h3, h4⟩, h5⟩ | ⟨h3, h4⟩
  · left
    cases l with
    | nil => exact ⟨h1, h3, h5⟩
    | cons x l => exact absurd (h2 x (by rw [h3]; simp)) (h4 x (by simp))
  · exact Or.inr ⟨h3, h4⟩

/-- Saving goes on. -/
theorem no_saveRecv (h : Still env σ ls n N sz T) {ix : Nat} {c : Cont} {k : Nat} (hk : n ≤ k) :
    (σ k).pc ≠ .saveRecv ix c := by
  intro hpc
  have hst := (h.sound k hk).inv.started
  rw [hpc, h.nprocs k hk] at hst
  obtain ⟨h0, hx⟩ := hst
  have he : (Pc.saveRecv ix c).expects ix = some .save := by simp [Pc.expects]
  have key : ∀ k, n ≤ k → (σ k).pc = .saveRecv ix c → Answered ix .save (σ k) → False := by
    intro k hk hpc ha
    refine h.no_master (P := fun st => st.pc = .saveRecv ix c ∧ (st.procs ix).saveOut ≠ [])
      (fun m l st' hm hpm hs => ?_) (fun m hm hpm => ?_) hk ⟨hpc, ?_⟩
    · obtain ⟨h1, h2⟩ := hpm
      have hp : st'.pc = .saveRecv ix c := by
        rcases hs.pc with h3 | ⟨h3, _⟩
        · exact h3.trans h1
        · rw [h1] at h3; cases h3
      refine ⟨hp, ?_⟩
      cases hs with
      | nap jx i l hl hjx hi ph hn =>
        by_cases hj : ix = jx
        · subst hj
          rw [show ((σ m).setProc ix (((σ m).procs ix).setThread i _)).procs ix = ((σ m).procs ix).setThread i _ from
            Function.update_self ..]
          exact h2
        · rw [show ((σ m).setProc jx (((σ m).procs jx).setThread i _)).procs ix = (σ m).procs ix from
            Function.update_of_ne hj ..]
          exact h2
      | answer jx hj0 hjx hjpc r' ms hi p' hp =>
        by_cases hj : ix = jx
        · subst hj
          exfalso
          have hpp := ((h.sound m hm).inv.each ix hjx).prot.request hi
          rw [hpp.2.2.2.2] at h2
          exact h2 rfl
        · rw [show ((σ m).setProc jx p').procs ix = (σ m).procs ix from Function.update_of_ne hj ..]
          exact h2
      | poll ch st' hms hp hp' => rw [h1] at hp; cases hp
    · obtain ⟨h1, h2⟩ := hpm
      rw [h1]
      refine ⟨by simp, by simp, by simp, by simp, fun jx k hj => ?_, fun ch st' _ hp _ => hp⟩
      cases hj
      exact h2
    · obtain ⟨_, _, _, s, hs⟩ := ha
      rw [hs]
      simp
  rcases h.waiting h0 hx hk (by rw [hpc]; exact he) (by rw [hpc]; exact id) with ha | ha
  · obtain ⟨m, hm, h1, h2, _⟩ := h.answer (E := fun _ => True) (fun _ _ _ _ _ _ => trivial) he h0 hx hk hpc ha trivial
    exact key m (hk.trans hm) h1 h2
  · exact key k hk hpc ha

/-- The master asks a worker. -/
theorem ask (h : Still env σ ls n N sz T) {E : State → Prop} (hE : Kept σ n E) {pc pc' : Pc} {ix : Nat} {r : Req}
    (h0 : 0 < ix) (hx : ix < N) (hp : pc.polls) (he : pc.expects ix = none)
    (hm : ∀ st ch, st.nprocs = N → st.pc = pc → masterStep st ch = .ok (some { st.send ix r.msg with pc := pc' }))
    {k : Nat} (hk : n ≤ k) (hpc : (σ k).pc = pc) (hEk : E (σ k)) :
    ∃ m, k ≤ m ∧ (σ m).pc = pc' ∧ Asked ix r (σ m) ∧ E (σ m) := by
  refine h.go (A := fun st => st.pc = pc ∧ E st) (B := fun st => st.pc = pc' ∧ Asked ix r st ∧ E st)
    (fun m l st' hm' ha hs hl => ?_) (fun m ch st' hm' ha hst hs => ?_) (fun m ch hm' ha => ?_) hk ⟨hpc, hEk⟩
  · exact ⟨(silent_pc hs hl).trans ha.1, hE m l st' hm' hs ha.2⟩
  · obtain ⟨h1, h2⟩ := ha
    have hEn := hE m _ st' hm' hs h2
    rw [hm (σ m) ch (h.nprocs m hm') h1] at hst
    obtain ⟨h3, h4⟩ := h.serving h0 hx hm' (by rw [h1]; exact not_closing hp ix)
    have hprot := ((h.sound m hm').inv.each ix (by rw [h.nprocs m hm']; exact hx)).prot
    rw [h1, he] at hprot
    have hin : ((σ m).procs ix).inbox = [] :=
      List.eq_nil_iff_forall_not_mem.2 fun x hx => hprot.1 x hx (h4 x hx)
    cases hst
    refine ⟨rfl, ?_, hEn⟩
    have e : ((σ m).send ix r.msg).procs ix = ((σ m).procs ix).send r.msg := Function.update_self ..
    unfold Asked
    show (((σ m).send ix r.msg).procs ix).pc = _ ∧ (((σ m).send ix r.msg).procs ix).inbox = _ ∧
      (((σ m).send ix r.msg).procs ix).silent
    rw [e]
    refine ⟨h3, ?_, hprot.2⟩
    show ((σ m).procs ix).inbox ++ [r.msg] = _
    rw [hin]
    rfl
  · rw [hm (σ m) ch (h.nprocs m hm') ha.1]
    simp

/-- Answers are there until they are received. -/
theorem stays {ix : Nat} {r : Req} {m : Nat} (ha : Answered ix r (σ m))
    {l : Label} {st' : State} (hs : Silent (σ m) l st') (hl : ∀ ch, l ≠ .master ch) : Answered ix r st' := by
  unfold Answered at ha ⊢
  cases hs with
  | nap jx i l hl hjx hi ph hn =>
    by_cases hj : ix = jx
    · subst hj
      rw [show ((σ m).setProc ix (((σ m).procs ix).setThread i _)).procs ix = ((σ m).procs ix).setThread i _ from
        Function.update_self ..]
      cases r <;> exact ha
    · rw [show ((σ m).setProc jx (((σ m).procs jx).setThread i _)).procs ix = (σ m).procs ix from
        Function.update_of_ne hj ..]
      exact ha
  | answer jx hj0 hjx hjpc r' ms hi p' hp =>
    by_cases hj : ix = jx
    · subst hj
      rw [ha.1] at hi
      cases hi
    · rw [show ((σ m).setProc jx p').procs ix = (σ m).procs ix from Function.update_of_ne hj ..]
      exact ha
  | poll ch st' hms hp hp' => exact absurd rfl (hl ch)

/-- The master receives the finished blocks of a worker. -/
theorem receiveFinished (h : Still env σ ls n N sz T) {E : State → Prop} (hE : Kept σ n E) {ix : Nat} {c : Caller}
    {k : Nat} (hk : n ≤ k) (hpc : (σ k).pc = .flushRecv ix c) (ha : Answered ix .finished (σ k)) (hEk : E (σ k)) :
    ∃ m, k ≤ m ∧ (σ m).pc = .flushSend (ix + 1) c ∧ ((σ m).procs ix).finishedOut = [] ∧ E (σ m) := by
  refine h.go (A := fun st => st.pc = .flushRecv ix c ∧ Answered ix .finished st ∧ E st)
    (B := fun st => st.pc = .flushSend (ix + 1) c ∧ (st.procs ix).finishedOut = [] ∧ E st)
    (fun m l st' hm' ha hs hl => ?_) (fun m ch st' hm' ha hst hs => ?_) (fun m ch hm' ha => ?_) hk ⟨hpc, ha, hEk⟩
  · exact ⟨(silent_pc hs hl).trans ha.1, stays ha.2.1 hs hl, hE m l st' hm' hs ha.2.2⟩
  · obtain ⟨h1, ⟨_, ⟨bs, h2⟩, _⟩, h4⟩ := ha
    have hEn := hE m _ st' hm' hs h4
    unfold masterStep at hst
    rw [h1] at hst
    simp only [flushRecvStep] at hst
    rw [h2] at hst
    obtain ⟨st1, h5, hst⟩ := Res.bind_eq_ok.1 hst
    obtain ⟨a, _, h5⟩ := Res.bind_eq_ok.1 h5
    cases h5
    cases hst
    refine ⟨rfl, ?_, hEn⟩
    show (Function.update (σ m).procs ix _ ix).finishedOut = []
    rw [Function.update_self]
  · obtain ⟨h1, ⟨_, ⟨bs, h2⟩, _⟩, h4⟩ := ha
    intro hst
    rcases blocked (h.sound m hm').fits hst with h7 | ⟨i, h7, _⟩ | ⟨jx, c, h7, h8⟩ | ⟨jx, h7, _⟩ | ⟨jx, c, h7, _⟩ |
      ⟨⟨k, h7⟩ | ⟨jx, k, h7⟩, _⟩ <;> rw [h1] at h7 <;> cases h7
    rw [h2] at h8
    cases h8

/-- The master receives the number of ready threads of a worker. -/
theorem receiveReady (h : Still env σ ls n N sz T) {E : State → Prop} (hE : Kept σ n E) {ix : Nat}
    {k : Nat} (hk : n ≤ k) (hpc : (σ k).pc = .readyRecv ix) (ha : Answered ix .ready (σ k)) (hEk : E (σ k)) :
    ∃ m, k ≤ m ∧ (σ m).pc = .readySend (ix + 1) ∧ E (σ m) := by
  refine h.go (A := fun st => st.pc = .readyRecv ix ∧ Answered ix .ready st ∧ E st)
    (B := fun st => st.pc = .readySend (ix + 1) ∧ E st)
    (fun m l st' hm' ha hs hl => ?_) (fun m ch st' hm' ha hst hs => ?_) (fun m ch hm' ha => ?_) hk ⟨hpc, ha, hEk⟩
  · exact ⟨(silent_pc hs hl).trans ha.1, stays ha.2.1 hs hl, hE m l st' hm' hs ha.2.2⟩
  · obtain ⟨h1, ⟨_, _, ⟨bs, h2⟩, _⟩, h4⟩ := ha
    have hEn := hE m _ st' hm' hs h4
    unfold masterStep at hst
    rw [h1] at hst
    simp only [readyRecvStep] at hst
    rw [h2] at hst
    cases hst
    exact ⟨rfl, hEn⟩
  · obtain ⟨h1, ⟨_, _, ⟨bs, h2⟩, _⟩, h4⟩ := ha
    intro hst
    rcases blocked (h.sound m hm').fits hst with h7 | ⟨i, h7, _⟩ | ⟨jx, c, h7, _⟩ | ⟨jx, h7, h8⟩ | ⟨jx, c, h7, _⟩ |
      ⟨⟨k, h7⟩ | ⟨jx, k, h7⟩, _⟩ <;> rw [h1] at h7 <;> cases h7
    rw [h2] at h8
    cases h8

/-- A step of the master without condition. -/
theorem pass (h : Still env σ ls n N sz T) {E : State → Prop} (hE : Kept σ n E) {pc : Pc} {F : State → Prop}
    (hm : ∀ m ch, n ≤ m → (σ m).pc = pc → E (σ m) → ∃ st', masterStep (σ m) ch = .ok (some st') ∧
      (st'.pc.polls → E st' → F st')) {k : Nat} (hk : n ≤ k) (hpc : (σ k).pc = pc) (hEk : E (σ k))
    (hp : pc.polls) : ∃ m, k ≤ m ∧ F (σ m) := by
  refine h.go (A := fun st => st.pc = pc ∧ E st) (B := F)
    (fun m l st' hm' ha hs hl => ?_) (fun m ch st' hm' ha hst hs => ?_) (fun m ch hm' ha => ?_) hk ⟨hpc, hEk⟩
  · exact ⟨(silent_pc hs hl).trans ha.1, hE m l st' hm' hs ha.2⟩
  · obtain ⟨st1, h1, h2⟩ := hm m ch hm' ha.1 ha.2
    rw [h1] at hst
    cases hst
    refine h2 ?_ (hE m _ _ hm' hs ha.2)
    rcases hs.pc with h3 | ⟨_, h3, _⟩
    · rw [h3, ha.1]; exact hp
    · exact h3
  · obtain ⟨st1, h1, _⟩ := hm m ch hm' ha.1 ha.2
    rw [h1]
    simp

theorem kept_and {E F : State → Prop} (hE : Kept σ n E) (hF : Kept σ n F) : Kept σ n fun st => E st ∧ F st :=
  fun m l st' hm hs h => ⟨hE m l st' hm hs h.1, hF m l st' hm hs h.2⟩

theorem after_polls (c : Caller) : (afterFlush c).polls := by cases c <;> trivial

/-- The loop over all workers for finished blocks. -/
theorem walkFlush (h : Still env σ ls n N sz T) (j : Nat) (c : Caller) : ∀ d ix k, N ≤ ix + d → 0 < ix → n ≤ k →
    (σ k).pc = .flushSend ix c → (∀ q, j ≤ q → q < ix → q < N → (σ k).assigned q = []) →
    ∃ m, k ≤ m ∧ (σ m).pc = afterFlush c ∧ ∀ q, j ≤ q → q < N → (σ m).assigned q = [] := by
  intro d
  induction d with
  | zero =>
    intro ix k hd h0 hk hpc hE
    obtain ⟨m, hm, h1, h2⟩ := h.pass (kept_clear j N) (pc := .flushSend ix c)
      (F := fun st => st.pc = afterFlush c ∧ ∀ q, j ≤ q → q < N → st.assigned q = []) (fun m ch hm hpc _ => by
        refine ⟨{ σ m with pc := afterFlush c }, ?_, fun _ he => ⟨rfl, he⟩⟩
        unfold masterStep
        rw [hpc]
        simp only
        rw [if_neg (by rw [h.nprocs m hm]; omega)]) hk hpc (fun q h1 h2 => hE q h1 (by omega) h2) trivial
    exact ⟨m, hm, h1, h2⟩
  | succ d ih =>
    intro ix k hd h0 hk hpc hE
    by_cases hx : ix < N
    · obtain ⟨m1, hm1, h1, h2, h3⟩ := h.ask (kept_clear j ix) (pc := .flushSend ix c) (pc' := .flushRecv ix c)
        (r := .finished) h0 hx trivial rfl (fun st ch hn hpc => by
          unfold masterStep
          rw [hpc]
          simp only
          rw [if_pos (by rw [hn]; exact hx)]
          rfl) hk hpc (fun q h1 h2 => hE q h1 h2 (by omega))
      obtain ⟨m2, hm2, h4, h5, h6, h7⟩ := h.answer (kept_clear j ix) (pc := .flushRecv ix c) (r := .finished)
        (by simp [Pc.expects]) h0 hx (hk.trans hm1) h1 h2 h3
      obtain ⟨m3, hm3, h8, h9, h10, h11⟩ := h.receiveFinished (kept_and (kept_clear j ix) (kept_handed ix .finished))
        (hk.trans (hm1.trans hm2)) h4 h5 ⟨h7, h6⟩
      have hk3 : n ≤ m3 := hk.trans (hm1.trans (hm2.trans hm3))
      obtain ⟨m, hm, h12, h13⟩ := ih (ix + 1) m3 (by omega) (by omega) hk3 h8 (fun q h12 h13 h14 => by
        by_cases hq : q = ix
        · subst hq
          exact h.clean hk3 (by rw [h8]; trivial) hx h11 h9
        · exact h10 q h12 (by omega))
      exact ⟨m, hm1.trans (hm2.trans (hm3.trans hm)), h12, h13⟩
    · obtain ⟨m, hm, h1, h2⟩ := h.pass (kept_clear j N) (pc := .flushSend ix c)
        (F := fun st => st.pc = afterFlush c ∧ ∀ q, j ≤ q → q < N → st.assigned q = []) (fun m ch hm hpc _ => by
          refine ⟨{ σ m with pc := afterFlush c }, ?_, fun _ he => ⟨rfl, he⟩⟩
          unfold masterStep
          rw [hpc]
          simp only
          rw [if_neg (by rw [h.nprocs m hm]; omega)]) hk hpc (fun q h1 h2 => hE q h1 (by omega) h2) trivial
      exact ⟨m, hm, h1, h2⟩

/-- The loop over all workers for ready threads. -/
theorem walkReady (h : Still env σ ls n N sz T) (j : Nat) : ∀ d ix k, N ≤ ix + d → 0 < ix → n ≤ k →
    (σ k).pc = .readySend ix → (∀ q, j ≤ q → q < ix → q < N → ((σ k).procs q).pool.ready = []) →
    ∃ m, k ≤ m ∧ (σ m).pc = .filled ∧ ∀ q, j ≤ q → q < N → ((σ m).procs q).pool.ready = [] := by
  intro d
  induction d with
  | zero =>
    intro ix k hd h0 hk hpc hE
    obtain ⟨m, hm, h1, h2⟩ := h.pass (kept_ready j N) (pc := .readySend ix)
      (F := fun st => st.pc = .filled ∧ ∀ q, j ≤ q → q < N → (st.procs q).pool.ready = []) (fun m ch hm hpc _ => by
        refine ⟨{ σ m with pc := .filled }, ?_, fun _ he => ⟨rfl, he⟩⟩
        unfold masterStep
        rw [hpc]
        simp only
        rw [if_neg (by rw [h.nprocs m hm]; omega)]) hk hpc (fun q h1 h2 => hE q h1 (by omega) h2) trivial
    exact ⟨m, hm, h1, h2⟩
  | succ d ih =>
    intro ix k hd h0 hk hpc hE
    by_cases hx : ix < N
    · obtain ⟨m1, hm1, h1, h2, h3⟩ := h.ask (kept_ready j ix) (pc := .readySend ix) (pc' := .readyRecv ix)
        (r := .ready) h0 hx trivial rfl (fun st ch hn hpc => by
          unfold masterStep
          rw [hpc]
          simp only
          rw [if_pos (by rw [hn]; exact hx)]
          rfl) hk hpc (fun q h1 h2 => hE q h1 h2 (by omega))
      obtain ⟨m2, hm2, h4, h5, h6, h7⟩ := h.answer (kept_ready j ix) (pc := .readyRecv ix) (r := .ready)
        (by simp [Pc.expects]) h0 hx (hk.trans hm1) h1 h2 h3
      obtain ⟨m3, hm3, h8, h10, h11⟩ := h.receiveReady (kept_and (kept_ready j ix) (kept_handed ix .ready))
        (hk.trans (hm1.trans hm2)) h4 h5 ⟨h7, h6⟩
      have hk3 : n ≤ m3 := hk.trans (hm1.trans (hm2.trans hm3))
      obtain ⟨m, hm, h12, h13⟩ := ih (ix + 1) m3 (by omega) (by omega) hk3 h8 (fun q h12 h13 h14 => by
        by_cases hq : q = ix
        · subst hq
          exact h11
        · exact h10 q h12 (by omega))
      exact ⟨m, hm1.trans (hm2.trans (hm3.trans hm)), h12, h13⟩
    · obtain ⟨m, hm, h1, h2⟩ := h.pass (kept_ready j N) (pc := .readySend ix)
        (F := fun st => st.pc = .filled ∧ ∀ q, j ≤ q → q < N → (st.procs q).pool.ready = []) (fun m ch hm hpc _ => by
          refine ⟨{ σ m with pc := .filled }, ?_, fun _ he => ⟨rfl, he⟩⟩
          unfold masterStep
          rw [hpc]
          simp only
          rw [if_neg (by rw [h.nprocs m hm]; omega)]) hk hpc (fun q h1 h2 => hE q h1 (by omega) h2) trivial
      exact ⟨m, hm, h1, h2⟩

theorem kept_true : Kept σ n fun _ => True := fun _ _ _ _ _ _ => trivial

/-- From the beginning of the loop over all processes for finished blocks to its end. -/
theorem flushAll (h : Still env σ ls n N sz T) {c : Caller} {k : Nat} (hk : n ≤ k) (hpc : (σ k).pc = .flush c) :
    ∃ m, k ≤ m ∧ (σ m).pc = afterFlush c ∧ ∀ q, q < N → (σ m).assigned q = [] := by
  have hN : 0 < N := by rw [← h.nprocs k hk]; exact (h.sound k hk).inv.pos
  obtain ⟨m1, hm1, h1, h2, h3⟩ := h.go (A := fun st => st.pc = .flush c)
    (B := fun st => st.pc = .flushSend 1 c ∧ (st.procs 0).pool.finished = [] ∧ (st.procs 0).finishedOut = [])
    (fun m l st' hm' ha hs hl => (silent_pc hs hl).trans ha) (fun m ch st' hm' ha hst hs => by
      unfold masterStep at hst
      rw [ha] at hst
      obtain ⟨st1, h5, hst⟩ := Res.bind_eq_ok.1 (show (flushStep (σ m) c >>= fun a => pure (some a)) = _ from hst)
      cases hst
      obtain ⟨st1, h5, h6⟩ := Res.bind_eq_ok.1 h5
      obtain ⟨a, _, h5⟩ := Res.bind_eq_ok.1 h5
      cases h5
      cases h6
      have hprot := ((h.sound m hm').inv.each 0 (by rw [h.nprocs m hm']; exact hN)).prot
      rw [ha] at hprot
      refine ⟨rfl, ?_, ?_⟩
      · show (Function.update (σ m).procs 0 _ 0).pool.finished = []
        rw [Function.update_self]
        rfl
      · show (Function.update (σ m).procs 0 _ 0).finishedOut = []
        rw [Function.update_self]
        exact hprot.2.1)
    (fun m ch hm' ha hst => by
      rcases blocked (h.sound m hm').fits hst with h7 | ⟨i, h7, _⟩ | ⟨jx, c, h7, _⟩ | ⟨jx, h7, h8⟩ | ⟨jx, c, h7, _⟩ |
        ⟨⟨k, h7⟩ | ⟨jx, k, h7⟩, _⟩ <;> rw [ha] at h7 <;> cases h7) hk hpc
  have hk1 := hk.trans hm1
  obtain ⟨m, hm, h4, h5⟩ := h.walkFlush 0 c N 1 m1 (by omega) (by omega) hk1 h1 (fun q _ hq hq' => by
    have : q = 0 := by omega
    subst this
    exact h.clean hk1 (by rw [h1]; trivial) hN h2 h3)
  exact ⟨m, hm1.trans hm, h4, fun q hq => h5 q (by omega) hq⟩

/-- Waiting for assigned blocks ends. -/
theorem no_flush_wait (h : Still env σ ls n N sz T) {c : Cont} {k : Nat} (hk : n ≤ k) : (σ k).pc ≠ .flush (.wait c) := by
  intro hpc
  obtain ⟨m, hm, h1, h2⟩ := h.flushAll hk hpc
  refine h.no_master (P := fun st => st.pc = .waited c ∧ ∀ q, q < N → st.assigned q = []) (fun m l st' hm' ha hs => ?_)
    (fun m hm' ha => ?_) (hk.trans hm) ⟨h1, h2⟩
  · refine ⟨?_, fun q hq => hs.clear q (ha.2 q hq)⟩
    rcases hs.pc with h3 | ⟨_, h3, ch, _, h4⟩
    · exact h3.trans ha.1
    · exfalso
      unfold masterStep at h4
      rw [ha.1] at h4
      cases h4
      unfold waitedStep at h3
      simp only at h3
      rw [if_pos (fun ix hix => ha.2 ix (by rw [← h.nprocs m hm']; exact List.mem_range.1 hix))] at h3
      exact h3
  · rw [ha.1]
    refine ⟨by simp, by simp, by simp, by simp, by simp, fun ch st' h4 _ h3 => ?_⟩
    unfold masterStep at h4
    rw [ha.1] at h4
    cases h4
    unfold waitedStep at h3
    simp only at h3
    rw [if_pos (fun ix hix => ha.2 ix (by rw [← h.nprocs m hm']; exact List.mem_range.1 hix))] at h3
    exact h3

theorem no_waited (h : Still env σ ls n N sz T) {c : Cont} {k : Nat} (hk : n ≤ k) : (σ k).pc ≠ .waited c := by
  intro hpc
  obtain ⟨m, hm, h1⟩ := h.pass (pc := .waited c) (F := fun st => st.pc = .flush (.wait c)) kept_true
    (fun m ch hm hpc _ => by
      refine ⟨waitedStep (σ m) c, by unfold masterStep; rw [hpc], fun hp _ => ?_⟩
      unfold waitedStep at hp ⊢
      simp only at hp ⊢
      split
      · rename_i hc
        rw [if_pos hc] at hp
        exact hp.elim
      · rfl) hk hpc trivial trivial
  exact h.no_flush_wait (hk.trans hm) h1

/-- The queues are filled. -/
theorem no_fill (h : Still env σ ls n N sz T) {q : Nat} (hq : q < N) (hsz : 0 < sz q) {k : Nat} (hk : n ≤ k)
    (hpc : (σ k).pc = .filled) (hr : ((σ k).procs q).pool.ready = []) : False := by
  have hne : ∀ m, n ≤ m → (σ m).pc = .filled → ((σ m).procs q).pool.ready = [] →
      ¬ ((σ m).cpuQueue = [] ∧ (σ m).openclQueue = []) := by
    rintro m hm hpc hr ⟨h1, h2⟩
    have hpp := (h.sound m hm).inv.each q (by rw [h.nprocs m hm]; exact hq)
    obtain ⟨_, hreq, hbusy⟩ := h.rest hm (by rw [hpc]; trivial) hq
    have hprot := hpp.prot
    rw [hpc] at hprot
    have hpr : ∀ o, ((σ m).procs q).promised o = 0 := by
      intro o
      unfold Proc.promised
      refine List.countP_eq_zero.2 fun x hx => ?_
      obtain ⟨r, rfl⟩ := hreq x hx
      cases r <;> simp [Req.msg, Msg.isAssign]
    have hb := hpp.ok.book
    rw [hpr, hpr, hprot.2.2.1, h1, h2] at hb
    obtain ⟨a, b, hidle, _, _, ha, hb'⟩ := hb.split
    have hperm := hb.perm.length_eq
    rw [hr, hbusy, hidle] at hperm
    have hsize := h.size m q hm hq
    simp at ha hb' hperm
    rw [← ha, ← hb'] at hperm
    simp at hperm
    omega
  refine h.no_master (P := fun st => st.pc = .filled ∧ (st.procs q).pool.ready = []) (fun m l st' hm' ha hs => ?_)
    (fun m hm' ha => ?_) hk ⟨hpc, hr⟩
  · refine ⟨?_, (hs.hush q).ready ha.2⟩
    rcases hs.pc with h3 | ⟨_, h3, ch, _, h4⟩
    · exact h3.trans ha.1
    · exfalso
      unfold masterStep at h4
      rw [ha.1] at h4
      cases h4
      simp only at h3
      rw [if_neg (hne m hm' ha.1 ha.2)] at h3
      exact h3
  · rw [ha.1]
    refine ⟨by simp, by simp, by simp, by simp, by simp, fun ch st' h4 _ h3 => ?_⟩
    unfold masterStep at h4
    rw [ha.1] at h4
    cases h4
    simp only at h3
    rw [if_neg (hne m hm' ha.1 ha.2)] at h3
    exact h3

theorem no_ready (h : Still env σ ls n N sz T) {q : Nat} (hq : q < N) (hsz : 0 < sz q) {k : Nat} (hk : n ≤ k) :
    (σ k).pc ≠ .ready := by
  intro hpc
  obtain ⟨m1, hm1, h1, h2⟩ := h.pass (pc := .ready)
    (F := fun st => st.pc = .readySend 1 ∧ (st.procs 0).pool.ready = []) kept_true
    (fun m ch hm hpc _ => by
      refine ⟨readyStep (σ m), by unfold masterStep; rw [hpc], fun hp _ => ⟨rfl, ?_⟩⟩
      show (Function.update (σ m).procs 0 _ 0).pool.ready = []
      rw [Function.update_self]
      rfl) hk hpc trivial trivial
  obtain ⟨m, hm, h3, h4⟩ := h.walkReady 0 N 1 m1 (by omega) (by omega) (hk.trans hm1) h1 (fun q _ hq hq' => by
    have : q = 0 := by omega
    subst this
    exact h2)
  exact h.no_fill hq hsz (hk.trans (hm1.trans hm)) h3 (h4 q (by omega) hq)

theorem no_flush_fill (h : Still env σ ls n N sz T) {q : Nat} (hq : q < N) (hsz : 0 < sz q) {k : Nat} (hk : n ≤ k) :
    (σ k).pc ≠ .flush .fill := by
  intro hpc
  obtain ⟨m, hm, h1, _⟩ := h.flushAll hk hpc
  exact h.no_ready hq hsz (hk.trans hm) h1

theorem no_filled (h : Still env σ ls n N sz T) {q : Nat} (hq : q < N) (hsz : 0 < sz q) {k : Nat} (hk : n ≤ k) :
    (σ k).pc ≠ .filled := by
  intro hpc
  obtain ⟨m, hm, h1⟩ := h.pass (pc := .filled) (F := fun st => st.pc = .flush .fill) kept_true
    (fun m ch hm hpc _ => by
      refine ⟨_, by unfold masterStep; rw [hpc], fun hp _ => ?_⟩
      simp only at hp ⊢
      split
      · rfl
      · rename_i hc
        rw [if_neg hc] at hp
        exact hp.elim) hk hpc trivial trivial
  exact h.no_flush_fill hq hsz (hk.trans hm) h1

/-- The master does not poll for ever. -/
theorem no_polls (h : Still env σ ls n N sz T) {q : Nat} (hq : q < N) (hsz : 0 < sz q) {k : Nat} (hk : n ≤ k) :
    ¬ (σ k).pc.polls := by
  have hafter : ∀ c k, n ≤ k → (σ k).pc ≠ afterFlush c := by
    intro c k hk
    cases c with
    | wait c => exact h.no_waited hk
    | fill => exact h.no_ready hq hsz hk
  have hsend : ∀ ix c k, n ≤ k → 0 < ix → (σ k).pc ≠ .flushSend ix c := by
    intro ix c k hk h0 hpc
    obtain ⟨m, hm, h1, _⟩ := h.walkFlush ix c N ix k (by omega) h0 hk hpc (fun q h1 h2 => by omega)
    exact hafter c m (hk.trans hm) h1
  have hrsend : ∀ ix k, n ≤ k → 0 < ix → (σ k).pc ≠ .readySend ix := by
    intro ix k hk h0 hpc
    obtain ⟨m, hm, h1, _⟩ := h.walkReady ix N ix k (by omega) h0 hk hpc (fun q h1 h2 => by omega)
    exact h.no_filled hq hsz (hk.trans hm) h1
  intro hp
  have hst := (h.sound k hk).inv.started
  rw [h.nprocs k hk] at hst
  cases hpc : (σ k).pc <;> rw [hpc] at hp hst <;> try cases hp
  · rename_i c
    cases c with
    | wait c => exact h.no_flush_wait hk hpc
    | fill => exact h.no_flush_fill hq hsz hk hpc
  · exact hsend _ _ k hk hst hpc
  · rename_i ix c
    have key : ∀ k, n ≤ k → (σ k).pc = .flushRecv ix c → Answered ix .finished (σ k) → False := by
      intro k hk hpc ha
      obtain ⟨m, hm, h1, _⟩ := h.receiveFinished kept_true hk hpc ha trivial
      exact hsend _ _ m (hk.trans hm) (by omega) h1
    rcases h.waiting (r := .finished) hst.1 hst.2 hk (by rw [hpc]; simp [Pc.expects]) (by rw [hpc]; exact id) with
      ha | ha
    · obtain ⟨m, hm, h1, h2, _⟩ := h.answer kept_true (by simp [Pc.expects]) hst.1 hst.2 hk hpc ha trivial
      exact key m (hk.trans hm) h1 h2
    · exact key k hk hpc ha
  · exact h.no_waited hk hpc
  · exact h.no_ready hq hsz hk hpc
  · exact hrsend _ k hk hst hpc
  · rename_i ix
    have key : ∀ k, n ≤ k → (σ k).pc = .readyRecv ix → Answered ix .ready (σ k) → False := by
      intro k hk hpc ha
      obtain ⟨m, hm, h1, _⟩ := h.receiveReady kept_true hk hpc ha trivial
      exact hrsend _ m (hk.trans hm) (by omega) h1
    rcases h.waiting (r := .ready) hst.1 hst.2 hk (by rw [hpc]; simp [Pc.expects]) (by rw [hpc]; exact id) with
      ha | ha
    · obtain ⟨m, hm, h1, h2, _⟩ := h.answer kept_true (by simp [Pc.expects]) hst.1 hst.2 hk hpc ha trivial
      exact key m (hk.trans hm) h1 h2
    · exact key k hk hpc ha
  · exact h.no_filled hq hsz hk hpc

/-- If all steps are silent, the run is over. -/
theorem over (h : Still env σ ls n N sz T) {q : Nat} (hq : q < N) (hsz : 0 < sz q) {k : Nat} (hk : n ≤ k) :
    Over (σ k) := by
  have hfin : (σ k).pc = .finished := by
    by_contra hf
    exact h.no_place (h.no_polls hq hsz hk) hf (fun ix c => h.no_saveRecv hk) hk rfl
  refine ⟨hfin, fun ix h0 hx => ?_⟩
  rw [h.nprocs k hk] at hx
  have hs := h.sound k hk
  have hx' : ix < (σ k).nprocs := by rw [h.nprocs k hk]; exact hx
  have hpl : (σ k).place ix = ((σ k).procs ix).pc := by
    unfold State.place
    rw [if_neg (by omega)]
  rcases hs.ended ix h0 hx' (by rw [hfin]; trivial) with ⟨h1 | ⟨i, h1⟩, h2⟩ | ⟨h1, h2⟩
  · exact absurd h2 (h.no_message h0 hx (by rintro ⟨r, hr⟩; cases r <;> cases hr) hk h1 [])
  · exact absurd h1 (h.no_pc h0 hx (Or.inl ⟨i, rfl⟩) hk)
  · cases hpc : ((σ k).procs ix).pc with
    | probe => rw [hpc] at h1; cases h1
    | notify i => rw [hpc] at h1; cases h1
    | shutdown i => exact absurd hpc (h.no_pc h0 hx (Or.inr (Or.inl ⟨i, rfl⟩)) hk)
    | shutNotify i => exact absurd hpc (h.no_pc h0 hx (Or.inr (Or.inr ⟨i, rfl⟩)) hk)
    | join i =>
      exfalso
      refine h.no_worker (P := fun st => (st.procs ix).pc = .join i) h0 hx (fun m l st' hm hpm hs => ?_)
        (fun m hm hpm => ?_) hk hpc
      · show (st'.procs ix).pc = _
        rw [(hs.hush ix).pc]
        exact hpm
      · have hd := h.no_join (ix := ix) (i := i) hx hm (by unfold State.place; rw [if_neg (by omega)]; exact hpm)
        refine ⟨fun hst => ?_, fun hpr => by rw [hpm] at hpr; cases hpr⟩
        unfold Proc.workerStep at hst
        rw [hpm] at hst
        simp only at hst
        rw [if_pos hd] at hst
        cases hst
    | returned => rfl

end Still

/-! ### Every execution becomes silent -/

theorem settles {f : Nat → Nat} {n : Nat} (h : ∀ m, n ≤ m → f (m + 1) ≤ f m) : ∃ k, n ≤ k ∧ ∀ m, k ≤ m → f m = f k := by
  have key : ∀ v k, n ≤ k → f k = v → ∃ k, n ≤ k ∧ ∀ m, k ≤ m → f m = f k := by
    intro v
    induction v using Nat.strong_induction_on with
    | _ v ih =>
      intro k hk hv
      by_cases hlt : ∃ m, k ≤ m ∧ f m < v
      · obtain ⟨m, hm, hf⟩ := hlt
        exact ih (f m) hf m (hk.trans hm) rfl
      · refine ⟨k, hk, fun m hm => ?_⟩
        have hle : f m ≤ f k := by
          induction hm with
          | refl => exact le_rfl
          | @step m hm ih => exact (h m (hk.trans hm)).trans ih
        have : ¬ f m < v := fun hx => hlt ⟨m, hm, hx⟩
        omega
  exact key (f n) n le_rfl rfl

theorem Sound.initial {kinds : List (List Bool)} (h0 : kinds ≠ []) (hk : ∀ k ∈ kinds, k.length < 4294967296)
    (fs : FileSystem) {todo : List Cmd} (hd : Run.Distinct todo) : Sound (initial kinds fs todo) where
  inv := Inv.initial h0 hk fs hd
  serves := fun _ _ _ _ => ⟨Or.inl rfl, by simp [Mpi.initial, Proc.initial]⟩
  neat := Neat.initial kinds fs todo
  ended := Ended.initial kinds fs todo
  fits := trivial
  zero := rfl

section

variable {env : Env} {st₀ : State} {σ : Nat → State} {ls : Nat → Label}

theorem Exec.sound (h : Exec env st₀ σ ls) (hs : Sound st₀) (ha : ∀ n, Alert (σ n) (ls n)) (n : Nat) : Sound (σ n) := by
  induction n with
  | zero => rw [h.start]; exact hs
  | succ n ih =>
    rcases h.next n with h1 | ⟨_, h1⟩
    · exact ih.step (ha n) h1
    · rw [h1]; exact ih

theorem Move.shape {st st' : State} {l : Label} (h : Move env st l st') :
    st'.nprocs = st.nprocs ∧ ∀ q, (st'.procs q).size = (st.procs q).size := by
  have near : ∀ (ix : Nat) (p : Proc), p.size = (st.procs ix).size →
      ∀ q, ((st.setProc ix p).procs q).size = (st.procs q).size := by
    intro ix p hp q
    by_cases hx : q = ix
    · subst hx
      rw [show (st.setProc q p).procs q = p from Function.update_self ..]
      exact hp
    · rw [show (st.setProc ix p).procs q = st.procs q from Function.update_of_ne hx ..]
  cases h with
  | thread ix i hx hi p ht hp => exact ⟨rfl, near ix p ht.keeps.2.2⟩
  | spurious ix i hx hi hp => exact ⟨rfl, near ix _ rfl⟩
  | worker ix h0 hx p hp => exact ⟨rfl, near ix p hp.size⟩
  | master ch st' h => exact ⟨(masterStep_cases h).nprocs, fun q => ((masterStep_cases h).touch q).kin.size⟩

/-- Every fair execution ends. -/
theorem Exec.over (h : Exec env st₀ σ ls) (hs : Sound st₀) (ha : ∀ n, Alert (σ n) (ls n)) (hr : Renewing σ ls)
    {q : Nat} (hq : q < st₀.nprocs) (hsz : 0 < (st₀.procs q).size) : ∃ n, ∀ m, n ≤ m → Over (σ m) := by
  have hsound := h.sound hs ha
  have hmove : ∀ n, (step env (σ n) (ls n) = .ok none ∧ σ (n + 1) = σ n) ∨
      (step env (σ n) (ls n) = .ok (some (σ (n + 1))) ∧ Move env (σ n) (ls n) (σ (n + 1))) := by
    intro n
    rcases h.next n with h1 | h1
    · exact Or.inr ⟨h1, step_move h1⟩
    · exact Or.inl h1
  have hrank : ∀ n, 0 ≤ n → (σ (n + 1)).rank ≤ (σ n).rank := by
    intro n _
    rcases hmove n with ⟨_, h1⟩ | ⟨_, h1⟩
    · rw [h1]
    · rcases h1.measure (hsound n).inv.pos with h2 | ⟨h2, _⟩
      · exact h2.le
      · exact h2.le
  obtain ⟨n1, _, hn1⟩ := settles (f := fun n => (σ n).rank) hrank
  have htoil : ∀ n, n1 ≤ n → (σ (n + 1)).toil ≤ (σ n).toil := by
    intro n hn
    rcases hmove n with ⟨_, h1⟩ | ⟨_, h1⟩
    · rw [h1]
    · rcases h1.measure (hsound n).inv.pos with h2 | ⟨_, h2 | ⟨h2, _⟩⟩
      · rw [hn1 n hn, hn1 (n + 1) (by omega)] at h2
        omega
      · exact h2.le
      · exact h2.le
  obtain ⟨n2, hn2, htn⟩ := settles (f := fun n => (σ n).toil) htoil
  have hshape : ∀ n, (σ n).nprocs = st₀.nprocs ∧ ∀ q, ((σ n).procs q).size = (st₀.procs q).size := by
    intro n
    induction n with
    | zero => rw [h.start]; exact ⟨rfl, fun _ => rfl⟩
    | succ n ih =>
      rcases hmove n with ⟨_, h1⟩ | ⟨_, h1⟩
      · rw [h1]; exact ih
      · exact ⟨h1.shape.1.trans ih.1, fun q => (h1.shape.2 q).trans (ih.2 q)⟩
  have hstill : Still env σ ls n2 st₀.nprocs (fun q => (st₀.procs q).size) (σ n2).toil := by
    refine ⟨fun m _ => hsound m, htn, fun m _ => (hshape m).1, fun m q _ _ => (hshape m).2 q, fun m hm => ?_, h.thread,
      h.worker, hr⟩
    rcases hmove m with h1 | ⟨h1, h2⟩
    · exact Or.inl h1
    · right
      refine ⟨h1, ?_⟩
      rcases h2.measure (hsound m).inv.pos with h3 | ⟨_, h3 | ⟨_, h3⟩⟩
      · rw [hn1 m (by omega), hn1 (m + 1) (by omega)] at h3
        omega
      · rw [htn m hm, htn (m + 1) (by omega)] at h3
        omega
      · exact h3
  exact ⟨n2, fun m hm => hstill.over hq hsz hm⟩

end

end Mpi
end Hycu
