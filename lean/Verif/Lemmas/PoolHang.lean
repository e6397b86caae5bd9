import Verif.Lemmas.PoolDone

/-!
Every run with threads can hang: the notification of the first thread in the destructor can be lost.
-/

namespace Hycu
namespace Run

variable {env : Env} {kinds : List Bool} {ss : List Sect} {fs : FileSystem}

theorem closing_entry {st st' : State} {a : Option Nat} (ht : Trans env st a st') (h : st.pc.closing = false)
    (h' : st'.pc.closing = true) : st'.pc = .shutdown 0 ∧ st'.thr = st.thr := by
  have key : ∀ {k}, (afterSave k).closing = true → afterSave k = .shutdown 0 := fun {k} hk => by
    cases k with
    | exit => rfl
    | _ => cases hk
  cases ht with
  | saveNone k hpc hf => exact ⟨key h', rfl⟩
  | saveLost k hpc f hf hh => exact ⟨key h', rfl⟩
  | writeEnd k hpc => exact ⟨key h', rfl⟩
  | mainConfig hpc => simp only at h'; split at h' <;> cases h'
  | mainAssign hpc => simp only at h'; split at h' <;> cases h'
  | wait k hpc a ha => simp only at h'; split at h' <;> cases h'
  | fillReady hpc => simp only [fillReadyStep] at h'; split at h' <;> cases h'
  | shutNotify i hpc => rw [hpc] at h; cases h
  | shutdown i hpc hi => rw [hpc] at h; cases h
  | shutdownEnd i hpc hi => rw [hpc] at h; cases h
  | join i hpc hp => rw [hpc] at h; cases h
  | _ => first | (cases h') | (exact absurd (h.symm.trans h') (by simp))

/-- The threads have nothing to do, and they do not know yet that they shall stop. -/
structure Lazy (st : State) : Prop where
  queue : ∀ i, i < st.size → (st.thr i).queue = []
  stop : ∀ i, i < st.size → (st.thr i).stop = false
  phase : ∀ i, i < st.size → (st.thr i).phase = .check ∨ (st.thr i).phase = .wait ∨ (st.thr i).phase = .sleep

/-- The destructor of the pool has been reached. -/
theorem Exec.shutdown {σ : Nat → State} {ls : Nat → Label} (h : Exec env (initial kinds fs (program ss)) σ ls)
    (hk : kinds.length < 4294967296) (hd : ∀ s ∈ ss, s.blocks.Nodup) {n : Nat} (hn : (σ n).pc = .finished) :
    ∃ m, (σ m).pc = .shutdown 0 ∧ Lazy (σ m) := by
  have hex : ∃ m, (σ m).pc.closing = true := ⟨n, by rw [hn]; rfl⟩
  obtain ⟨m, h1, h2⟩ : ∃ m, (σ m).pc.closing = false ∧ (σ (m + 1)).pc.closing = true := by
    by_contra hcon
    have : ∀ m, (σ m).pc.closing = false := by
      intro m
      induction m with
      | zero => rw [h.start]; rfl
      | succ m ih =>
        by_contra h3
        exact hcon ⟨m, ih, by simpa using h3⟩
    obtain ⟨m, hm⟩ := hex
    rw [this m] at hm
    cases hm
  rcases h.next m with h3 | ⟨_, h3⟩
  swap
  · rw [h3, h1] at h2; cases h2
  obtain ⟨h4, h5⟩ := closing_entry (step_trans h3) h1 h2
  have hg := h.good hk hd (m + 1)
  have hi := hg.inv
  have hbusy : (σ (m + 1)).pool.busy = [] := by
    have := hi.book.blocks
    rw [hi.quiet (by rw [h4]; rfl), h4] at this
    exact List.map_eq_nil_iff.1 (List.append_eq_nil_iff.1 this.eq_nil).1
  have hjobs : ∀ i, i < (σ (m + 1)).size → ((σ (m + 1)).thr i).jobs = [] := by
    intro i hlt
    rcases hi.book.own i hlt with h6 | ⟨j, _, h6⟩
    · exact h6.1
    · rw [hbusy] at h6
      cases h6
  have hstop : ∀ i, ((σ (m + 1)).thr i).stop = false := fun i => by
    rw [h5]
    exact (h.good hk hd m).inv.stop h1 i
  refine ⟨m + 1, h4, fun i hlt => (List.append_eq_nil_iff.1 (hjobs i hlt)).2, fun i _ => hstop i, fun i hlt => ?_⟩
  have h6 := hjobs i hlt
  unfold Thread.jobs at h6
  obtain ⟨h6, h7⟩ := List.append_eq_nil_iff.1 h6
  cases hp : ((σ (m + 1)).thr i).phase with
  | check => exact Or.inl rfl
  | wait => exact Or.inr (Or.inl rfl)
  | sleep => exact Or.inr (Or.inr rfl)
  | pop => exact absurd h7 (hi.pop i hp)
  | compute j => rw [hp] at h6; cases h6
  | report j => rw [hp] at h6; cases h6
  | done =>
    have := hi.done i hp
    rw [hstop i] at this
    cases this

theorem step_thread_of {st st' : State} {i : Nat} (hi : i < st.size) (h : threadStep env st i = .ok (some st')) :
    step env st (.thread i) = .ok (some st') := (if_pos hi).trans h

theorem Lazy.set {st : State} (h : Lazy st) (i : Nat) {p : Phase} (hp : p = .check ∨ p = .wait ∨ p = .sleep) :
    Lazy (st.setThread i { st.thr i with phase := p }) := by
  constructor
  · intro j hj
    by_cases e : j = i
    · subst e
      simp only [State.setThread, Function.update_self]
      exact h.queue j hj
    · simp only [State.setThread, Function.update_of_ne e]
      exact h.queue j hj
  · intro j hj
    by_cases e : j = i
    · subst e
      simp only [State.setThread, Function.update_self]
      exact h.stop j hj
    · simp only [State.setThread, Function.update_of_ne e]
      exact h.stop j hj
  · intro j hj
    by_cases e : j = i
    · subst e
      simp only [State.setThread, Function.update_self]
      exact hp
    · simp only [State.setThread, Function.update_of_ne e]
      exact h.phase j hj

theorem Lazy.check {st : State} (h : Lazy st) {i : Nat} (hi : i < st.size) (hp : (st.thr i).phase = .check) :
    step env st (.thread i) = .ok (some (st.setThread i { st.thr i with phase := .wait })) := by
  refine step_thread_of hi ?_
  simp [threadStep, hp, h.stop i hi, h.queue i hi]

theorem step_wait {st : State} {i : Nat} (hi : i < st.size) (hp : (st.thr i).phase = .wait) :
    step env st (.thread i) = .ok (some (st.setThread i { st.thr i with phase := .sleep })) := by
  refine step_thread_of hi ?_
  simp [threadStep, hp]

theorem setThread_phase {st : State} {i j : Nat} {p : Phase} :
    ((st.setThread i { st.thr i with phase := p }).thr j).phase = if j = i then p else (st.thr j).phase := by
  by_cases e : j = i
  · subst e
    simp [State.setThread]
  · simp [State.setThread, e]

/-- All threads go to sleep. -/
theorem Lazy.settle {st₀ st : State} (h : Lazy st) (hr : Reachable env st₀ st) (k : Nat) (hk : k ≤ st.size) :
    ∃ st', Reachable env st₀ st' ∧ Lazy st' ∧ st'.pc = st.pc ∧ st'.size = st.size ∧
      ∀ i, i < k → (st'.thr i).phase = .sleep := by
  induction k with
  | zero => exact ⟨st, hr, h, rfl, rfl, fun i hi => absurd hi (Nat.not_lt_zero i)⟩
  | succ k ih =>
    obtain ⟨s, h1, h2, h3, h4, h5⟩ := ih (by omega)
    have hlt : k < s.size := by omega
    have hw : ∀ s : State, Reachable env st₀ s → Lazy s → s.pc = st.pc → s.size = st.size →
        (∀ i, i < k → (s.thr i).phase = .sleep) → (s.thr k).phase = .wait →
        ∃ st', Reachable env st₀ st' ∧ Lazy st' ∧ st'.pc = st.pc ∧ st'.size = st.size ∧
          ∀ i, i < k + 1 → (st'.thr i).phase = .sleep := by
      intro s h1 h2 h3 h4 h5 hp
      refine ⟨_, .step (.thread k) h1 (step_wait (by omega) hp), h2.set k (Or.inr (Or.inr rfl)), h3, h4, fun i hi => ?_⟩
      rw [setThread_phase]
      split
      · rfl
      · exact h5 i (by omega)
    rcases h2.phase k hlt with hp | hp | hp
    · refine hw _ (.step (.thread k) h1 (h2.check hlt hp)) (h2.set k (Or.inr (Or.inl rfl))) h3 h4 (fun i hi => ?_) ?_
      · rw [setThread_phase, if_neg (by omega)]
        exact h5 i hi
      · rw [setThread_phase, if_pos rfl]
    · exact hw s h1 h2 h3 h4 h5 hp
    · refine ⟨s, h1, h2, h3, h4, fun i hi => ?_⟩
      rcases Nat.lt_succ_iff_lt_or_eq.1 hi with hi | rfl
      · exact h5 i hi
      · exact hp

/-- The main thread waits for the end of the first thread, which sleeps, as all others do. -/
structure Hung (st : State) : Prop where
  pc : st.pc = .join 0
  pos : 0 < st.size
  sleep : ∀ i, i < st.size → (st.thr i).phase = .sleep

theorem Lazy.hung {st₀ st : State} (h : Lazy st) (hr : Reachable env st₀ st) (hpc : st.pc = .shutdown 0) (h0 : 0 < st.size) :
    ∃ st', Reachable env st₀ st' ∧ Hung st' := by
  obtain ⟨s, h1, h2, h3, h4, h5⟩ := h.settle hr st.size (Nat.le_refl _)
  have hs : 0 < s.size := by omega
  have h6 : step env s (.spurious 0) = .ok (some (s.setThread 0 { s.thr 0 with phase := .check })) := by
    simp [step, wake, hs, h5 0 h0]
  have l1 := h2.set 0 (p := .check) (Or.inl rfl)
  have h7 := l1.check (env := env) (i := 0) hs (by rw [setThread_phase, if_pos rfl])
  have l2 := l1.set 0 (p := .wait) (Or.inr (Or.inl rfl))
  have r2 := Reachable.step _ (Reachable.step _ h1 h6) h7
  generalize hu : ((s.setThread 0 { s.thr 0 with phase := .check }).setThread 0
    { (s.setThread 0 { s.thr 0 with phase := .check }).thr 0 with phase := .wait }) = u at l2 r2
  have hpu : u.pc = .shutdown 0 := by rw [← hu]; exact h3.trans hpc
  have hsu : u.size = st.size := by rw [← hu]; exact h4
  have hthr : ∀ i, (u.thr i).phase = if i = 0 then .wait else (s.thr i).phase := by
    intro i
    rw [← hu, setThread_phase]
    split
    · rfl
    · next e => rw [setThread_phase, if_neg e]
  let ch : Choice := ⟨false, true, 0⟩
  have h8 : step env u (.master ch) = .ok (some { u.setThread 0 { u.thr 0 with stop := true } with pc := .shutNotify 0 }) := by
    simp only [step, masterStep, hpu]
    rw [if_pos (by omega)]
  have r3 := Reachable.step _ r2 h8
  generalize hv : { u.setThread 0 { u.thr 0 with stop := true } with pc := Pc.shutNotify 0 } = v at r3
  have hpv : v.pc = .shutNotify 0 := by rw [← hv]
  have hsv : v.size = st.size := by rw [← hv]; exact hsu
  have htv : ∀ i, (v.thr i).phase = if i = 0 then .wait else (s.thr i).phase := by
    intro i
    rw [← hthr, ← hv]
    by_cases e : i = 0
    · subst e
      simp [State.setThread]
    · simp [State.setThread, Function.update_of_ne e]
  have h9 : step env v (.master ch) = .ok (some { v with pc := .join 0 }) := by
    simp only [step, masterStep, hpv, wake]
    rw [if_neg]
    rw [htv 0, if_pos rfl]
    exact fun h => by cases h
  have r4 := Reachable.step _ r3 h9
  have h10 := step_wait (env := env) (st := { v with pc := .join 0 }) (i := 0) (show 0 < v.size by omega)
    (show (v.thr 0).phase = .wait by rw [htv, if_pos rfl])
  refine ⟨_, Reachable.step _ r4 h10, rfl, show 0 < v.size by omega, fun i hi => ?_⟩
  rw [setThread_phase]
  split
  · rfl
  · next e =>
    have hi : i < v.size := hi
    show (v.thr i).phase = .sleep
    rw [htv, if_neg e]
    exact h5 i (by omega)

theorem Hung.thread {st : State} (h : Hung st) (i : Nat) : step env st (.thread i) = .ok none := by
  by_cases hi : i < st.size
  · refine (if_pos hi).trans ?_
    simp [threadStep, h.sleep i hi]
  · exact if_neg hi

theorem Hung.master {st : State} (h : Hung st) (ch : Choice) : step env st (.master ch) = .ok none := by
  simp only [step, masterStep, h.pc]
  rw [if_neg]
  rw [h.sleep 0 h.pos]
  exact fun h => by cases h

/-- An execution up to a state. -/
theorem Reachable.path {st₀ st : State} (h : Reachable env st₀ st) : ∃ (N : Nat) (σ : Nat → State) (ls : Nat → Label),
    σ 0 = st₀ ∧ (∀ n, n < N → Run.step env (σ n) (ls n) = .ok (some (σ (n + 1)))) ∧ ∀ n, N ≤ n → σ n = st := by
  induction h with
  | refl => exact ⟨0, fun _ => st₀, fun _ => .thread 0, rfl, fun n hn => absurd hn (Nat.not_lt_zero n), fun _ _ => rfl⟩
  | @step s s' l _ hs ih =>
    obtain ⟨N, σ, ls, h1, h2, h3⟩ := ih
    refine ⟨N + 1, fun n => if n ≤ N then σ n else s', fun n => if n < N then ls n else l, ?_, fun n hn => ?_, fun n hn => ?_⟩
    · beta_reduce
      rw [if_pos (Nat.zero_le _), h1]
    · beta_reduce
      rw [if_pos (by omega)]
      by_cases e : n < N
      · rw [if_pos e, if_pos (by omega)]
        exact h2 n e
      · rw [if_neg e, if_neg (by omega), h3 n (by omega)]
        exact hs
    · beta_reduce
      rw [if_neg (by omega)]

/-- An execution in which nothing happens any more. -/
theorem Hung.exec {st₀ st : State} (h : Hung st) (hr : Reachable env st₀ st) :
    ∃ σ ls, Exec env st₀ σ ls ∧ Renewing σ ls ∧ ∃ N, ∀ n, N ≤ n → σ n = st := by
  obtain ⟨N, σ, ls, h1, h2, h3⟩ := hr.path
  let turn : Nat → Label := fun n => match n % (st₀.size + 1) with
    | 0 => .master ⟨false, true, 0⟩
    | i + 1 => .thread i
  have ht : ∀ i, i < st₀.size + 1 → ∀ n, ∃ m, n ≤ m ∧ N ≤ m ∧ m % (st₀.size + 1) = i := by
    intro i hi n
    refine ⟨(st₀.size + 1) * (n + N) + i, ?_, ?_, ?_⟩
    · nlinarith [Nat.zero_le st₀.size, Nat.zero_le (st₀.size * (n + N))]
    · nlinarith [Nat.zero_le st₀.size, Nat.zero_le (st₀.size * (n + N))]
    · rw [Nat.mul_add_mod]
      exact Nat.mod_eq_of_lt hi
  have hm : ∀ n, ∃ m, n ≤ m ∧ N ≤ m ∧ (if m < N then ls m else turn m) = .master ⟨false, true, 0⟩ := by
    intro n
    obtain ⟨m, h4, h5, h6⟩ := ht 0 (by omega) n
    refine ⟨m, h4, h5, ?_⟩
    rw [if_neg (by omega)]
    simp only [turn, h6]
  refine ⟨σ, fun n => if n < N then ls n else turn n, ⟨h1, fun n => ?_, fun i hi n => ?_, fun n => ?_⟩, fun n => ?_, N, h3⟩
  · by_cases hn : n < N
    · simp only [if_pos hn]
      exact Or.inl (h2 n hn)
    · simp only [if_neg hn]
      rw [h3 n (by omega), h3 (n + 1) (by omega)]
      refine Or.inr ⟨?_, rfl⟩
      simp only [turn]
      split
      · exact h.master _
      · exact h.thread _
  · obtain ⟨m, h4, h5, h6⟩ := ht (i + 1) (by omega) n
    refine ⟨m, h4, ?_⟩
    rw [if_neg (by omega)]
    simp only [turn, h6]
  · obtain ⟨m, h4, _, h5⟩ := hm n
    exact ⟨m, h4, _, h5⟩
  · obtain ⟨m, h4, h6, h5⟩ := hm n
    refine ⟨m, h4, _, h5, fun k f d hp => ?_⟩
    rw [h3 m h6, h.pc] at hp
    cases hp

end Run
end Hycu
