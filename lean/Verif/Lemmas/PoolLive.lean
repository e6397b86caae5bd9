import Verif.Lemmas.PoolLog

/-!
Steps that do not fail, and threads that sleep.
-/

namespace Hycu
namespace Run

theorem verify_ok (c : ConfigNode) (fs : FileSystem) (b : Bool) : ∃ v, c.verify fs (.ok b) = .ok v := by
  unfold ConfigNode.verify
  split
  · split
    · exact ⟨_, rfl⟩
    · cases b <;> exact ⟨_, rfl⟩
  · exact ⟨_, rfl⟩

theorem map_ok {α β : Type} {f : α → β} {x : Res α} (h : ∃ a, x = .ok a) : ∃ o, f <$> x = .ok o := by
  obtain ⟨a, rfl⟩ := h
  exact ⟨f a, rfl⟩

/-- Only the computation of a block and reading record files can fail. -/
theorem Inv.step_ok {st : State} (h : Inv st) (env : Env) (l : Label) :
    (∃ o, step env st l = .ok o) ∨ (∃ i j, l = .thread i ∧ i < st.size ∧ (st.thr i).phase = .compute j) ∨
      ∃ ch, l = .master ch ∧ st.pc = .newStore := by
  cases l with
  | spurious i =>
    left
    simp only [step]
    split <;> exact ⟨_, rfl⟩
  | thread i =>
    simp only [step]
    split
    · rename_i hi
      unfold threadStep
      simp only
      split
      · left
        split
        · exact ⟨_, rfl⟩
        · split <;> exact ⟨_, rfl⟩
      · exact Or.inl ⟨_, rfl⟩
      · exact Or.inl ⟨_, rfl⟩
      · rename_i hp
        split
        · rename_i hq
          exact absurd hq (h.pop i hp)
        · exact Or.inl ⟨_, rfl⟩
      · rename_i j hp
        exact Or.inr (Or.inl ⟨i, j, rfl, hi, hp⟩)
      · rename_i j hp
        obtain ⟨_, p, h1, _⟩ := h.report hi hp
        left
        exact ⟨_, by rw [h1]; rfl⟩
      · exact Or.inl ⟨_, rfl⟩
    · exact Or.inl ⟨_, rfl⟩
  | master ch =>
    simp only [step]
    unfold masterStep
    split
    · left
      refine map_ok ?_
      unfold mainStep
      split
      · exact ⟨_, rfl⟩
      · rename_i c _ _
        obtain ⟨v, hv⟩ := verify_ok c st.fs ch.create
        exact ⟨_, by rw [hv]; rfl⟩
      · exact ⟨_, rfl⟩
    · rename_i k hpc
      obtain ⟨a, ha, _⟩ := h.flush (by rw [hpc]; rfl) (by rw [hpc]; rfl)
      left
      refine map_ok ?_
      unfold waitStep flushFinished
      rw [ha]
      exact ⟨_, rfl⟩
    · exact Or.inl ⟨_, rfl⟩
    · exact Or.inl ⟨_, rfl⟩
    · exact Or.inl ⟨_, rfl⟩
    · rename_i hpc
      exact Or.inr (Or.inr ⟨ch, rfl, hpc⟩)
    · left
      split <;> exact ⟨_, rfl⟩
    · left
      split
      · rename_i b rest ht
        refine map_ok ?_
        obtain ⟨f, hf⟩ := Option.ne_none_iff_exists'.1 (h.store (by rw [ht]; simp [lead])).1
        unfold containsStep
        rw [hf]
        simp only
        split
        · exact ⟨_, rfl⟩
        · split <;> exact ⟨_, rfl⟩
      · exact ⟨_, rfl⟩
    · rename_i hpc
      obtain ⟨a, ha, _⟩ := h.flush (by rw [hpc]; rfl) (by rw [hpc]; rfl)
      left
      unfold flushFinished
      rw [ha]
      exact ⟨_, rfl⟩
    · exact Or.inl ⟨_, rfl⟩
    · rename_i hpc
      left
      split
      · rename_i b rest ht
        refine map_ok ?_
        unfold takeStep
        by_cases ho : st.nmbOpencl = 0
        · obtain ⟨p, hp, _⟩ := h.takeCpu hpc ht ho
          rw [if_neg (by simpa using ho), hp]
          exact ⟨_, rfl⟩
        · obtain ⟨p, hp, _⟩ := h.takeOpencl hpc ht ho
          rw [if_pos ho, hp]
          exact ⟨_, rfl⟩
      · exact ⟨_, rfl⟩
    · exact Or.inl ⟨_, rfl⟩
    · exact Or.inl ⟨_, rfl⟩
    · left
      split <;> exact ⟨_, rfl⟩
    · exact Or.inl ⟨_, rfl⟩
    · left
      split <;> exact ⟨_, rfl⟩
    · exact Or.inl ⟨_, rfl⟩

theorem setThread_other {st : State} {i k : Nat} (t : Thread) (h : i ≠ k) : (st.setThread k t).thr i = st.thr i := by
  simp only [State.setThread]
  rw [Function.update_of_ne h]

theorem setThread_self (st : State) (i : Nat) (t : Thread) : (st.setThread i t).thr i = t := by
  simp only [State.setThread]
  rw [Function.update_self]

/-- Steps of other threads. -/
theorem trans_other {env : Env} {st st' : State} {a : Option Nat} (ht : Trans env st a st') {i k : Nat}
    (ha : a = some k) (hik : i ≠ k) : st'.thr i = st.thr i ∧ st'.pc = st.pc ∧ st'.todo = st.todo := by
  cases ht <;> first | (cases ha; exact ⟨setThread_other _ hik, rfl, rfl⟩) | cases ha

/-- A thread with a job is not idle: it is busy. -/
theorem Inv.busy {st : State} (h : Inv st) {i : Nat} (hi : i < st.size) (hj : (st.thr i).jobs ≠ []) :
    st.pc.quiet = false ∧ i ∉ st.pool.idle := by
  refine ⟨?_, fun hm => ?_⟩
  · by_contra hq
    exact hj ((h.noJobs (by simpa using hq)).2.2 i hi)
  · rcases h.book.own i hi with ⟨h1, _⟩ | ⟨j, _, h2⟩
    · exact hj h1
    · exact (List.nodup_append.1 h.book.nodup).2.2 i (List.mem_append_left _ hm) i
        (List.mem_map.2 ⟨_, OMap.mem_of_find? h2, rfl⟩) rfl

theorem jobs_of_queue {t : Thread} (h : t.queue ≠ []) : t.jobs ≠ [] := by
  unfold Thread.jobs
  intro hn
  exact h (List.append_eq_nil_iff.1 hn).2

theorem Inv.running {st : State} (h : Inv st) {i : Nat} (hi : i < st.size) (hj : (st.thr i).jobs ≠ []) :
    (st.thr i).stop = false := by
  refine h.stop ?_ i
  have := (h.busy hi hj).1
  revert this
  cases st.pc <;> simp [Pc.quiet, Pc.closing]

/-- What the main thread does with a thread that has a queued block. -/
theorem master_queued {env : Env} {st st' : State} (h : Inv st) (ht : Trans env st none st') {i : Nat}
    (hi : i < st.size) (hq : (st.thr i).queue ≠ []) :
    (st'.thr i).queue = (st.thr i).queue ∧ (∀ b, st'.pc ≠ .notify i b) ∧
      ((st'.thr i).phase = (st.thr i).phase ∨ ((st.thr i).phase = .sleep ∧ (st'.thr i).phase = .check ∧
        ∃ b, st.pc = .notify i b)) := by
  have hjobs := jobs_of_queue hq
  obtain ⟨hnq, hni⟩ := h.busy hi hjobs
  have hwake : ∀ k, (∃ b, st.pc = .notify k b) → ((wake st k).thr i).queue = (st.thr i).queue ∧
      (((wake st k).thr i).phase = (st.thr i).phase ∨ ((st.thr i).phase = .sleep ∧ ((wake st k).thr i).phase = .check ∧
        ∃ b, st.pc = .notify i b)) := by
    intro k hk
    unfold wake
    split
    · rename_i hp
      by_cases hik : i = k
      · subst hik
        rw [setThread_self]
        exact ⟨rfl, Or.inr ⟨hp, rfl, hk⟩⟩
      · rw [setThread_other _ hik]
        exact ⟨rfl, Or.inl rfl⟩
    · exact ⟨rfl, Or.inl rfl⟩
  cases ht with
  | update hpc c rest ht => exact ⟨rfl, by simp [updateStep], Or.inl rfl⟩
  | takeOpencl hpc b rest ht ho p hp =>
    obtain ⟨p', h1, _, _, h2, _⟩ := h.takeOpencl hpc ht ho
    rw [hp] at h1
    cases h1
    have hne : i ≠ p.2 := by rintro rfl; exact hni h2
    unfold pushJob
    simp only
    rw [setThread_other _ hne]
    refine ⟨rfl, fun b' hb' => ?_, Or.inl rfl⟩
    cases hb'
    exact hne rfl
  | takeCpu hpc b rest ht ho p hp =>
    obtain ⟨p', h1, _, _, h2, _⟩ := h.takeCpu hpc ht ho
    rw [hp] at h1
    cases h1
    have hne : i ≠ p.2 := by rintro rfl; exact hni h2
    unfold pushJob
    simp only
    rw [setThread_other _ hne]
    refine ⟨rfl, fun b' hb' => ?_, Or.inl rfl⟩
    cases hb'
    exact hne rfl
  | notify k b hpc =>
    obtain ⟨h1, h2⟩ := hwake k ⟨b, hpc⟩
    exact ⟨h1, by simp, h2⟩
  | shutdown k hpc hk => rw [hpc] at hnq; cases hnq
  | shutNotify k hpc => rw [hpc] at hnq; cases hnq
  | mainConfig => exact ⟨rfl, by simp only; split <;> simp, Or.inl rfl⟩
  | mainAssign => exact ⟨rfl, by simp only; split <;> simp, Or.inl rfl⟩
  | wait => exact ⟨rfl, by simp only; split <;> simp, Or.inl rfl⟩
  | saveNone k => exact ⟨rfl, by cases k <;> simp [afterSave], Or.inl rfl⟩
  | saveLost k => exact ⟨rfl, by cases k <;> simp [afterSave], Or.inl rfl⟩
  | writeEnd k => exact ⟨rfl, by cases k <;> simp [afterSave], Or.inl rfl⟩
  | fillReady => exact ⟨rfl, by simp only [fillReadyStep]; split <;> simp, Or.inl rfl⟩
  | _ => exact ⟨rfl, by simp, Or.inl rfl⟩

theorem Asleep.step {env : Env} {st st' : State} {i : Nat} (h : Asleep i st) (hi : Inv st) {l : Label}
    (hl : l ≠ .spurious i) (hs : step env st l = .ok (some st')) : Asleep i st' := by
  have ht := step_trans hs
  have hsz := trans_size ht
  cases l with
  | thread k =>
    by_cases hik : i = k
    · subst hik
      simp only [Run.step, if_pos h.lt, threadStep, h.sleep] at hs
      cases hs
    · obtain ⟨h1, h2, _⟩ := trans_other ht rfl hik
      exact ⟨by rw [hsz]; exact h.lt, by rw [h1]; exact h.sleep, by rw [h1]; exact h.queue, by rw [h2]; exact h.missed⟩
  | spurious k =>
    have hik : i ≠ k := by rintro rfl; exact hl rfl
    obtain ⟨h1, h2, _⟩ := trans_other ht rfl hik
    exact ⟨by rw [hsz]; exact h.lt, by rw [h1]; exact h.sleep, by rw [h1]; exact h.queue, by rw [h2]; exact h.missed⟩
  | master ch =>
    obtain ⟨h1, h2, h3⟩ := master_queued hi ht h.lt h.queue
    refine ⟨by rw [hsz]; exact h.lt, ?_, by rw [h1]; exact h.queue, h2⟩
    rcases h3 with h3 | ⟨_, _, b, hb⟩
    · rw [h3, h.sleep]
    · exact absurd hb (h.missed b)

/-- A thread that sleeps or is about to has no block, unless it is about to be notified; similarly for the flag to
stop. -/
structure AwakeInv (st : State) : Prop where
  queue : ∀ i, ((st.thr i).phase = .wait ∨ (st.thr i).phase = .sleep) → (st.thr i).queue ≠ [] → ∃ b, st.pc = .notify i b
  stop : ∀ i, ((st.thr i).phase = .wait ∨ (st.thr i).phase = .sleep) → (st.thr i).stop = true → st.pc = .shutNotify i

theorem AwakeInv.congr {st st' : State} (h : AwakeInv st) (h1 : st'.thr = st.thr)
    (h2 : (∃ i b, st.pc = .notify i b) → st'.pc = st.pc) (h3 : (∃ i, st.pc = .shutNotify i) → st'.pc = st.pc) :
    AwakeInv st' := by
  refine ⟨fun i hp hq => ?_, fun i hp hs => ?_⟩
  · rw [h1] at hp hq
    obtain ⟨b, hb⟩ := h.queue i hp hq
    exact ⟨b, by rw [h2 ⟨i, b, hb⟩, hb]⟩
  · rw [h1] at hp hs
    have := h.stop i hp hs
    rw [h3 ⟨i, this⟩, this]

theorem AwakeInv.phase {st st' : State} (h : AwakeInv st) {i : Nat} {t : Thread} (h1 : st'.thr = (st.setThread i t).thr)
    (h2 : st'.pc = st.pc) (h3 : (t.phase = .wait ∨ t.phase = .sleep) → (t.queue ≠ [] → ∃ b, st.pc = .notify i b) ∧
      (t.stop = true → st.pc = .shutNotify i)) : AwakeInv st' := by
  refine ⟨?_, ?_⟩
  · rw [h1, h2]
    exact setThread_cases (P := fun i t => (t.phase = .wait ∨ t.phase = .sleep) → t.queue ≠ [] → ∃ b, st.pc = .notify i b)
      h.queue fun hp => (h3 hp).1
  · rw [h1, h2]
    exact setThread_cases (P := fun i t => (t.phase = .wait ∨ t.phase = .sleep) → t.stop = true → st.pc = .shutNotify i)
      h.stop fun hp => (h3 hp).2

theorem AwakeInv.wake {st : State} (h : AwakeInv st) {i : Nat} {pc : Pc}
    (hpc : st.pc = .shutNotify i ∨ ∃ b, st.pc = .notify i b) (ha : (st.thr i).phase ≠ .wait) :
    AwakeInv { wake st i with pc := pc } := by
  have key : ∀ k, (((Run.wake st i).thr k).phase = .wait ∨ ((Run.wake st i).thr k).phase = .sleep) → k ≠ i ∧
      (Run.wake st i).thr k = st.thr k := by
    intro k hk
    unfold Run.wake at hk ⊢
    split at hk
    · rename_i hp
      rw [if_pos hp]
      by_cases hki : k = i
      · subst hki
        rw [setThread_self] at hk
        rcases hk with hk | hk <;> cases hk
      · exact ⟨hki, setThread_other _ hki⟩
    · rename_i hp
      rw [if_neg hp]
      refine ⟨?_, rfl⟩
      rintro rfl
      rcases hk with hk | hk
      · exact ha hk
      · exact hp hk
  refine ⟨fun k hp hq => ?_, fun k hp hs => ?_⟩
  · obtain ⟨h1, h2⟩ := key k hp
    simp only [h2] at hp hq
    obtain ⟨b, hb⟩ := h.queue k hp hq
    rcases hpc with hpc | ⟨b', hpc⟩
    · rw [hpc] at hb; cases hb
    · rw [hpc] at hb; cases hb; exact absurd rfl h1
  · obtain ⟨h1, h2⟩ := key k hp
    simp only [h2] at hp hs
    have hb := h.stop k hp hs
    rcases hpc with hpc | ⟨b', hpc⟩
    · rw [hpc] at hb; cases hb; exact absurd rfl h1
    · rw [hpc] at hb; cases hb

theorem AwakeInv.push {st st' : State} (h : AwakeInv st) (hpc : st.pc = .take) (i : Nat) (b : Block)
    (h1 : st'.thr = st.thr) : AwakeInv (pushJob st' i b) := by
  refine ⟨?_, ?_⟩
  · refine setThread_cases' (st := st') (P := fun k t => (t.phase = .wait ∨ t.phase = .sleep) → t.queue ≠ [] →
      ∃ b', Pc.notify i b = .notify k b') (fun k _ hp hq => ?_) fun _ _ => ⟨b, rfl⟩
    rw [h1] at hp hq
    obtain ⟨b', hb⟩ := h.queue k hp hq
    rw [hpc] at hb
    cases hb
  · have : ∀ k, ((st.thr k).phase = .wait ∨ (st.thr k).phase = .sleep) → (st.thr k).stop = true →
        Pc.notify i b = .shutNotify k := by
      intro k hp hs
      have hb := h.stop k hp hs
      rw [hpc] at hb
      cases hb
    refine setThread_cases (st := st') (P := fun k t => (t.phase = .wait ∨ t.phase = .sleep) → t.stop = true →
      Pc.notify i b = .shutNotify k) (by rw [h1]; exact this) ?_
    simp only [h1]
    exact this i

theorem AwakeInv.step {env : Env} {st st' : State} {l : Label} (h : AwakeInv st) (hl : Alert st l)
    (hs : step env st l = .ok (some st')) : AwakeInv st' := by
  have ht := step_trans hs
  have hal : l.actor = none → ∀ i, (st.pc = .shutNotify i ∨ ∃ b, st.pc = .notify i b) → (st.thr i).phase ≠ .wait := by
    intro ha
    cases l with
    | master ch => exact hl
    | _ => cases ha
  revert hal
  generalize l.actor = a at ht
  intro hal
  clear hs hl
  cases ht with
  | checkDone i hi hp hs => exact h.phase rfl rfl (by rintro (h | h) <;> cases h)
  | checkWait i hi hp hs hq =>
    exact h.phase rfl rfl fun _ => ⟨fun h => absurd hq h, fun h => by rw [hs] at h; cases h⟩
  | checkPop i hi hp hs hq => exact h.phase rfl rfl (by rintro (h | h) <;> cases h)
  | doze i hi hp => exact h.phase rfl rfl fun _ => ⟨h.queue i (Or.inl hp), h.stop i (Or.inl hp)⟩
  | pop i hi hp j q hq => exact h.phase rfl rfl (by rintro (h | h) <;> cases h)
  | compute i hi j hp tb htb m hm p hf => exact h.phase rfl rfl (by rintro (h | h) <;> cases h)
  | report i hi j hp p hf => exact h.phase rfl rfl (by rintro (h | h) <;> cases h)
  | spurious i hi hp => exact h.phase rfl rfl (by rintro (h | h) <;> cases h)
  | update hpc c rest ht =>
    refine ⟨fun i hp hq => ?_, fun i hp hs => ?_⟩
    · obtain ⟨b, hb⟩ := h.queue i hp hq
      rw [hpc] at hb; cases hb
    · have hb := h.stop i hp hs
      rw [hpc] at hb; cases hb
  | takeOpencl hpc b rest ht ho p hp => exact h.push hpc _ _ rfl
  | takeCpu hpc b rest ht ho p hp => exact h.push hpc _ _ rfl
  | notify i b hpc => exact h.wake (Or.inr ⟨b, hpc⟩) (hal rfl i (Or.inr ⟨b, hpc⟩))
  | shutNotify i hpc => exact h.wake (Or.inl hpc) (hal rfl i (Or.inl hpc))
  | shutdown i hpc hi =>
    refine ⟨?_, ?_⟩
    · have : ∀ k, ((st.thr k).phase = .wait ∨ (st.thr k).phase = .sleep) → (st.thr k).queue ≠ [] →
          ∃ b, Pc.shutNotify i = .notify k b := by
        intro k hp hq
        obtain ⟨b, hb⟩ := h.queue k hp hq
        rw [hpc] at hb; cases hb
      exact setThread_cases (st := st) (P := fun k t => (t.phase = .wait ∨ t.phase = .sleep) → t.queue ≠ [] →
        ∃ b, Pc.shutNotify i = .notify k b) this (this i)
    · refine setThread_cases' (st := st) (P := fun k t => (t.phase = .wait ∨ t.phase = .sleep) → t.stop = true →
        Pc.shutNotify i = .shutNotify k) (fun k _ hp hs => ?_) fun _ _ => rfl
      have hb := h.stop k hp hs
      rw [hpc] at hb; cases hb
  | mainEnd hpc | mainConfig hpc | mainAssign hpc | fillFinished hpc | fillReady hpc | newStoreInvalid hpc
  | newStore hpc | skip hpc | fill hpc | noFill hpc =>
    exact h.congr rfl (by rintro ⟨i, b, hb⟩; rw [hpc] at hb; cases hb) (by rintro ⟨i, hb⟩; rw [hpc] at hb; cases hb)
  | wait k hpc | saveNone k hpc | saveLost k hpc | saveStart k hpc | writeEnd k hpc | insert k hpc
  | shutdownEnd k hpc | join k hpc =>
    exact h.congr rfl (by rintro ⟨i, b, hb⟩; rw [hpc] at hb; cases hb) (by rintro ⟨i, hb⟩; rw [hpc] at hb; cases hb)
  | writeLost k n c ws hpc | write k n c ws hpc =>
    exact h.congr rfl (by rintro ⟨i, b, hb⟩; rw [hpc] at hb; cases hb) (by rintro ⟨i, hb⟩; rw [hpc] at hb; cases hb)

theorem AwakeInv.init (kinds : List Bool) (fs : FileSystem) (todo : List Cmd) : AwakeInv (initial kinds fs todo) :=
  ⟨fun i h => (by rcases h with h | h <;> cases h), fun i h => (by rcases h with h | h <;> cases h)⟩

/-- The main thread changes the phase of a thread only by waking it up. -/
theorem master_phase {env : Env} {st st' : State} (ht : Trans env st none st') {i : Nat}
    (hp : (st.thr i).phase ≠ .sleep) : (st'.thr i).phase = (st.thr i).phase := by
  have hwake : ∀ k, ((wake st k).thr i).phase = (st.thr i).phase := by
    intro k
    unfold wake
    split
    · rename_i hk
      by_cases hik : i = k
      · subst hik; exact absurd hk hp
      · rw [setThread_other _ hik]
    · rfl
  have hset : ∀ (st : State) (k : Nat) (t : Thread), t.phase = (st.thr k).phase →
      ((st.setThread k t).thr i).phase = (st.thr i).phase := by
    intro st k t h
    by_cases hik : i = k
    · subst hik; rw [setThread_self, h]
    · rw [setThread_other _ hik]
  cases ht with
  | notify k b hpc => exact hwake k
  | shutNotify k hpc => exact hwake k
  | takeOpencl hpc b rest ht ho p hp => exact hset _ _ _ rfl
  | takeCpu hpc b rest ht ho p hp => exact hset _ _ _ rfl
  | shutdown k hpc hk => exact hset st k { st.thr k with stop := true } rfl
  | _ => rfl

theorem leads {σ : Nat → State} {L : Nat → Prop} {P Q : State → Prop} (hL : ∀ n, ∃ m, n ≤ m ∧ L m)
    (h1 : ∀ m, P (σ m) → ¬ L m → P (σ (m + 1)) ∨ Q (σ (m + 1))) (h2 : ∀ m, P (σ m) → L m → Q (σ (m + 1)))
    {n : Nat} (h : P (σ n)) : ∃ m, n ≤ m ∧ Q (σ m) := by
  obtain ⟨m, hm, hLm⟩ := hL n
  obtain ⟨d, rfl⟩ := Nat.exists_eq_add_of_le hm
  clear hm
  induction d generalizing n with
  | zero => exact ⟨n + 1, Nat.le_succ _, h2 n h hLm⟩
  | succ d ih =>
    by_cases hn : L n
    · exact ⟨n + 1, Nat.le_succ _, h2 n h hn⟩
    · rcases h1 n h hn with h | h
      · obtain ⟨m, h3, h4⟩ := ih h (by rw [Nat.add_assoc, Nat.add_comm 1 d]; exact hLm)
        exact ⟨m, by omega, h4⟩
      · exact ⟨n + 1, Nat.le_succ _, h⟩

namespace Exec

variable {env : Env} {kinds : List Bool} {ss : List Sect} {fs : FileSystem} {σ : Nat → State} {ls : Nat → Label}

theorem good (h : Exec env (initial kinds fs (program ss)) σ ls) (hk : kinds.length < 4294967296)
    (hd : ∀ s ∈ ss, s.blocks.Nodup) (n : Nat) : Good env kinds ss (σ n) := by
  induction n with
  | zero => rw [h.start]; exact Good.init env hk fs hd
  | succ n ih =>
    rcases h.next n with h1 | ⟨_, h1⟩
    · exact ih.trans (step_trans h1)
    · rw [h1]; exact ih

theorem awake (h : Exec env (initial kinds fs (program ss)) σ ls) (ha : ∀ n, Alert (σ n) (ls n)) (n : Nat) :
    AwakeInv (σ n) := by
  induction n with
  | zero => rw [h.start]; exact AwakeInv.init _ _ _
  | succ n ih =>
    rcases h.next n with h1 | ⟨_, h1⟩
    · exact ih.step (ha n) h1
    · rw [h1]; exact ih

/-- A stage of the work on a job: it ends with a step of the thread. -/
theorem stage (h : Exec env (initial kinds fs (program ss)) σ ls) {i : Nat} (hi : i < kinds.length)
    {P Q : State → Prop} (hP : ∀ n, P (σ n) → (σ (n + 1)).thr i = (σ n).thr i → P (σ (n + 1)))
    (hm : ∀ n, P (σ n) → Trans env (σ n) none (σ (n + 1)) → P (σ (n + 1)))
    (hsp : ∀ n, P (σ n) → ((σ n).thr i).phase ≠ .sleep)
    (hQ : ∀ n, P (σ n) → step env (σ n) (.thread i) = .ok (some (σ (n + 1))) → Q (σ (n + 1)))
    (hne : ∀ n, P (σ n) → step env (σ n) (.thread i) ≠ .ok none) {n : Nat} (hn : P (σ n)) :
    ∃ m, n ≤ m ∧ Q (σ m) := by
  refine leads (L := fun m => ls m = .thread i) (h.thread i hi) (fun m hp hl => ?_) (fun m hp hl => ?_) hn
  · left
    rcases h.next m with h1 | ⟨_, h1⟩
    · have ht := step_trans h1
      cases hlm : ls m with
      | thread k =>
        rw [hlm] at ht
        exact hP m hp (trans_other ht rfl (by rintro rfl; exact hl hlm)).1
      | master ch => rw [hlm] at ht; exact hm m hp ht
      | spurious k =>
        rw [hlm] at ht h1
        by_cases hik : i = k
        · subst hik
          simp only [Run.step, if_neg (fun h : i < (σ m).size ∧ _ => hsp m hp h.2)] at h1
          cases h1
        · exact hP m hp (trans_other ht rfl hik).1
    · exact hP m hp (by rw [h1])
  · rcases h.next m with h1 | ⟨h1, _⟩
    · rw [hl] at h1
      exact hQ m hp h1
    · rw [hl] at h1
      exact absurd h1 (hne m hp)

/-- The block that a thread computes is reported. -/
theorem report (h : Exec env (initial kinds fs (program ss)) σ ls) (hk : kinds.length < 4294967296)
    (hd : ∀ s ∈ ss, s.blocks.Nodup) {i : Nat} (hi : i < kinds.length) {j : Job} {n : Nat}
    (hn : ((σ n).thr i).phase = .report j) : ∃ m, n ≤ m ∧ (i, j) ∈ reportedJobs (σ m).log := by
  refine h.stage hi (P := fun st => (st.thr i).phase = .report j)
    (Q := fun st => (i, j) ∈ reportedJobs st.log) (fun m hp h1 => by rw [h1]; exact hp)
    (fun m hp ht => ?_) (fun m hp => by rw [hp]; simp) (fun m hp hs => ?_) (fun m hp hs => ?_) hn
  · rw [master_phase ht (by rw [hp]; simp), hp]
  · have hsz : i < (σ m).size := by rw [(h.good hk hd m).size]; exact hi
    simp only [Run.step, if_pos hsz, threadStep, hp] at hs
    obtain ⟨p, _, hs⟩ := Res.bind_eq_ok.1 hs
    have hs := (Option.some.inj (Res.ok.inj hs)).symm
    rw [hs]
    exact List.mem_cons_self
  · have hsz : i < (σ m).size := by rw [(h.good hk hd m).size]; exact hi
    simp only [Run.step, if_pos hsz, threadStep, hp] at hs
    obtain ⟨p, _, hs⟩ := Res.bind_eq_ok.1 hs
    cases hs

theorem compute (h : Exec env (initial kinds fs (program ss)) σ ls) (hk : kinds.length < 4294967296)
    (hd : ∀ s ∈ ss, s.blocks.Nodup) {i : Nat} (hi : i < kinds.length) {j : Job} {n : Nat}
    (hn : ((σ n).thr i).phase = .compute j) : ∃ m, n ≤ m ∧ ((σ m).thr i).phase = .report j := by
  refine h.stage hi (P := fun st => (st.thr i).phase = .compute j) (Q := fun st => (st.thr i).phase = .report j)
    (fun m hp h1 => by rw [h1]; exact hp)
    (fun m hp ht => ?_) (fun m hp => by rw [hp]; simp) (fun m hp hs => ?_) (fun m hp hs => ?_) hn
  · rw [master_phase ht (by rw [hp]; simp), hp]
  · have hsz : i < (σ m).size := by rw [(h.good hk hd m).size]; exact hi
    simp only [Run.step, if_pos hsz, threadStep, hp] at hs
    split at hs
    · cases hs
    · obtain ⟨_, _, hs⟩ := Res.bind_eq_ok.1 hs
      obtain ⟨p, _, hs⟩ := Res.bind_eq_ok.1 hs
      have hs := (Option.some.inj (Res.ok.inj hs)).symm
      rw [hs, setThread_self]
  · have hsz : i < (σ m).size := by rw [(h.good hk hd m).size]; exact hi
    simp only [Run.step, if_pos hsz, threadStep, hp] at hs
    split at hs
    · cases hs
    · obtain ⟨_, _, hs⟩ := Res.bind_eq_ok.1 hs
      obtain ⟨p, _, hs⟩ := Res.bind_eq_ok.1 hs
      cases hs

theorem pop (h : Exec env (initial kinds fs (program ss)) σ ls) (hk : kinds.length < 4294967296)
    (hd : ∀ s ∈ ss, s.blocks.Nodup) {i : Nat} (hi : i < kinds.length) {j : Job} {n : Nat}
    (hn : ((σ n).thr i).phase = .pop ∧ ((σ n).thr i).queue = [j]) : ∃ m, n ≤ m ∧ ((σ m).thr i).phase = .compute j := by
  have hsz : ∀ m, i < (σ m).size := fun m => by rw [(h.good hk hd m).size]; exact hi
  refine h.stage hi (P := fun st => (st.thr i).phase = .pop ∧ (st.thr i).queue = [j])
    (Q := fun st => (st.thr i).phase = .compute j) (fun m hp h1 => by rw [h1]; exact hp)
    (fun m hp ht => ?_) (fun m hp => by rw [hp.1]; simp) (fun m hp hs => ?_) (fun m hp hs => ?_) hn
  · have := master_queued (h.good hk hd m).inv ht (hsz m) (by rw [hp.2]; simp)
    rw [master_phase ht (by rw [hp.1]; simp), this.1]
    exact hp
  · simp only [Run.step, if_pos (hsz m), threadStep, hp.1, hp.2] at hs
    have hs := (Option.some.inj (Res.ok.inj hs)).symm
    rw [hs, setThread_self]
  · simp only [Run.step, if_pos (hsz m), threadStep, hp.1, hp.2] at hs
    cases hs

theorem check (h : Exec env (initial kinds fs (program ss)) σ ls) (hk : kinds.length < 4294967296)
    (hd : ∀ s ∈ ss, s.blocks.Nodup) {i : Nat} (hi : i < kinds.length) {j : Job} {n : Nat}
    (hn : ((σ n).thr i).phase = .check ∧ ((σ n).thr i).queue = [j]) :
    ∃ m, n ≤ m ∧ ((σ m).thr i).phase = .pop ∧ ((σ m).thr i).queue = [j] := by
  have hsz : ∀ m, i < (σ m).size := fun m => by rw [(h.good hk hd m).size]; exact hi
  have hstop : ∀ m, ((σ m).thr i).queue = [j] → ((σ m).thr i).stop = false := fun m hq =>
    (h.good hk hd m).inv.running (hsz m) (jobs_of_queue (by rw [hq]; simp))
  refine h.stage hi (P := fun st => (st.thr i).phase = .check ∧ (st.thr i).queue = [j])
    (Q := fun st => (st.thr i).phase = .pop ∧ (st.thr i).queue = [j]) (fun m hp h1 => by rw [h1]; exact hp)
    (fun m hp ht => ?_) (fun m hp => by rw [hp.1]; simp) (fun m hp hs => ?_) (fun m hp hs => ?_) hn
  · have := master_queued (h.good hk hd m).inv ht (hsz m) (by rw [hp.2]; simp)
    rw [master_phase ht (by rw [hp.1]; simp), this.1]
    exact hp
  · simp only [Run.step, if_pos (hsz m), threadStep, hp.1, hp.2, hstop m hp.2, Bool.false_eq_true, if_false,
      List.cons_ne_self] at hs
    have hs := (Option.some.inj (Res.ok.inj hs)).symm
    rw [hs, setThread_self]
    exact ⟨rfl, rfl⟩
  · simp only [Run.step, if_pos (hsz m), threadStep, hp.1, hp.2, hstop m hp.2, Bool.false_eq_true, if_false,
      reduceCtorEq] at hs
    cases hs

/-- A thread that is about to be notified. -/
theorem notified (h : Exec env (initial kinds fs (program ss)) σ ls) (hk : kinds.length < 4294967296)
    (hd : ∀ s ∈ ss, s.blocks.Nodup) (ha : ∀ n, Alert (σ n) (ls n)) {i : Nat} (hi : i < kinds.length) {j : Job} {n : Nat}
    (hn : (((σ n).thr i).phase = .wait ∨ ((σ n).thr i).phase = .sleep) ∧ ((σ n).thr i).queue = [j]) :
    ∃ m, n ≤ m ∧ ((σ m).thr i).phase = .check ∧ ((σ m).thr i).queue = [j] := by
  have hsz : ∀ m, i < (σ m).size := fun m => by rw [(h.good hk hd m).size]; exact hi
  refine leads (P := fun st => ((st.thr i).phase = .wait ∨ (st.thr i).phase = .sleep) ∧ (st.thr i).queue = [j])
    (Q := fun st => (st.thr i).phase = .check ∧ (st.thr i).queue = [j])
    (L := fun m => ∃ ch, ls m = .master ch) h.master (fun m hp hl => ?_) (fun m hp hl => ?_) hn
  · rcases h.next m with h1 | ⟨_, h1⟩
    · have ht := step_trans h1
      cases hlm : ls m with
      | thread k =>
        rw [hlm] at ht h1
        by_cases hik : i = k
        · subst hik
          rcases hp.1 with h2 | h2
          · simp only [Run.step, if_pos (hsz m), threadStep, h2] at h1
            have h1 := (Option.some.inj (Res.ok.inj h1)).symm
            left
            rw [h1, setThread_self]
            exact ⟨Or.inr rfl, hp.2⟩
          · simp only [Run.step, if_pos (hsz m), threadStep, h2] at h1
            cases h1
        · rw [(trans_other ht rfl hik).1]
          exact Or.inl hp
      | master ch => exact absurd ⟨ch, hlm⟩ hl
      | spurious k =>
        rw [hlm] at ht h1
        by_cases hik : i = k
        · subst hik
          simp only [Run.step] at h1
          split at h1
          · rename_i hs
            have h1 := (Option.some.inj (Res.ok.inj h1)).symm
            right
            rw [h1]
            unfold wake
            rw [if_pos hs.2, setThread_self]
            exact ⟨rfl, hp.2⟩
          · cases h1
        · rw [(trans_other ht rfl hik).1]
          exact Or.inl hp
    · rw [h1]
      exact Or.inl hp
  · obtain ⟨ch, hl⟩ := hl
    obtain ⟨b, hb⟩ := (h.awake ha m).queue i hp.1 (by rw [hp.2]; simp)
    have hw : ((σ m).thr i).phase ≠ .wait := by
      have := ha m
      rw [hl] at this
      exact this i (Or.inr ⟨b, hb⟩)
    have hsl := hp.1.resolve_left hw
    rcases h.next m with h1 | ⟨h1, _⟩
    · rw [hl] at h1
      simp only [Run.step, masterStep, hb] at h1
      have h1 := (Option.some.inj (Res.ok.inj h1)).symm
      rw [h1]
      unfold wake
      rw [if_pos hsl]
      simp only [setThread_self]
      exact ⟨trivial, hp.2⟩
    · rw [hl] at h1
      simp only [Run.step, masterStep, hb] at h1
      cases h1

/-- Every queued block is reported. -/
theorem processed (h : Exec env (initial kinds fs (program ss)) σ ls) (hk : kinds.length < 4294967296)
    (hd : ∀ s ∈ ss, s.blocks.Nodup) (ha : ∀ n, Alert (σ n) (ls n)) {i : Nat} {j : Job} {n : Nat}
    (hi : i < kinds.length) (hn : (i, j) ∈ assignedJobs (σ n).log) : ∃ m, n ≤ m ∧ (i, j) ∈ reportedJobs (σ m).log := by
  have hg := h.good hk hd n
  have hsz : i < (σ n).size := by rw [hg.size]; exact hi
  have h4 : ∀ n', n ≤ n' → ((σ n').thr i).phase = .report j → ∃ m, n ≤ m ∧ (i, j) ∈ reportedJobs (σ m).log := by
    intro n' hn' h'
    obtain ⟨m, h1, h2⟩ := h.report hk hd hi h'
    exact ⟨m, by omega, h2⟩
  have h3 : ∀ n', n ≤ n' → ((σ n').thr i).phase = .compute j → ∃ m, n ≤ m ∧ (i, j) ∈ reportedJobs (σ m).log := by
    intro n' hn' h'
    obtain ⟨m, h1, h2⟩ := h.compute hk hd hi h'
    exact h4 m (by omega) h2
  have h2 : ∀ n', n ≤ n' → ((σ n').thr i).phase = .pop ∧ ((σ n').thr i).queue = [j] →
      ∃ m, n ≤ m ∧ (i, j) ∈ reportedJobs (σ m).log := by
    intro n' hn' h'
    obtain ⟨m, h1, h2⟩ := h.pop hk hd hi h'
    exact h3 m (by omega) h2
  have h1 : ∀ n', n ≤ n' → ((σ n').thr i).phase = .check ∧ ((σ n').thr i).queue = [j] →
      ∃ m, n ≤ m ∧ (i, j) ∈ reportedJobs (σ m).log := by
    intro n' hn' h'
    obtain ⟨m, h1, h2'⟩ := h.check hk hd hi h'
    exact h2 m (by omega) h2'
  by_cases hr : (i, j) ∈ reportedJobs (σ n).log
  · exact ⟨n, le_rfl, hr⟩
  · have hc := hg.count i j
    have hpos : 0 < (assignedJobs (σ n).log).count (i, j) := List.count_pos_iff.2 hn
    rw [hc.1, hc.2.1, hc.2.2, List.count_eq_zero.2 hr] at hpos
    have hmem : j ∈ ((σ n).thr i).jobs := by
      by_contra hno
      unfold Thread.jobs at hno
      rw [List.mem_append, not_or] at hno
      rw [List.count_eq_zero.2 hno.2] at hpos
      have hno := hno.1
      revert hpos hno
      cases ((σ n).thr i).phase <;> simp [Phase.computing, Phase.reporting, Phase.jobs]
    rcases hg.inv.book.own i hsz with ⟨h5, _⟩ | ⟨j', h5, _⟩
    · rw [h5] at hmem; cases hmem
    · rw [h5, List.mem_singleton] at hmem
      subst hmem
      unfold Thread.jobs at h5
      cases hp : ((σ n).thr i).phase with
      | compute j' =>
        rw [hp] at h5
        cases (List.cons_eq_cons.1 h5).1
        exact h3 n le_rfl hp
      | report j' =>
        rw [hp] at h5
        cases (List.cons_eq_cons.1 h5).1
        exact h4 n le_rfl hp
      | check => rw [hp] at h5; exact h1 n le_rfl ⟨hp, h5⟩
      | pop => rw [hp] at h5; exact h2 n le_rfl ⟨hp, h5⟩
      | wait =>
        rw [hp] at h5
        obtain ⟨m, h6, h7⟩ := h.notified hk hd ha hi ⟨Or.inl hp, h5⟩
        exact h1 m h6 h7
      | sleep =>
        rw [hp] at h5
        obtain ⟨m, h6, h7⟩ := h.notified hk hd ha hi ⟨Or.inr hp, h5⟩
        exact h1 m h6 h7
      | done =>
        rw [hp] at h5
        have h6 := hg.inv.done i hp
        rw [hg.inv.running hsz (jobs_of_queue (by rw [show ((σ n).thr i).queue = [j] from h5]; simp))] at h6
        cases h6

end Exec

section

variable {env : Env} {kinds : List Bool} {fs : FileSystem} {ss : List Sect} {st : State}

/-- Threads that do not exist have no blocks. -/
theorem jobs_beyond (hk : kinds.length < 4294967296) (hd : ∀ s ∈ ss, s.blocks.Nodup)
    (hr : Reachable env (initial kinds fs (program ss)) st) {i : Nat} (hi : kinds.length ≤ i) :
    (st.thr i).jobs = [] := by
  induction hr with
  | refl => rfl
  | @step st st' l hr hs ih =>
    have h := (Good.init env hk fs hd).reachable hr
    have hsz : st.size ≤ i := by rw [h.size]; exact hi
    have ht := step_trans hs
    have hwake : ∀ k, ((wake st k).thr i).jobs = (st.thr i).jobs := by
      intro k
      unfold wake
      split
      · rename_i hp
        by_cases hik : i = k
        · subst hik
          rw [setThread_self]
          unfold Thread.jobs
          rw [hp]
          rfl
        · rw [setThread_other _ hik]
      · rfl
    cases hl : l.actor with
    | some k =>
      rw [hl] at ht
      have hk : k < st.size := by
        cases ht <;> assumption
      rw [(trans_other ht rfl (by omega)).1]
      exact ih
    | none =>
      rw [hl] at ht
      cases ht with
      | notify k b hpc => exact (hwake k).trans ih
      | shutNotify k hpc => exact (hwake k).trans ih
      | takeOpencl hpc b rest ht ho p hp =>
        obtain ⟨p', h1, h2, _⟩ := h.inv.takeOpencl hpc ht ho
        rw [hp] at h1
        cases h1
        unfold pushJob
        simp only
        rw [setThread_other _ (by omega)]
        exact ih
      | takeCpu hpc b rest ht ho p hp =>
        obtain ⟨p', h1, h2, _⟩ := h.inv.takeCpu hpc ht ho
        rw [hp] at h1
        cases h1
        unfold pushJob
        simp only
        rw [setThread_other _ (by omega)]
        exact ih
      | shutdown k hpc hk =>
        simp only
        rw [setThread_other _ (by omega)]
        exact ih
      | _ => exact ih

/-- After waiting, no block is under way. -/
theorem all_done (hk : kinds.length < 4294967296) (hd : ∀ s ∈ ss, s.blocks.Nodup)
    (hr : Reachable env (initial kinds fs (program ss)) st) (hq : st.pc.quiet = true) :
    (takenJobs st.log).Perm (assignedJobs st.log) ∧ (flushedJobs st.log).Perm (assignedJobs st.log) ∧
    (reportedJobs st.log).Perm (assignedJobs st.log) ∧
    (erasedJobs st.log).Perm ((assignedJobs st.log).map Prod.snd) := by
  have h := (Good.init env hk fs hd).reachable hr
  obtain ⟨h1, h2, h3⟩ := h.inv.noJobs hq
  have hj : ∀ i, (st.thr i).jobs = [] := by
    intro i
    by_cases hi : i < st.size
    · exact h3 i hi
    · exact jobs_beyond hk hd hr (by rw [h.size] at hi; omega)
  have hc : ∀ i, (st.thr i).queue = [] ∧ (st.thr i).phase.computing = [] ∧ (st.thr i).phase.reporting = [] := by
    intro i
    have := hj i
    unfold Thread.jobs at this
    obtain ⟨h4, h5⟩ := List.append_eq_nil_iff.1 this
    refine ⟨h5, ?_⟩
    revert h4
    cases (st.thr i).phase <;> simp [Phase.jobs, Phase.computing, Phase.reporting]
  have h4 : ∀ e, (takenJobs st.log).count e = (assignedJobs st.log).count e ∧
      (flushedJobs st.log).count e = (takenJobs st.log).count e ∧
      (reportedJobs st.log).count e = (flushedJobs st.log).count e := by
    intro e
    have h5 := h.count e.1 e.2
    rw [(hc e.1).1, (hc e.1).2.1, (hc e.1).2.2] at h5
    exact ⟨h5.1.symm, h5.2.1.symm, h5.2.2.symm⟩
  have h5 : (reportedJobs st.log).Perm (assignedJobs st.log) :=
    List.perm_iff_count.2 fun e => by rw [(h4 e).2.2, (h4 e).2.1, (h4 e).1]
  refine ⟨List.perm_iff_count.2 fun e => (h4 e).1, List.perm_iff_count.2 fun e => by rw [(h4 e).2.1, (h4 e).1], h5, ?_⟩
  have h6 := h.erased
  unfold ErasedInv at h6
  rw [h2, List.map_nil, List.append_nil] at h6
  exact h6.symm.trans (h5.map _)

end

end Run
end Hycu
