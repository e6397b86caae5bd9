import Verif.Lemmas.PoolLive

/-!
Runs with one process end.
-/

namespace Hycu
namespace Run

/-- A bound for the work left for the main thread: `n` calls are still to be made. -/
def Pc.rank (size n : Nat) : Pc → Nat
  | .finished => 0
  | .shutdown i => 3 * (size - i) + 1
  | .shutNotify i => max (3 * (size - i)) 3
  | .join i => max (3 * (size - i) - 1) 2
  | .write ws .exit => 3 * size + 2 + ws.length
  | .save .exit => 3 * size + 5
  | .wait .exit => 3 * size + 6
  | .notify _ _ => 3 * size + 7 + 20 * n + 19
  | .insert _ => 3 * size + 7 + 20 * n + 18
  | .main => 3 * size + 7 + 20 * n + 17
  | .wait _ => 3 * size + 7 + 20 * n + 16
  | .save _ => 3 * size + 7 + 20 * n + 15
  | .write ws _ => 3 * size + 7 + 20 * n + 10 + ws.length
  | .contains | .newStore => 3 * size + 7 + 20 * n + 6
  | .fillFinished | .fillReady | .update => 3 * size + 7 + 20 * n + 5
  | .take => 3 * size + 7 + 20 * n + 4

def State.rank (st : State) : Nat := st.pc.rank st.size st.todo.length

/-- The main thread looks for finished blocks again and again. -/
def Pc.polling : Pc → Bool
  | .wait _ | .fillFinished | .fillReady => true
  | _ => false

theorem thread_pc {env : Env} {st st' : State} {i : Nat} (ht : Trans env st (some i) st') :
    st'.pc = st.pc ∧ st'.todo = st.todo ∧ st'.size = st.size ∧ assignedJobs st'.log = assignedJobs st.log ∧
      st'.nmbCpu = st.nmbCpu ∧ st'.nmbOpencl = st.nmbOpencl := by
  cases ht <;> exact ⟨rfl, rfl, rfl, rfl, rfl, rfl⟩

/-- Steps of the main thread make progress, except when it waits. -/
theorem master_rank {env : Env} {st st' : State} (ht : Trans env st none st') : st'.rank < st.rank ∨
    (st'.rank = st.rank ∧ st'.pc.polling = true ∧ assignedJobs st'.log = assignedJobs st.log ∧
      ((∃ k, st.pc = .wait k ∧ st'.pc = .wait k ∧ st'.assigned ≠ [] ∧ st'.pool.finished = []) ∨ (st.pc = .fillFinished ∧ st'.pc = .fillReady) ∨
        (st.pc = .fillReady ∧ st'.pc = .fillFinished ∧ st'.nmbCpu = 0 ∧ st'.nmbOpencl = 0 ∧ st'.pool.ready = []))) := by
  have herased : ∀ log, assignedJobs ((st.pool.finished.map fun b => Event.erased ⟨b, st.current⟩).reverse ++ log) =
      assignedJobs log := fun log => by
    rw [erased_eq]
    exact filterMap_erased _ _ _ fun _ => rfl
  unfold State.rank
  cases ht with
  | mainEnd hpc ht =>
    left
    simp only [hpc, Pc.rank]
    omega
  | mainConfig hpc c rest ht create v hv =>
    left
    simp only [hpc]
    split <;> simp only [Pc.rank] <;> omega
  | mainAssign hpc b rest ht now =>
    left
    simp only [hpc]
    split <;> simp only [Pc.rank] <;> omega
  | wait k hpc a ha =>
    by_cases hne : a = []
    · left
      simp only [hpc, if_pos hne]
      cases k <;> simp only [Pc.rank] <;> omega
    · right
      simp only [if_neg hne]
      exact ⟨by rw [hpc], rfl, herased _, Or.inl ⟨k, hpc, rfl, hne, trivial⟩⟩
  | saveNone k hpc hf =>
    left
    simp only [hpc]
    cases k <;> simp only [afterSave, Pc.rank] <;> omega
  | saveLost k hpc f hf h =>
    left
    simp only [hpc]
    cases k <;> simp only [afterSave, Pc.rank] <;> omega
  | saveStart k hpc f hf hv d hd id hid =>
    left
    simp only [hpc, FileStore.saveWrites]
    cases k <;> simp only [Pc.rank, List.length_cons, List.length_nil] <;> omega
  | writeEnd k hpc =>
    left
    simp only [hpc]
    cases k <;> simp only [afterSave, Pc.rank, List.length_nil] <;> omega
  | writeLost k n c ws hpc h =>
    left
    simp only [hpc]
    cases k <;> simp only [Pc.rank, List.length_cons] <;> omega
  | write k n c ws hpc f hf d hd =>
    left
    simp only [hpc]
    cases k <;> simp only [Pc.rank, List.length_cons] <;> omega
  | update hpc c rest ht =>
    left
    simp only [hpc, updateStep, ht, Pc.rank, List.length_cons]
    omega
  | skip hpc b rest ht =>
    left
    simp only [hpc, ht, Pc.rank, List.length_cons]
    omega
  | fillFinished hpc a ha =>
    right
    exact ⟨by rw [hpc]; rfl, rfl, herased _, Or.inr (Or.inl ⟨hpc, rfl⟩)⟩
  | fillReady hpc =>
    unfold fillReadyStep
    simp only
    split
    · rename_i h0
      right
      refine ⟨by rw [hpc]; rfl, ?_, ?_, Or.inr (Or.inr ⟨hpc, ?_, h0.1, h0.2, ?_⟩)⟩ <;> trivial
    · left
      simp only [hpc, Pc.rank]
      omega
  | takeOpencl hpc b rest ht ho p hp =>
    left
    simp only [hpc, pushJob, State.setThread, ht, Pc.rank, List.length_cons]
    omega
  | takeCpu hpc b rest ht ho p hp =>
    left
    simp only [hpc, pushJob, State.setThread, ht, Pc.rank, List.length_cons]
    omega
  | notify i b hpc =>
    left
    simp only [hpc, wake_size, wake_todo, Pc.rank]
    omega
  | shutNotify i hpc =>
    left
    simp only [hpc, wake_size, Pc.rank]
    omega
  | shutdown i hpc hi =>
    left
    simp only [hpc, State.setThread, Pc.rank]
    omega
  | newStoreInvalid hpc | newStore hpc | fill hpc | noFill hpc | insert b hpc | shutdownEnd i hpc | join i hpc =>
    left
    simp only [hpc, Pc.rank]
    omega

/-- Nothing is removed from the list of events. -/
theorem log_suffix {env : Env} {st st' : State} {a : Option Nat} (ht : Trans env st a st') : st.log <:+ st'.log := by
  cases ht with
  | pop | compute | report | saveLost | saveStart | update | takeOpencl | takeCpu => exact List.suffix_cons _ _
  | wait | fillFinished => exact List.suffix_append _ _
  | notify i b hpc => simp only [wake_log]; exact List.suffix_refl _
  | shutNotify i hpc => simp only [wake_log]; exact List.suffix_refl _
  | _ => exact List.suffix_refl _

/-- If all assigned blocks are reported, no thread has a block. -/
theorem Good.jobs_nil {env : Env} {kinds : List Bool} {ss : List Sect} {st : State} (h : Good env kinds ss st)
    (hr : ∀ e ∈ assignedJobs st.log, e ∈ reportedJobs st.log) (i : Nat) : (st.thr i).jobs = [] := by
  by_contra hne
  obtain ⟨j, hj⟩ := List.exists_mem_of_ne_nil _ hne
  obtain ⟨h1, h2, h3⟩ := h.count i j
  have hone : (assignedJobs st.log).count (i, j) ≤ 1 :=
    List.nodup_iff_count_le_one.1 (List.Nodup.of_map _ h.once.nodup) _
  have hpos : 0 < (st.thr i).queue.count j + (st.thr i).phase.computing.count j + (st.thr i).phase.reporting.count j := by
    unfold Thread.jobs at hj
    rcases List.mem_append.1 hj with hj | hj
    · revert hj
      cases (st.thr i).phase <;> simp [Phase.jobs, Phase.computing, Phase.reporting] <;> exact fun h => Or.inr h
    · have := List.count_pos_iff.2 hj
      omega
  have hmem : (i, j) ∈ assignedJobs st.log := List.count_pos_iff.1 (by omega)
  have := List.count_pos_iff.2 (hr _ hmem)
  omega

/-- If no thread has a block, no thread is busy. -/
theorem Inv.busy_nil {st : State} (h : Inv st) (hj : ∀ i, (st.thr i).jobs = []) : st.pool.busy = [] := by
  cases hb : st.pool.busy with
  | nil => rfl
  | cons e l =>
    exfalso
    have hlt : e.2 < st.size := by
      rw [← List.mem_range, ← h.book.perm.mem_iff, hb]
      simp
    rcases h.book.own e.2 hlt with ⟨_, h1⟩ | ⟨j, h1, _⟩
    · exact h1 (by rw [hb]; simp)
    · rw [hj] at h1
      cases h1

theorem some_map_ne {α : Type} {x : Res α} (h : (some <$> x) = Res.ok none) : False := by
  cases x with
  | ok b => cases h
  | _ => cases h

/-- The main thread is blocked only if it has ended, waits for a thread to stop, or needs another file name. -/
theorem Inv.blocked {st : State} (h : Inv st) {env : Env} {ch : Choice} (hs : step env st (.master ch) = .ok none) :
    st.pc = .finished ∨ (∃ i, st.pc = .join i ∧ (st.thr i).phase ≠ .done) ∨
      ∃ k f d, st.pc = .save k ∧ st.fileStore = some f ∧ f.valid = true ∧ st.fs f.config.resultPath = some d ∧
        FileStore.fresh d ch.id = false := by
  have hfit := h.fits
  simp only [step, masterStep] at hs
  split at hs
  · exact (some_map_ne hs).elim
  · exact (some_map_ne hs).elim
  · rename_i k hpc
    right; right
    unfold saveStep at hs
    split at hs
    · cases hs
    · rename_i f hf
      split at hs
      · rename_i hv
        split at hs
        · cases hs
        · rename_i d hd
          split at hs
          · cases hs
          · rename_i hid
            exact ⟨k, f, d, hpc, hf, hv, hd, by simpa using hid⟩
      · cases hs
  · cases hs
  · cases hs
  · rename_i hpc
    rw [hpc] at hfit
    obtain ⟨c, rest, ht⟩ := hfit
    rw [ht] at hs
    exact (some_map_ne hs).elim
  · rename_i hpc
    rw [hpc] at hfit
    obtain ⟨c, rest, ht⟩ := hfit
    rw [ht] at hs
    cases hs
  · rename_i hpc
    rw [hpc] at hfit
    obtain ⟨c, rest, ht⟩ := hfit
    rw [ht] at hs
    exact (some_map_ne hs).elim
  · obtain ⟨_, _, hs⟩ := Res.bind_eq_ok.1 hs
    cases hs
  · cases hs
  · rename_i hpc
    rw [hpc] at hfit
    obtain ⟨c, rest, ht⟩ := hfit
    rw [ht] at hs
    exact (some_map_ne hs).elim
  · cases hs
  · cases hs
  · split at hs <;> cases hs
  · cases hs
  · rename_i i hpc
    split at hs
    · cases hs
    · rename_i hp
      exact Or.inr (Or.inl ⟨i, hpc, hp⟩)
  · rename_i hpc
    exact Or.inl hpc

/-- The thread that is being stopped exists and has been told to stop. -/
def Closing (st : State) : Prop :=
  ∀ i, st.pc = .shutNotify i ∨ st.pc = .join i → i < st.size ∧ (st.thr i).stop = true

theorem Closing.thread {st : State} (h : Closing st) (i : Nat) (t : Thread) (ht : t.stop = (st.thr i).stop) :
    Closing (st.setThread i t) := by
  intro k hk
  refine ⟨(h k hk).1, ?_⟩
  rw [show ((st.setThread i t).thr k).stop = (st.thr k).stop from congrFun (setThread_view Thread.stop st i t ht) k]
  exact (h k hk).2

theorem Closing.trans {env : Env} {st st' : State} {a : Option Nat} (h : Closing st) (ht : Trans env st a st') :
    Closing st' := by
  have no : ∀ {st : State}, (∀ i, st.pc ≠ .shutNotify i) → (∀ i, st.pc ≠ .join i) → Closing st :=
    fun h1 h2 i hi => by
      rcases hi with hi | hi
      · exact absurd hi (h1 i)
      · exact absurd hi (h2 i)
  cases ht with
  | checkDone i hi hp hs => exact h.thread i _ rfl
  | checkWait i hi hp hs hq => exact h.thread i _ rfl
  | checkPop i hi hp hs hq => exact h.thread i _ rfl
  | doze i hi hp => exact h.thread i _ rfl
  | pop i hi hp j q hq => exact h.thread i { st.thr i with queue := q, phase := .compute j } rfl
  | compute i hi j hp tb ht m hm p hf => exact h.thread i { st.thr i with phase := .report j } rfl
  | report i hi j hp p hf => exact h.thread i { st.thr i with phase := .check } rfl
  | spurious i hi hp => exact h.thread i _ rfl
  | mainConfig hpc c rest ht create v hv =>
    apply no <;> intro i hi <;> simp only at hi <;> split at hi <;> cases hi
  | mainAssign hpc b rest ht now =>
    apply no <;> intro i hi <;> simp only at hi <;> split at hi <;> cases hi
  | wait k hpc a ha => apply no <;> intro i hi <;> simp only at hi <;> split at hi <;> cases hi
  | saveNone k hpc hf => apply no <;> intro i hi <;> cases k <;> cases hi
  | saveLost k hpc f hf h => apply no <;> intro i hi <;> cases k <;> cases hi
  | writeEnd k hpc => apply no <;> intro i hi <;> cases k <;> cases hi
  | update hpc c rest ht => apply no <;> intro i hi <;> cases hi
  | fillReady hpc =>
    apply no <;> intro i hi <;> simp only [fillReadyStep] at hi <;> split at hi <;> cases hi
  | shutdown i hpc hi =>
    intro k hk
    have hki : k = i := by
      rcases hk with hk | hk <;> cases hk
      rfl
    subst hki
    refine ⟨hi, ?_⟩
    show ((st.setThread k { st.thr k with stop := true }).thr k).stop = true
    rw [setThread_self]
  | shutNotify i hpc =>
    intro k hk
    have hki : k = i := by
      rcases hk with hk | hk <;> cases hk
      rfl
    subst hki
    obtain ⟨h1, h2⟩ := h k (Or.inl hpc)
    have h3 : Closing st := h
    show k < (wake st k).size ∧ ((wake st k).thr k).stop = true
    unfold wake
    split
    · rw [setThread_self]
      exact ⟨h1, h2⟩
    · exact ⟨h1, h2⟩
  | _ => apply no <;> intro i hi <;> cases hi

theorem Closing.reachable {env : Env} {st₀ st : State} (hr : Reachable env st₀ st) (h : Closing st₀) : Closing st := by
  induction hr with
  | refl => exact h
  | step l _ hs ih => exact ih.trans (step_trans hs)

namespace Exec

variable {env : Env} {kinds : List Bool} {ss : List Sect} {fs : FileSystem} {σ : Nat → State} {ls : Nat → Label}

theorem reachable (h : Exec env (initial kinds fs (program ss)) σ ls) (n : Nat) :
    Reachable env (initial kinds fs (program ss)) (σ n) := by
  induction n with
  | zero => rw [h.start]; exact .refl
  | succ n ih =>
    rcases h.next n with h1 | ⟨_, h1⟩
    · exact .step _ ih h1
    · rw [h1]; exact ih

theorem rank_le (h : Exec env (initial kinds fs (program ss)) σ ls) (n : Nat) : (σ (n + 1)).rank ≤ (σ n).rank := by
  rcases h.next n with h1 | ⟨_, h1⟩
  · have ht := step_trans h1
    revert ht
    cases (ls n).actor with
    | none =>
      intro ht
      rcases master_rank ht with h2 | ⟨h2, _⟩ <;> omega
    | some i =>
      intro ht
      obtain ⟨h2, h3, h4, _⟩ := thread_pc ht
      unfold State.rank
      rw [h2, h3, h4]
  · rw [h1]

theorem rank_mono (h : Exec env (initial kinds fs (program ss)) σ ls) {n m : Nat} (hm : n ≤ m) :
    (σ m).rank ≤ (σ n).rank := by
  induction hm with
  | refl => exact le_rfl
  | step _ ih => exact (h.rank_le _).trans ih

theorem reported_mono (h : Exec env (initial kinds fs (program ss)) σ ls) {n m : Nat} (hm : n ≤ m) {e : Nat × Job}
    (he : e ∈ reportedJobs (σ n).log) : e ∈ reportedJobs (σ m).log := by
  induction hm with
  | refl => exact he
  | @step m _ ih =>
    rcases h.next m with h1 | ⟨_, h1⟩
    · exact ((log_suffix (step_trans h1)).filterMap _).subset ih
    · rw [h1]; exact ih

/-- A state in which nothing is left to be done but to wait. -/
theorem stuck (h : Exec env (initial kinds fs (program ss)) σ ls) {n : Nat}
    (hc : ∀ m, n ≤ m → (σ m).rank = (σ n).rank) {m : Nat} (hm : n ≤ m) :
    ((σ n).pc.polling = false → (σ m).pc = (σ n).pc) ∧
    ((σ n).pc.polling = true → assignedJobs (σ m).log = assignedJobs (σ n).log ∧ (σ m).pc.polling = true ∧
      ∀ k, (σ n).pc = .wait k ↔ (σ m).pc = .wait k) := by
  induction hm with
  | refl => exact ⟨fun _ => rfl, fun hp => ⟨rfl, hp, fun _ => Iff.rfl⟩⟩
  | @step m hm ih =>
    rcases h.next m with h1 | ⟨_, h1⟩
    · have ht := step_trans h1
      revert ht
      cases (ls m).actor with
      | none =>
        intro ht
        rcases master_rank ht with h2 | ⟨_, h3, h4, h5⟩
        · have h6 := hc m hm
          have h7 := hc (m + 1) (Nat.le_succ_of_le hm)
          simp only [Nat.succ_eq_add_one] at *
          omega
        · refine ⟨fun hp => ?_, fun hp => ?_⟩
          · exfalso
            rw [ih.1 hp] at h5
            rcases h5 with ⟨k, h5, _⟩ | ⟨h5, _⟩ | ⟨h5, _⟩ <;> rw [h5] at hp <;> cases hp
          · obtain ⟨h6, h7, h8⟩ := ih.2 hp
            refine ⟨h4.trans h6, h3, fun k => (h8 k).trans ?_⟩
            rcases h5 with ⟨k, h5, h9, _⟩ | ⟨h5, h9⟩ | ⟨h5, h9, _⟩ <;> rw [h5, h9]
            · constructor <;> rintro ⟨⟩
            · constructor <;> rintro ⟨⟩
      | some i =>
        intro ht
        obtain ⟨h2, _, _, h3, _⟩ := thread_pc ht
        rw [h2, h3]
        exact ih
    · rw [h1]
      exact ih

/-- Every assigned block is reported. -/
theorem processed_all (h : Exec env (initial kinds fs (program ss)) σ ls) (hk : kinds.length < 4294967296)
    (hd : ∀ s ∈ ss, s.blocks.Nodup) (ha : ∀ n, Alert (σ n) (ls n)) {i : Nat} {j : Job} {n : Nat}
    (hn : (i, j) ∈ assignedJobs (σ n).log) : ∃ m, n ≤ m ∧ (i, j) ∈ reportedJobs (σ m).log := by
  by_cases hi : i < kinds.length
  · exact h.processed hk hd ha hi hn
  · have hj := jobs_beyond hk hd (h.reachable n) (Nat.le_of_not_lt hi)
    have hc := (h.good hk hd n).count i j
    unfold Thread.jobs at hj
    obtain ⟨h1, h2⟩ := List.append_eq_nil_iff.1 hj
    have h3 : ((σ n).thr i).phase.computing = [] ∧ ((σ n).thr i).phase.reporting = [] := by
      revert h1
      cases ((σ n).thr i).phase <;> simp [Phase.jobs, Phase.computing, Phase.reporting]
    rw [h2, h3.1, h3.2] at hc
    refine ⟨n, le_rfl, List.count_pos_iff.1 ?_⟩
    have h4 : 0 < (assignedJobs (σ n).log).count (i, j) := List.count_pos_iff.2 hn
    simp only [List.count_nil, Nat.add_zero] at hc
    rw [← hc.2.2, ← hc.2.1, ← hc.1]
    exact h4

/-- While the main thread polls, all blocks are reported. -/
theorem polled (h : Exec env (initial kinds fs (program ss)) σ ls) (hk : kinds.length < 4294967296)
    (hd : ∀ s ∈ ss, s.blocks.Nodup) (ha : ∀ n, Alert (σ n) (ls n)) {n : Nat}
    (hc : ∀ m, n ≤ m → (σ m).rank = (σ n).rank) (hp : (σ n).pc.polling = true) :
    ∃ m, n ≤ m ∧ ∀ m', m ≤ m' → (σ m').pool.busy = [] := by
  have key : ∀ l : List (Nat × Job), (∀ e ∈ l, e ∈ assignedJobs (σ n).log) →
      ∃ m, n ≤ m ∧ ∀ e ∈ l, e ∈ reportedJobs (σ m).log := by
    intro l
    induction l with
    | nil => exact fun _ => ⟨n, le_rfl, by simp⟩
    | cons e l ih =>
      intro hl
      obtain ⟨m1, h1, h2⟩ := ih fun e he => hl e (List.mem_cons_of_mem _ he)
      obtain ⟨m2, h3, h4⟩ := h.processed_all hk hd ha (i := e.1) (j := e.2) (hl e List.mem_cons_self)
      refine ⟨max m1 m2, by omega, fun e' he' => ?_⟩
      rcases List.mem_cons.1 he' with rfl | he'
      · exact h.reported_mono (le_max_right _ _) h4
      · exact h.reported_mono (le_max_left _ _) (h2 e' he')
  obtain ⟨m, h1, h2⟩ := key _ fun _ he => he
  refine ⟨m, h1, fun m' hm' => ?_⟩
  have hg := h.good hk hd m'
  refine hg.inv.busy_nil (hg.jobs_nil fun e he => ?_)
  rw [((h.stuck hc (h1.trans hm')).2 hp).1] at he
  exact h.reported_mono hm' (h2 e he)

/-- `wait_for_assigned_blocks` ends. -/
theorem no_wait (h : Exec env (initial kinds fs (program ss)) σ ls) (hk : kinds.length < 4294967296)
    (hd : ∀ s ∈ ss, s.blocks.Nodup) (ha : ∀ n, Alert (σ n) (ls n)) {n : Nat}
    (hc : ∀ m, n ≤ m → (σ m).rank = (σ n).rank) (k : Cont) : (σ n).pc ≠ .wait k := by
  intro hpc
  have hp : (σ n).pc.polling = true := by rw [hpc]; rfl
  obtain ⟨m, h1, h2⟩ := h.polled hk hd ha hc hp
  obtain ⟨m', h3, ch, h4⟩ := h.master m
  have hpc' := (((h.stuck hc (h1.trans h3)).2 hp).2.2 k).1 hpc
  rcases h.next m' with h5 | ⟨h5, _⟩
  · rw [h4] at h5
    have ht := step_trans h5
    have hbook := ((h.good hk hd m').inv.trans ht).book
    rcases master_rank ht with h6 | ⟨_, _, _, h7⟩
    · have h7 := hc m' (h1.trans h3)
      have h8 := hc (m' + 1) (Nat.le_succ_of_le (h1.trans h3))
      omega
    · rw [hpc'] at h7
      rcases h7 with ⟨_, _, h7, h8, h9⟩ | ⟨h7, _⟩ | ⟨h7, _⟩
      · have h10 := hbook.blocks
        rw [h2 (m' + 1) (Nat.le_succ_of_le h3), h9] at h10
        exact h8 (List.append_eq_nil_iff.1 h10.nil_eq.symm).2
      · cases h7
      · cases h7
  · rw [h4] at h5
    simp only [Run.step, masterStep, hpc'] at h5
    exact some_map_ne h5

/-- What happens while the main thread waits in `fill_idle_queues`. -/
theorem filling (h : Exec env (initial kinds fs (program ss)) σ ls) {n : Nat}
    (hc : ∀ m, n ≤ m → (σ m).rank = (σ n).rank) {pc : Pc} (hpc : pc = .fillFinished ∨ pc = .fillReady) {m : Nat}
    (hm : n ≤ m) (hp : (σ m).pc = pc) : ∃ m', m ≤ m' ∧
      ((pc = .fillFinished ∧ (σ m').pc = .fillReady) ∨ (pc = .fillReady ∧ (σ m').pc = .fillFinished ∧
        (σ m').nmbCpu = 0 ∧ (σ m').nmbOpencl = 0 ∧ (σ m').pool.ready = [])) := by
  obtain ⟨m', h1, _, h2⟩ := leads (σ := fun i => σ (m + i)) (L := fun i => ∃ ch, ls (m + i) = .master ch)
    (P := fun st => st.pc = pc) (Q := fun st => True ∧
      ((pc = .fillFinished ∧ st.pc = .fillReady) ∨ (pc = .fillReady ∧ st.pc = .fillFinished ∧
        st.nmbCpu = 0 ∧ st.nmbOpencl = 0 ∧ st.pool.ready = []))) (n := 0) (fun i => by
        obtain ⟨m', h1, h2⟩ := h.master (m + i)
        obtain ⟨d, rfl⟩ := Nat.exists_eq_add_of_le h1
        exact ⟨i + d, Nat.le_add_right _ _, by rwa [← Nat.add_assoc]⟩)
    (fun i hp hl => by
      left
      rcases h.next (m + i) with h1 | ⟨_, h1⟩
      · have ht := step_trans h1
        cases hlm : ls (m + i) with
        | thread k =>
          rw [hlm] at ht
          show (σ (m + i + 1)).pc = pc
          rw [(thread_pc ht).1]
          exact hp
        | master ch => exact absurd ⟨ch, hlm⟩ hl
        | spurious k =>
          rw [hlm] at ht
          show (σ (m + i + 1)).pc = pc
          rw [(thread_pc ht).1]
          exact hp
      · show (σ (m + i + 1)).pc = pc
        rw [h1]
        exact hp)
    (fun i hp hl => by
      obtain ⟨ch, hl⟩ := hl
      have hp' : (σ (m + i)).pc = pc := hp
      rcases h.next (m + i) with h1 | ⟨h1, _⟩
      · rw [hl] at h1
        rcases master_rank (step_trans h1) with h2 | ⟨_, _, _, h2⟩
        · have h3 := hc (m + i) (by omega)
          have h4 := hc (m + i + 1) (by omega)
          omega
        · rw [hp'] at h2
          rcases h2 with ⟨k, h2, _⟩ | h2 | h2
          · rcases hpc with h3 | h3 <;> rw [h3] at h2 <;> cases h2
          · exact ⟨trivial, Or.inl h2⟩
          · exact ⟨trivial, Or.inr h2⟩
      · exfalso
        rw [hl] at h1
        rcases hpc with rfl | rfl
        · simp only [Run.step, masterStep, hp'] at h1
          obtain ⟨_, _, h1⟩ := Res.bind_eq_ok.1 h1
          cases h1
        · simp only [Run.step, masterStep, hp'] at h1
          cases h1)
    hp
  exact ⟨m + m', Nat.le_add_right _ _, h2⟩

/-- `fill_idle_queues` ends. -/
theorem no_fill (h : Exec env (initial kinds fs (program ss)) σ ls) (hk : kinds.length < 4294967296)
    (h0 : kinds ≠ []) (hd : ∀ s ∈ ss, s.blocks.Nodup) (ha : ∀ n, Alert (σ n) (ls n)) {n : Nat}
    (hc : ∀ m, n ≤ m → (σ m).rank = (σ n).rank) : (σ n).pc ≠ .fillFinished ∧ (σ n).pc ≠ .fillReady := by
  rw [← not_or]
  intro hpc
  have hp : (σ n).pc.polling = true := by rcases hpc with hpc | hpc <;> rw [hpc] <;> rfl
  obtain ⟨m, h1, h2⟩ := h.polled hk hd ha hc hp
  obtain ⟨_, h3, h4⟩ := (h.stuck hc h1).2 hp
  have hready : ∃ m', m ≤ m' ∧ (σ m').pc = .fillReady := by
    cases hm : (σ m).pc with
    | wait k =>
      exfalso
      have := (h4 k).2 hm
      rcases hpc with hpc | hpc <;> rw [hpc] at this <;> cases this
    | fillReady => exact ⟨m, le_rfl, hm⟩
    | fillFinished =>
      obtain ⟨m', h5, h6 | h6⟩ := h.filling hc (Or.inl rfl) h1 hm
      · exact ⟨m', h5, h6.2⟩
      · cases h6.1
    | _ => rw [hm] at h3; cases h3
  obtain ⟨m1, h5, h6⟩ := hready
  obtain ⟨m2, h7, h8 | ⟨_, _, h8, h9, h10⟩⟩ := h.filling hc (Or.inr rfl) (h1.trans h5) h6
  · cases h8.1
  · have hg := h.good hk hd m2
    obtain ⟨a, b, e1, _, _, e2, e3⟩ := hg.inv.book.split
    have ha : a = [] := List.length_eq_zero_iff.1 (e2.symm.trans h9)
    have hb : b = [] := List.length_eq_zero_iff.1 (e3.symm.trans h8)
    have h11 := hg.inv.book.perm
    rw [e1, ha, hb, h10, h2 m2 (h5.trans h7), hg.size] at h11
    have := h11.length_eq
    rw [List.length_range] at this
    exact h0 (List.length_eq_zero_iff.1 this.symm)

/-- The thread that is being stopped. -/
theorem closing (h : Exec env (initial kinds fs (program ss)) σ ls) (n i : Nat)
    (hpc : (σ n).pc = .shutNotify i ∨ (σ n).pc = .join i) : i < (σ n).size ∧ ((σ n).thr i).stop = true :=
  Closing.reachable (h.reachable n) (fun _ hi => by rcases hi with hi | hi <;> cases hi) i hpc

/-- Threads that are told to stop stop. -/
theorem no_join (h : Exec env (initial kinds fs (program ss)) σ ls) (hk : kinds.length < 4294967296)
    (hd : ∀ s ∈ ss, s.blocks.Nodup) (ha : ∀ n, Alert (σ n) (ls n)) {n : Nat}
    (hc : ∀ m, n ≤ m → (σ m).rank = (σ n).rank) (i : Nat) : (σ n).pc ≠ .join i := by
  intro hpc
  have hpc' : ∀ m, n ≤ m → (σ m).pc = .join i := fun m hm => by
    rw [(h.stuck hc hm).1 (by rw [hpc]; rfl), hpc]
  have hphase : ∀ m, n ≤ m → ((σ m).thr i).phase = .check ∨ ((σ m).thr i).phase = .done := fun m hm => by
    have hg := h.good hk hd m
    obtain ⟨hlt, hstop⟩ := h.closing m i (Or.inr (hpc' m hm))
    have hj := (hg.inv.noJobs (by rw [hpc' m hm]; rfl)).2.2 i hlt
    have hw := (h.awake ha m).stop i
    unfold Thread.jobs at hj
    obtain ⟨h1, h2⟩ := List.append_eq_nil_iff.1 hj
    cases hp : ((σ m).thr i).phase with
    | check => exact Or.inl rfl
    | done => exact Or.inr rfl
    | wait =>
      have := hw (Or.inl hp) hstop
      rw [hpc' m hm] at this
      cases this
    | sleep =>
      have := hw (Or.inr hp) hstop
      rw [hpc' m hm] at this
      cases this
    | pop => exact absurd h2 (hg.inv.pop i hp)
    | compute j => rw [hp] at h1; cases h1
    | report j => rw [hp] at h1; cases h1
  have hlt : i < (initial kinds fs (program ss)).size := by
    have := (h.closing n i (Or.inr hpc)).1
    rw [(h.good hk hd n).size] at this
    exact this
  obtain ⟨m, h1, h2⟩ := h.thread i hlt n
  have hdone : ((σ (m + 1)).thr i).phase = .done := by
    obtain ⟨hs, hstop⟩ := h.closing m i (Or.inr (hpc' m h1))
    rcases h.next m with h3 | ⟨h3, h4⟩
    · rw [h2] at h3
      simp only [Run.step, if_pos hs, threadStep] at h3
      rcases hphase m h1 with h4 | h4
      · rw [h4] at h3
        simp only [hstop, if_true] at h3
        rw [← Option.some.inj (Res.ok.inj h3), setThread_self]
      · rw [h4] at h3
        cases h3
    · rw [h4]
      rcases hphase m h1 with h5 | h5
      · rw [h2] at h3
        simp only [Run.step, if_pos hs, threadStep, h5, hstop, if_true] at h3
        cases h3
      · exact h5
  have hstay : ∀ m', m + 1 ≤ m' → ((σ m').thr i).phase = .done := by
    intro m' hm'
    induction hm' with
    | refl => exact hdone
    | @step m' hm' ih =>
      rcases h.next m' with h3 | ⟨_, h3⟩
      · have ht := step_trans h3
        cases hl : ls m' with
        | thread k =>
          rw [hl] at ht h3
          by_cases hik : i = k
          · subst hik
            simp only [Run.step, threadStep, ih] at h3
            split at h3 <;> cases h3
          · rw [(trans_other ht rfl hik).1, ih]
        | spurious k =>
          rw [hl] at ht h3
          by_cases hik : i = k
          · subst hik
            simp only [Run.step, ih] at h3
            split at h3
            · rename_i h4; cases h4.2
            · cases h3
          · rw [(trans_other ht rfl hik).1, ih]
        | master ch =>
          rw [hl] at ht
          rw [master_phase ht (by rw [ih]; simp), ih]
      · rw [h3]
        exact ih
  obtain ⟨m', h3, ch, h4⟩ := h.master (m + 1)
  rcases h.next m' with h5 | ⟨h5, _⟩
  · rw [h4] at h5
    rcases master_rank (step_trans h5) with h6 | ⟨_, _, _, h6⟩
    · have h7 := hc m' (by omega)
      have h8 := hc (m' + 1) (by omega)
      omega
    · rw [hpc' m' (by omega)] at h6
      rcases h6 with ⟨_, h6, _⟩ | ⟨h6, _⟩ | ⟨h6, _⟩ <;> cases h6
  · rw [h4] at h5
    simp only [Run.step, masterStep, hpc' m' (by omega), hstay m' h3, if_true] at h5
    cases h5

/-- The main thread is never stuck. -/
theorem progress (h : Exec env (initial kinds fs (program ss)) σ ls) (hk : kinds.length < 4294967296)
    (h0 : kinds ≠ []) (hd : ∀ s ∈ ss, s.blocks.Nodup) (ha : ∀ n, Alert (σ n) (ls n)) (hn : Renewing σ ls) (n : Nat)
    (hf : (σ n).pc ≠ .finished) : ∃ m, n ≤ m ∧ (σ m).rank < (σ n).rank := by
  by_contra hno
  have hc : ∀ m, n ≤ m → (σ m).rank = (σ n).rank := by
    intro m hm
    have h1 := h.rank_mono hm
    have h2 : ¬ (σ m).rank < (σ n).rank := fun h2 => hno ⟨m, hm, h2⟩
    omega
  have hw := h.no_wait hk hd ha hc
  have hfl := h.no_fill hk h0 hd ha hc
  have hj := h.no_join hk hd ha hc
  have hp : (σ n).pc.polling = false := by
    cases hpc : (σ n).pc with
    | wait k => exact absurd hpc (hw k)
    | fillFinished => exact absurd hpc hfl.1
    | fillReady => exact absurd hpc hfl.2
    | _ => rfl
  obtain ⟨m, h1, ch, h2, h3⟩ := hn n
  have hpc := (h.stuck hc h1).1 hp
  have hg := h.good hk hd m
  rcases h.next m with h4 | ⟨h4, _⟩
  · rw [h2] at h4
    rcases master_rank (step_trans h4) with h6 | ⟨_, _, _, h6⟩
    · have h7 := hc m (by omega)
      have h8 := hc (m + 1) (by omega)
      omega
    · rw [hpc] at h6
      rcases h6 with ⟨k, h6, _⟩ | ⟨h6, _⟩ | ⟨h6, _⟩
      · exact hw k h6
      · exact hfl.1 h6
      · exact hfl.2 h6
  · rw [h2] at h4
    rcases hg.inv.blocked h4 with h5 | ⟨i, h5, _⟩ | ⟨k, f, d, h5, h6, hv, h7, h8⟩
    · exact hf (hpc.symm.trans h5)
    · exact hj i (hpc.symm.trans h5)
    · rw [h3 k f d h5 h6 hv h7] at h8
      cases h8

/-- The run ends. -/
theorem ends (h : Exec env (initial kinds fs (program ss)) σ ls) (hk : kinds.length < 4294967296)
    (h0 : kinds ≠ []) (hd : ∀ s ∈ ss, s.blocks.Nodup) (ha : ∀ n, Alert (σ n) (ls n)) (hn : Renewing σ ls) :
    ∃ n, (σ n).pc = .finished := by
  have key : ∀ r n, (σ n).rank = r → ∃ n, (σ n).pc = .finished := by
    intro r
    induction r using Nat.strong_induction_on with
    | _ r ih =>
      intro n hr
      by_cases hf : (σ n).pc = .finished
      · exact ⟨n, hf⟩
      · obtain ⟨m, _, h2⟩ := h.progress hk h0 hd ha hn n hf
        exact ih _ (by omega) m rfl
  exact key _ 0 rfl

end Exec

end Run
end Hycu
