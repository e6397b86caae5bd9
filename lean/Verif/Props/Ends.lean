import Verif.Lemmas.PoolDone
import Verif.Props.EndToEnd

/-!
C51: runs end.
-/

namespace Hycu
namespace Run

section

variable {env : Env} {kinds : List Bool} {fs : FileSystem} {ss : List Sect} {σ : Nat → State} {ls : Nat → Label}
  {result : ConfigNode → Block → StoreMap}

/-- C51: a run with at least one thread, in which all threads are scheduled again and again, names for new files are
found, and no notification is lost, ends; nothing happens afterwards. -/
theorem C51_ends (hk : kinds.length < 4294967296) (h0 : kinds ≠ []) (hd : ∀ s ∈ ss, s.blocks.Nodup)
    (h : Exec env (initial kinds fs (program ss)) σ ls) (ha : ∀ n, Alert (σ n) (ls n)) (hn : Renewing σ ls) :
    ∃ n, ∀ m, n ≤ m → (σ m).pc = .finished ∧ (σ m).fs = (σ n).fs := by
  obtain ⟨n, hn⟩ := h.ends hk h0 hd ha hn
  refine ⟨n, fun m hm => ?_⟩
  induction m, hm using Nat.le_induction with
  | base => exact ⟨hn, rfl⟩
  | succ m _ ih =>
    rcases h.next m with h1 | ⟨_, h1⟩
    · cases hl : ls m with
      | master ch =>
        rw [hl] at h1
        simp only [step, masterStep, ih.1] at h1
        cases h1
      | thread i =>
        rw [hl] at h1
        have ht := step_trans h1
        exact ⟨(thread_pc ht).1.trans ih.1, (thread_fs ht).trans ih.2⟩
      | spurious i =>
        rw [hl] at h1
        have ht := step_trans h1
        exact ⟨(thread_pc ht).1.trans ih.1, (thread_fs ht).trans ih.2⟩
    · rw [h1]
      exact ih

/-- C51: if moreover no number of the configurations is zero, and directories can be created, then all sections have
been worked off, and the merger gives the sum of the results of all blocks. -/
theorem C51_complete (hi : Input env ss result) (hp : Past env ss fs) (hz : ∀ s ∈ ss, Nonzero s.cfg)
    (hk : kinds.length < 4294967296) (h0 : kinds ≠ []) (h : Exec env (initial kinds fs (program ss)) σ ls)
    (ha : ∀ n, Alert (σ n) (ls n)) (hn : Renewing σ ls) (hc : Creating ls) :
    ∃ n, (σ n).pc = .finished ∧ (σ n).todo = [] ∧ ∀ s ∈ ss, ∃ d r m, (σ n).fs s.cfg.resultPath = some d ∧
      Merger.merge d = .ok ⟨0, some (Store.print m, Record.print r)⟩ ∧
      Tally m (s.blocks.flatMap (result s.cfg)) ∧ ∀ b, b ≠ [] → (b ∈ r ↔ b ∈ s.blocks) := by
  obtain ⟨n, hf⟩ := h.ends hk h0 hi.blocks ha hn
  have ht := h.left_todo hc hz (n := n) (by rw [hf]; rfl)
  refine ⟨n, hf, ht, fun s hs => ?_⟩
  obtain ⟨d, _, h1, _, _, r, m, h2⟩ := C35_exact_partial hi hp hk (h.reachable n) hf ht s hs
  exact ⟨d, r, m, h1, h2⟩

/-- C51: there is such an execution. -/
theorem C51_exists (hi : Input env ss result) (hp : Past env ss fs) (hk : kinds.length < 4294967296) :
    ∃ σ ls, Exec env (initial kinds fs (program ss)) σ ls ∧ (∀ n, Alert (σ n) (ls n)) ∧ Renewing σ ls ∧ Creating ls :=
  exists_exec hk hi.blocks fun _ hr l => C38_safe hi hp hk hr l

/-- C51: so that every run can end, whatever happened in earlier runs. -/
theorem C51_reachable (hi : Input env ss result) (hp : Past env ss fs) (hz : ∀ s ∈ ss, Nonzero s.cfg)
    (hk : kinds.length < 4294967296) (h0 : kinds ≠ []) :
    ∃ st, Reachable env (initial kinds fs (program ss)) st ∧ st.pc = .finished ∧ st.todo = [] := by
  obtain ⟨σ, ls, h, ha, hn, hc⟩ := C51_exists (kinds := kinds) hi hp hk
  obtain ⟨n, h1, h2, _⟩ := C51_complete hi hp hz hk h0 h ha hn hc
  exact ⟨σ n, h.reachable n, h1, h2⟩

end

/-- Hypotheses of `C51_complete`: two sections with one and three blocks, one thread of each kind. -/
example : ∃ σ ls, Exec Mpi.demoEnv (initial [true, false] (fun _ => none) (program Mpi.demoSects)) σ ls ∧
    (∀ n, Alert (σ n) (ls n)) ∧ Renewing σ ls ∧ Creating ls ∧ ∀ s ∈ Mpi.demoSects, Nonzero s.cfg := by
  obtain ⟨σ, ls, h1, h2, h3, h4⟩ := C51_exists (fs := fun _ => none) (kinds := [true, false]) Mpi.demo_input
    (.start _ fun s _ d hd => by cases hd) (by decide)
  refine ⟨σ, ls, h1, h2, h3, h4, fun s hs => ?_⟩
  simp only [Mpi.demoSects, List.mem_cons, List.not_mem_nil, or_false] at hs
  rcases hs with rfl | rfl <;> constructor <;> decide

/-- The run without threads. -/
def hungState : Nat → State
  | 0 => initial [] (fun _ => some []) (program [lostSect])
  | n + 1 =>
    match step lostEnv (hungState n) (.master lostChoice) with
    | .ok (some st) => st
    | _ => hungState n

theorem hung_step (n : Nat) (hn : n < 8) :
    step lostEnv (hungState n) (.master lostChoice) = .ok (some (hungState (n + 1))) := by
  interval_cases n <;> rfl

theorem hung_first : step lostEnv (hungState 7) (.master lostChoice) = .ok (some (hungState 8)) := rfl

theorem hung_second : step lostEnv (hungState 8) (.master lostChoice) = .ok (some (hungState 7)) := rfl

theorem hung_tail (n : Nat) (hn : 7 ≤ n) : hungState n = hungState 7 ∨ hungState n = hungState 8 := by
  induction n, hn using Nat.le_induction with
  | base => exact Or.inl rfl
  | succ n _ ih =>
    rw [hungState]
    rcases ih with ih | ih
    · rw [ih, hung_first]
      exact Or.inr rfl
    · rw [ih, hung_second]
      exact Or.inl rfl

/-- C51: without threads (for example if `hardware_concurrency` gives 0) a run with a block to be computed does not end,
although no notification is lost. -/
theorem C51_no_threads : ∃ (env : Env) (fs : FileSystem) (ss : List Sect) (σ : Nat → State) (ls : Nat → Label),
    (∀ s ∈ ss, s.blocks.Nodup ∧ Nonzero s.cfg) ∧ Exec env (initial [] fs (program ss)) σ ls ∧
    (∀ n, Alert (σ n) (ls n)) ∧ Creating ls ∧ ∀ n, (σ n).pc ≠ .finished := by
  have hnext : ∀ n, step lostEnv (hungState n) (.master lostChoice) = .ok (some (hungState (n + 1))) := by
    intro n
    by_cases hn : n < 8
    · exact hung_step n hn
    · rw [hungState]
      rcases hung_tail n (by omega) with h | h
      · rw [h, hung_first]
      · rw [h, hung_second]
  have hpc : ∀ n, (hungState n).pc ≠ .finished := by
    intro n
    by_cases hn : n < 7
    · interval_cases n <;> exact (by intro h; cases h)
    · rcases hung_tail n (by omega) with h | h <;> rw [h] <;> exact (by intro h; cases h)
  refine ⟨lostEnv, fun _ => some [], [lostSect], hungState, fun _ => .master lostChoice, fun s hs => ?_,
    ⟨rfl, fun n => Or.inl (hnext n), fun i hi => absurd hi (Nat.not_lt_zero i), fun n => ⟨n, le_rfl, _, rfl⟩⟩,
    fun n i hi => ?_, fun n ch h => by cases h; rfl, hpc⟩
  · rw [List.mem_singleton.1 hs]
    exact ⟨by decide, by constructor <;> decide⟩
  · exfalso
    have hj : ∀ n i, ¬ ((hungState n).pc = .shutNotify i ∨ ∃ b, (hungState n).pc = .notify i b) := by
      intro n i hi
      by_cases hn : n < 7
      · interval_cases n <;> rcases hi with hi | ⟨b, hi⟩ <;> cases hi
      · rcases hung_tail n (by omega) with h | h <;> rw [h] at hi <;> rcases hi with hi | ⟨b, hi⟩ <;> cases hi
    exact hj n i hi

/-- A run without threads. -/
structure NoThreads (st : State) : Prop where
  size : st.size = 0
  idle : st.pool.idle = []
  ready : st.pool.ready = []
  finished : st.pool.finished = []
  assigned : st.assigned = []
  cpu : st.nmbCpu = 0
  opencl : st.nmbOpencl = 0
  take : st.pc ≠ .take
  notify : ∀ i b, st.pc ≠ .notify i b
  insert : ∀ b, st.pc ≠ .insert b
  log : assignedJobs st.log = []

section

variable {env : Env} {st st' : State} {fs : FileSystem} {todo : List Cmd}

theorem NoThreads.initial (fs : FileSystem) (todo : List Cmd) : NoThreads (initial [] fs todo) := by
  constructor <;> first | rfl | (intros; intro h; cases h)

theorem afterSave_pc (k : Cont) : afterSave k ≠ .take ∧ (∀ i b, afterSave k ≠ .notify i b) ∧
    ∀ b, afterSave k ≠ .insert b := by
  cases k <;> refine ⟨?_, fun i b => ?_, fun b => ?_⟩ <;> intro h <;> cases h

/-- The loop of `fill_idle_queues`. -/
def Spins (pc : Pc) : Prop := pc = .fillFinished ∨ pc = .fillReady

/-- Steps that change nothing of importance here. -/
theorem NoThreads.quiet (h : NoThreads st) (h1 : st'.size = st.size) (h2 : st'.pool = st.pool)
    (h3 : st'.assigned = st.assigned) (h4 : st'.nmbCpu = st.nmbCpu) (h5 : st'.nmbOpencl = st.nmbOpencl)
    (h6 : st'.pc ≠ .take ∧ (∀ i b, st'.pc ≠ .notify i b) ∧ ∀ b, st'.pc ≠ .insert b)
    (h7 : assignedJobs st'.log = assignedJobs st.log) : NoThreads st' :=
  ⟨h1 ▸ h.size, h2 ▸ h.idle, h2 ▸ h.ready, h2 ▸ h.finished, h3 ▸ h.assigned, h4 ▸ h.cpu, h5 ▸ h.opencl, h6.1, h6.2.1,
    h6.2.2, h7 ▸ h.log⟩

theorem wake_quiet (st : State) (i : Nat) : (wake st i).size = st.size ∧ (wake st i).pool = st.pool ∧
    (wake st i).assigned = st.assigned ∧ (wake st i).nmbCpu = st.nmbCpu ∧ (wake st i).nmbOpencl = st.nmbOpencl ∧
    (wake st i).log = st.log := by
  unfold wake
  split <;> exact ⟨rfl, rfl, rfl, rfl, rfl, rfl⟩

theorem NoThreads.trans (h : NoThreads st) {a : Option Nat} (ht : Trans env st a st') :
    NoThreads st' ∧ (Spins st.pc → Spins st'.pc) := by
  have none' : ∀ {i}, i < st.size → False := fun hi => by rw [h.size] at hi; exact Nat.not_lt_zero _ hi
  have away : ∀ {pc : Pc} {P : Prop}, st.pc = pc → ¬ Spins pc → Spins st.pc → P :=
    fun h1 h2 h3 => absurd (h1 ▸ h3) h2
  have no : ∀ {pc : Pc}, pc ≠ .fillFinished → pc ≠ .fillReady → ¬ Spins pc := fun h1 h2 h3 => h3.elim h1 h2
  cases ht with
  | checkDone i hi | checkWait i hi | checkPop i hi | doze i hi | pop i hi | compute i hi | report i hi
  | spurious i hi => exact (none' hi).elim
  | mainEnd hpc =>
    exact ⟨h.quiet rfl rfl rfl rfl rfl ⟨nofun, nofun, nofun⟩ rfl, away hpc (no nofun nofun)⟩
  | mainConfig hpc c rest ht create v hv =>
    refine ⟨h.quiet rfl rfl rfl rfl rfl ?_ rfl, away hpc (no nofun nofun)⟩
    dsimp only
    split <;> exact ⟨nofun, nofun, nofun⟩
  | mainAssign hpc b rest ht now =>
    refine ⟨h.quiet rfl rfl rfl rfl rfl ?_ rfl, away hpc (no nofun nofun)⟩
    dsimp only
    split <;> exact ⟨nofun, nofun, nofun⟩
  | wait k hpc a ha =>
    rw [h.finished, h.assigned] at ha
    cases ha
    refine ⟨⟨h.size, h.idle, h.ready, rfl, rfl, h.cpu, h.opencl, nofun, nofun, nofun, ?_⟩, away hpc (no nofun nofun)⟩
    rw [h.finished]
    exact h.log
  | saveNone k hpc | saveLost k hpc | writeEnd k hpc =>
    exact ⟨h.quiet rfl rfl rfl rfl rfl (afterSave_pc k) rfl, away hpc (no nofun nofun)⟩
  | saveStart k hpc =>
    exact ⟨h.quiet rfl rfl rfl rfl rfl ⟨nofun, nofun, nofun⟩ rfl, away hpc (no nofun nofun)⟩
  | writeLost k n c ws hpc | write k n c ws hpc | newStoreInvalid hpc | newStore hpc | update hpc | skip hpc =>
    exact ⟨h.quiet rfl rfl rfl rfl rfl ⟨nofun, nofun, nofun⟩ rfl, away hpc (no nofun nofun)⟩
  | fill hpc =>
    exact ⟨h.quiet rfl rfl rfl rfl rfl ⟨nofun, nofun, nofun⟩ rfl, fun _ => .inl rfl⟩
  | noFill hpc b rest ht f hf hc ho => exact absurd h.opencl ho
  | fillFinished hpc a ha =>
    rw [h.finished, h.assigned] at ha
    cases ha
    refine ⟨⟨h.size, h.idle, h.ready, rfl, rfl, h.cpu, h.opencl, nofun, nofun, nofun, ?_⟩, fun _ => .inr rfl⟩
    rw [h.finished]
    exact h.log
  | fillReady hpc =>
    have hr : st.pool.flushReady (fun i => (st.thr i).opencl) = ({ st.pool with idle := [], ready := [] }, 0, 0) := by
      unfold ThreadPool.flushReady
      rw [h.ready, h.idle]
      rfl
    have hst : fillReadyStep st = { st with
        pool := { st.pool with idle := [], ready := [] }, nmbCpu := 0, nmbOpencl := 0, pc := .fillFinished } := by
      unfold fillReadyStep
      rw [hr, h.cpu, h.opencl]
      rfl
    rw [hst]
    exact ⟨⟨h.size, rfl, rfl, h.finished, h.assigned, rfl, rfl, nofun, nofun, nofun, h.log⟩, fun _ => .inl rfl⟩
  | takeOpencl hpc | takeCpu hpc => exact absurd hpc h.take
  | notify i b hpc => exact absurd hpc (h.notify i b)
  | insert b hpc => exact absurd hpc (h.insert b)
  | shutdown i hpc hi => exact (none' hi).elim
  | shutdownEnd i hpc =>
    exact ⟨h.quiet rfl rfl rfl rfl rfl ⟨nofun, nofun, nofun⟩ rfl, away hpc (no nofun nofun)⟩
  | shutNotify i hpc =>
    obtain ⟨h1, h2, h3, h4, h5, h6⟩ := wake_quiet st i
    exact ⟨h.quiet h1 h2 h3 h4 h5 ⟨nofun, nofun, nofun⟩ (congrArg _ h6), away hpc (no nofun nofun)⟩
  | join i hpc =>
    exact ⟨h.quiet rfl rfl rfl rfl rfl ⟨nofun, nofun, nofun⟩ rfl, away hpc (no nofun nofun)⟩

/-- C51: a run without threads (for example if `hardware_concurrency` gives 0) never assigns a block, and as soon as
`assign` is called for a block that is not in the records read at the beginning of the section, it remains in the loop
of `fill_idle_queues` for ever. -/
theorem C51_spins (hr : Reachable env (initial [] fs todo) st) :
    assignedJobs st.log = [] ∧ ∀ b rest f, st.pc = .contains → st.todo = .assign b :: rest → st.fileStore = some f →
      FileStore.contains f.initial b = false → ∀ l st₁, step env st l = .ok (some st₁) →
      ∀ st', Reachable env st₁ st' → st'.pc = .fillFinished ∨ st'.pc = .fillReady := by
  have hi : ∀ {st₀ st}, NoThreads st₀ → Reachable env st₀ st → NoThreads st ∧ (Spins st₀.pc → Spins st.pc) := by
    intro st₀ st h hr
    induction hr with
    | refl => exact ⟨h, id⟩
    | step l _ hs ih =>
      have := ih.1.trans (step_trans hs)
      exact ⟨this.1, fun h => this.2 (ih.2 h)⟩
  have h := (hi (.initial fs todo) hr).1
  refine ⟨h.log, fun b rest f hpc ht hf hc l st₁ hs st' hr' => ?_⟩
  have h1 := h.trans (step_trans hs)
  refine (hi h1.1 hr').2 ?_
  cases l with
  | thread i =>
    have hs' : (if i < st.size then threadStep env st i else .ok none) = Res.ok (some st₁) := hs
    rw [h.size, if_neg (Nat.not_lt_zero i)] at hs'
    cases hs'
  | spurious i =>
    have hs' : (if i < st.size ∧ (st.thr i).phase = .sleep then Res.ok (some (wake st i)) else .ok none) =
      Res.ok (some st₁) := hs
    rw [h.size, if_neg (fun h => Nat.not_lt_zero i h.1)] at hs'
    cases hs'
  | master ch =>
    have hs' : masterStep st ch = Res.ok (some st₁) := hs
    unfold masterStep at hs'
    rw [hpc] at hs'
    dsimp only at hs'
    rw [ht] at hs'
    dsimp only at hs'
    unfold containsStep at hs'
    rw [hf] at hs'
    dsimp only at hs'
    rw [hc, if_neg (by decide), if_pos h.opencl] at hs'
    cases hs'
    exact .inl rfl

end

/-- Hypotheses of `C51_spins`: the state after six steps of the run of `C51_no_threads`. -/
example : Reachable lostEnv (initial [] (fun _ => some []) (program [lostSect])) (hungState 6) ∧
    (hungState 6).pc = .contains ∧ ∃ b rest f, (hungState 6).todo = .assign b :: rest ∧
      (hungState 6).fileStore = some f ∧ FileStore.contains f.initial b = false := by
  refine ⟨?_, rfl, _, _, _, rfl, rfl, rfl⟩
  have h : ∀ n, n ≤ 6 → Reachable lostEnv (initial [] (fun _ => some []) (program [lostSect])) (hungState n) := by
    intro n hn
    induction n with
    | zero => exact .refl
    | succ n ih => exact .step _ (ih (by omega)) (hung_step n (by omega))
  exact h 6 le_rfl

end Run

section

variable {w : Flint} {ss : List Run.Sect} {fs : FileSystem}

/-- C51: runs over the blocks of configurations end with the numbers of polynomials: this removes the hypothesis of C47
that the run is complete. -/
theorem C51_total (hw : ∀ s ∈ ss, w.Setting s.cfg) (hc : ∀ s ∈ ss, s.cfg.Feasible)
    (hn : ∀ s hs k, (hw s hs).count k < 4611686018427387904) (hp : (ss.map fun s => s.cfg.resultPath).Nodup)
    (hb : ∀ s ∈ ss, Terminates (w.blocks s.cfg) s.blocks) (hf : Run.Past w.env ss fs) {kinds : List Bool}
    (hk : kinds.length < 4294967296) (h0 : kinds ≠ []) {σ : Nat → Run.State} {ls : Nat → Run.Label}
    (h : Run.Exec w.env (Run.initial kinds fs (Run.program ss)) σ ls) (ha : ∀ n, Run.Alert (σ n) (ls n))
    (hr : Run.Renewing σ ls) (hcr : Run.Creating ls) :
    ∃ n, ∀ s hs, ∃ d r m, (σ n).fs s.cfg.resultPath = some d ∧
      Merger.merge d = .ok ⟨0, some (Store.print m, Record.print r)⟩ ∧ OMap.Sorted m ∧
      ∀ k z, (k, z) ∈ m ↔ 0 < z ∧ z = (hw s hs).count k := by
  have hz : ∀ s ∈ ss, Run.Nonzero s.cfg := fun s hs => by
    let _ := (hw s hs).field
    let _ := (hw s hs).fintype
    let _ := (hw s hs).decEq
    obtain ⟨h1, h2, _⟩ := (hw s hs).built.facts
    have h3 := hc s hs
    exact ⟨h1.ne_zero, h2.ne', h3.genus_pos.ne', h3.count_pos.ne', h3.package_pos.ne'⟩
  obtain ⟨n, h1, h2, _⟩ := Run.C51_complete (Flint.input (fun s hs => ⟨hw s hs, hn s hs⟩) hc hp hb) hf hz hk h0 h ha hr hcr
  exact ⟨n, C47_threaded hw hc hn hp hb hf hk (h.reachable n) h1 h2⟩

end

end Hycu
