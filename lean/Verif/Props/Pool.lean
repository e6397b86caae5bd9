import Mathlib.Tactic.IntervalCases
import Verif.Lemmas.PoolLive

/-!
Properties of runs of `hycu-threaded`: C37, C38, C39, C40, C41.
-/

namespace Hycu
namespace Run

theorem assign_kind {oc : Nat → Bool} {p : ThreadPool} {b : Block} {o : Bool} {r : ThreadPool × Nat}
    (h : p.assign oc b o = .ok r) : oc r.2 = o := by
  unfold ThreadPool.assign at h
  split at h
  · cases h
  · split at h
    · rename_i ho
      cases h
      exact ho
    · cases h

section

variable {env : Env} {kinds : List Bool} {fs : FileSystem} {ss : List Sect} {st : State}

/-- C37: every thread is in exactly one of the idle, ready and busy threads, and the counters are the numbers of idle
threads of the two kinds. -/
theorem C37_counters (hk : kinds.length < 4294967296) (hd : ∀ s ∈ ss, s.blocks.Nodup)
    (hr : Reachable env (initial kinds fs (program ss)) st) :
    (∀ i, st.pool.idle.count i + st.pool.ready.count i + (st.pool.busy.map Prod.snd).count i =
      if i < kinds.length then 1 else 0) ∧
    st.nmbOpencl = (st.pool.idle.filter fun i => kinds[i]? = some true).length ∧
    st.nmbCpu = (st.pool.idle.filter fun i => kinds[i]? = some false).length := by
  have h := (Good.init env hk fs hd).reachable hr
  have hb := h.inv.book
  obtain ⟨a, b, h1, h2, h3, h4, h5⟩ := hb.split
  have hlt : ∀ i ∈ st.pool.idle, i < kinds.length := by
    intro i hi
    rw [← h.size]
    exact List.mem_range.1 (hb.perm.mem_iff.1 (List.mem_append_left _ (List.mem_append_left _ hi)))
  have hkind : ∀ i ∈ st.pool.idle, kinds[i]? = some (st.thr i).opencl := by
    intro i hi
    rw [h.kind i, List.getElem?_eq_getElem (hlt i hi)]
    rfl
  refine ⟨fun i => ?_, ?_, ?_⟩
  · rw [← List.count_append, ← List.count_append, hb.perm.count_eq, h.size]
    split
    · rename_i hi
      exact List.count_eq_one_of_mem List.nodup_range (List.mem_range.2 hi)
    · rename_i hi
      exact List.count_eq_zero.2 fun hm => hi (List.mem_range.1 hm)
  · rw [h4, h1, List.filter_append, List.filter_eq_self.2, List.filter_eq_nil_iff.2, List.append_nil]
    · intro i hi
      rw [hkind i (by rw [h1]; exact List.mem_append_right _ hi), h3 i hi]
      simp
    · intro i hi
      rw [hkind i (by rw [h1]; exact List.mem_append_left _ hi), h2 i hi]
      simp
  · rw [h5, h1, List.filter_append, List.filter_eq_nil_iff.2, List.filter_eq_self.2, List.nil_append]
    · intro i hi
      rw [hkind i (by rw [h1]; exact List.mem_append_right _ hi), h3 i hi]
      simp
    · intro i hi
      rw [hkind i (by rw [h1]; exact List.mem_append_left _ hi), h2 i hi]
      simp

/-- C37: `assign` finds an idle thread of the kind that it looks for. -/
theorem C37_assign (hk : kinds.length < 4294967296) (hd : ∀ s ∈ ss, s.blocks.Nodup)
    (hr : Reachable env (initial kinds fs (program ss)) st) (hpc : st.pc = .take) (ch : Choice) :
    ∃ st' b i, step env st (.master ch) = .ok (some st') ∧ st'.pc = .notify i b ∧ i ∈ st.pool.idle ∧
      kinds[i]? = some (decide (st.nmbOpencl ≠ 0)) := by
  have h := (Good.init env hk fs hd).reachable hr
  have hf := h.inv.fits
  rw [hpc] at hf
  obtain ⟨b, rest, ht⟩ := hf
  have hlt : ∀ i ∈ st.pool.idle, kinds[i]? = some (st.thr i).opencl := by
    intro i hi
    have : i < kinds.length := by
      rw [← h.size]
      exact List.mem_range.1 (h.inv.book.perm.mem_iff.1 (List.mem_append_left _ (List.mem_append_left _ hi)))
    rw [h.kind i, List.getElem?_eq_getElem this]
    rfl
  simp only [step, masterStep, hpc, ht, takeStep]
  by_cases ho : st.nmbOpencl = 0
  · obtain ⟨p, hp, h1, h2, h3, h4⟩ := h.inv.takeCpu hpc ht ho
    rw [if_neg (by simpa using ho), hp]
    refine ⟨_, b, p.2, rfl, rfl, h3, ?_⟩
    rw [hlt _ h3, assign_kind hp]
    simp [ho]
  · obtain ⟨p, hp, h1, h2, h3, h4⟩ := h.inv.takeOpencl hpc ht ho
    rw [if_pos ho, hp]
    refine ⟨_, b, p.2, rfl, rfl, h3, ?_⟩
    rw [hlt _ h3, assign_kind hp]
    simp [ho]

/-- C38: every block is assigned at most once under each configuration, and every assigned block is taken, flushed,
reported and removed from the assigned blocks at most once, in this order, by the thread to which it was assigned. -/
theorem C38_once (hk : kinds.length < 4294967296) (hd : ∀ s ∈ ss, s.blocks.Nodup)
    (hr : Reachable env (initial kinds fs (program ss)) st) :
    ((assignedJobs st.log).map Prod.snd).Nodup ∧
    List.Subperm (takenJobs st.log) (assignedJobs st.log) ∧
    List.Subperm (flushedJobs st.log) (takenJobs st.log) ∧
    List.Subperm (reportedJobs st.log) (flushedJobs st.log) ∧
    List.Subperm (erasedJobs st.log) ((reportedJobs st.log).map Prod.snd) := by
  have h := (Good.init env hk fs hd).reachable hr
  refine ⟨h.once.nodup, List.subperm_iff_count.2 fun e => ?_, List.subperm_iff_count.2 fun e => ?_,
    List.subperm_iff_count.2 fun e => ?_, ?_⟩
  · convert Nat.le.intro (h.count e.1 e.2).1.symm
  · convert Nat.le.intro (h.count e.1 e.2).2.1.symm
  · convert Nat.le.intro (h.count e.1 e.2).2.2.symm
  · exact (List.sublist_append_left _ _).subperm.trans h.erased.symm.subperm

/-- C38: at the end of a run every assigned block has been taken, flushed, reported and removed exactly once. -/
theorem C38_end (hk : kinds.length < 4294967296) (hd : ∀ s ∈ ss, s.blocks.Nodup)
    (hr : Reachable env (initial kinds fs (program ss)) st) (he : st.pc = .finished) :
    (takenJobs st.log).Perm (assignedJobs st.log) ∧ (flushedJobs st.log).Perm (assignedJobs st.log) ∧
    (reportedJobs st.log).Perm (assignedJobs st.log) ∧
    (erasedJobs st.log).Perm ((assignedJobs st.log).map Prod.snd) :=
  all_done hk hd hr (by rw [he]; rfl)

/-- C38: a run fails only if the computation of a block or adding up its results fails, or if the records cannot be
read.  In particular the blocks that are looked up when they are reported and removed are always found. -/
theorem C38_no_abort (hk : kinds.length < 4294967296) (hd : ∀ s ∈ ss, s.blocks.Nodup)
    (hr : Reachable env (initial kinds fs (program ss)) st) (l : Label)
    (hc : ∀ i j, l = .thread i → (st.thr i).phase ≠ .compute j) (hn : ∀ ch, l = .master ch → st.pc ≠ .newStore) :
    step env st l ≠ .abort ∧ step env st l ≠ .ub ∧ ∃ o, step env st l = .ok o := by
  have h := (Good.init env hk fs hd).reachable hr
  rcases h.inv.step_ok env l with ⟨o, ho⟩ | ⟨i, j, h1, _, h2⟩ | ⟨ch, h1, h2⟩
  · rw [ho]
    exact ⟨by simp, by simp, o, rfl⟩
  · exact absurd h2 (hc i j h1)
  · exact absurd h2 (hn ch h1)

/-- C39: when `wait_for_assigned_blocks` returns, all blocks assigned so far have been flushed, the static store has
the sum of the results flushed since the last save, and this is what is written next, to the current file store. -/
theorem C39_waited (hk : kinds.length < 4294967296) (hd : ∀ s ∈ ss, s.blocks.Nodup)
    (hr : Reachable env (initial kinds fs (program ss)) st) {k : Cont} (hpc : st.pc = .save k) (hka : k ≠ .assign) :
    (flushedJobs st.log).Perm (assignedJobs st.log) ∧ Gathers env (pending st.log) st.static ∧
    ∀ f d ch st', st.fileStore = some f → f.valid = true → st.fs f.config.resultPath = some d →
      step env st (.master ch) = .ok (some st') →
      st'.pc = .write
        (FileStore.saveWrites ch.id (Record.print st.static.record, Store.print st.static.store)) k ∧ st'.static = ⟨[], []⟩ ∧
      st'.log = .saved (some f.config.resultPath) st.static :: st.log := by
  have h := (Good.init env hk fs hd).reachable hr
  refine ⟨(all_done hk hd hr (by rw [hpc]; cases k <;> first | rfl | exact absurd rfl hka)).2.1, h.pend.gathers, ?_⟩
  intro f d ch st' hf hv hfs hs
  simp only [step, masterStep, hpc, saveStep, hf, hv, if_true, hfs] at hs
  split at hs
  · cases hs
    exact ⟨rfl, rfl, rfl⟩
  · cases hs

/-- C39: whatever is saved is the sum of the results flushed since the last save. -/
theorem C39_saved (hk : kinds.length < 4294967296) (hd : ∀ s ∈ ss, s.blocks.Nodup)
    (hr : Reachable env (initial kinds fs (program ss)) st) {p : Option (List Char)} {s : Store.Static} {l : List Event}
    (h : .saved p s :: l <:+ st.log) : Gathers env (pending l) s := by
  obtain ⟨_, _, _, _, h⟩ := ((Good.init env hk fs hd).reachable hr).pend.saves p s l h
  exact h

/-- C39: at the end nothing is left in the static store. -/
theorem C39_end (hk : kinds.length < 4294967296) (hd : ∀ s ∈ ss, s.blocks.Nodup)
    (hr : Reachable env (initial kinds fs (program ss)) st) (he : st.pc = .finished) : pending st.log = [] :=
  ((Good.init env hk fs hd).reachable hr).pend.clean (by rw [he]; rfl)

/-- C41: a block is computed with the tables made by the last `update_config` before it was assigned, for the
configuration of the section of the input that contains the block. -/
theorem C41_tables (hk : kinds.length < 4294967296) (hd : ∀ s ∈ ss, s.blocks.Nodup)
    (hr : Reachable env (initial kinds fs (program ss)) st) :
    (∀ i j l, (.assigned i j :: l) <:+ st.log → ∃ tb, lastConfig l = some tb ∧ j.tables = some tb ∧
      ∃ s ∈ ss, tb.cfg = s.cfg ∧ j.block ∈ s.blocks) ∧
    ∀ i j, (st.thr i).phase = .compute j → (i, j) ∈ assignedJobs st.log := by
  have h := (Good.init env hk fs hd).reachable hr
  refine ⟨fun i j l hl => ?_, fun i j hp => ?_⟩
  · obtain ⟨h1, h2⟩ := h.table.asg i j l hl
    have h3 : (i, j) ∈ assignedJobs st.log := by
      obtain ⟨t, ht⟩ := hl
      rw [← ht]
      unfold assignedJobs
      rw [List.filterMap_append]
      exact List.mem_append_right _ List.mem_cons_self
    obtain ⟨s, hs, tb, h4, h5, h6⟩ := h.from_ _ h3
    exact ⟨tb, by rw [← h1]; exact h4, h4, s, hs, h5, h6⟩
  · have h1 := h.count i j
    rw [hp] at h1
    have : 0 < (assignedJobs st.log).count (i, j) := by
      rw [h1.1, h1.2.1]
      simp [Phase.computing]
    exact List.count_pos_iff.1 this

/-- C41: what is saved are results for the current configuration, and it is saved to its directory. -/
theorem C41_saved (hk : kinds.length < 4294967296) (hd : ∀ s ∈ ss, s.blocks.Nodup)
    (hr : Reachable env (initial kinds fs (program ss)) st) {p : Option (List Char)} {s : Store.Static} {l : List Event}
    (h : .saved p s :: l <:+ st.log) : ∃ tb, lastConfig l = some tb ∧ (∀ q, p = some q → q = tb.cfg.resultPath) ∧
      (∀ j ∈ pending l, j.tables = some tb) ∧ Gathers env (pending l) s :=
  ((Good.init env hk fs hd).reachable hr).pend.saves p s l h

/-- C41: files are only written to the directory of the current configuration; the directory of the next configuration
is made if it does not exist. -/
theorem C41_writes (hk : kinds.length < 4294967296) (hd : ∀ s ∈ ss, s.blocks.Nodup)
    (hr : Reachable env (initial kinds fs (program ss)) st) {l : Label} {st' : State}
    (hs : step env st l = .ok (some st')) {path : List Char} (hne : st'.fs path ≠ st.fs path) :
    (∃ tb, lastConfig st.log = some tb ∧ path = tb.cfg.resultPath) ∨
    (st.fs path = none ∧ st'.fs path = some [] ∧ ∃ s ∈ ss, path = s.cfg.resultPath) := by
  have h := (Good.init env hk fs hd).reachable hr
  have ht := step_trans hs
  clear hs
  generalize l.actor = a at ht
  cases ht with
  | mainConfig hpc c rest ht create v hv =>
    right
    have hc : ∃ s ∈ ss, s.cfg = c := by
      rcases h.pos with ⟨h1, _⟩ | ⟨pre, s, post, done, rs, tb, h1⟩
      · rw [ht] at h1
        cases ss with
        | nil => cases h1
        | cons s ss => cases h1; exact ⟨s, List.mem_cons_self, rfl⟩
      · have h2 := h1.todo
        rw [ht] at h2
        cases rs with
        | cons b rs => cases h2
        | nil =>
          cases post with
          | nil => cases h2
          | cons s' post =>
            cases h2
            exact ⟨s', by rw [h1.sections]; simp, rfl⟩
    obtain ⟨s, hs, rfl⟩ := hc
    unfold ConfigNode.verify at hv
    simp only at hne ⊢
    split at hv
    · split at hv
      · cases hv
        exact absurd rfl hne
      · rename_i hp
        cases create with
        | false => cases hv; exact absurd rfl hne
        | true =>
          cases hv
          by_cases hpath : path = s.cfg.resultPath
          · subst hpath
            exact ⟨by simpa [Option.isSome_iff_ne_none] using hp, by simp [FileSystem.set], s, hs, rfl⟩
          · simp [FileSystem.set, hpath] at hne
    · cases hv
      exact absurd rfl hne
  | write k n c ws hpc f hf d hd =>
    left
    have hpath : path = f.config.resultPath := by
      by_contra hpath
      simp [FileSystem.set, hpath] at hne
    have hu : st.pc ≠ .update := by rw [hpc]; simp
    obtain ⟨tb, htb⟩ := Option.ne_none_iff_exists'.1 (h.pend.cur (by rw [hf]; simp) hu)
    obtain ⟨f', hf', hc⟩ := h.pend.obj tb htb
    rw [hf] at hf'
    cases hf'
    exact ⟨tb, by rw [h.table.last, htb], by rw [hpath, hc hu]⟩
  | notify k b hpc => exact absurd (by simp only [wake_fs]) hne
  | shutNotify k hpc => exact absurd (by simp only [wake_fs]) hne
  | _ => exact absurd rfl hne

/-- C40: a thread that sleeps after a notification was lost sleeps until it wakes up spuriously, whatever the other
threads do. -/
theorem C40_sleeps (hk : kinds.length < 4294967296) (hd : ∀ s ∈ ss, s.blocks.Nodup)
    (hr : Reachable env (initial kinds fs (program ss)) st) {i : Nat} (h : Asleep i st) {l : Label} {st' : State}
    (hl : l ≠ .spurious i) (hs : step env st l = .ok (some st')) : Asleep i st' ∧ st'.pc ≠ .finished := by
  have hg := (Good.init env hk fs hd).reachable hr
  have h1 := h.step hg.inv hl hs
  refine ⟨h1, fun hf => ?_⟩
  have := ((hg.trans (step_trans hs)).inv.busy h1.lt (jobs_of_queue h1.queue)).1
  rw [hf] at this
  cases this

/-- C40, under the assumption that no notification is sent to a thread which has tested its flags but does not wait yet
(which would follow if the flags were changed under the mutex that the thread holds): in every execution that does not
fail, and in which every thread is scheduled again and again, every assigned block is taken, computed and reported.
Without the assumption this is false, see `C40_false`. -/
theorem C40_processed_partial (hk : kinds.length < 4294967296) (hd : ∀ s ∈ ss, s.blocks.Nodup) {σ : Nat → State}
    {ls : Nat → Label} (h : Exec env (initial kinds fs (program ss)) σ ls) (ha : ∀ n, Alert (σ n) (ls n)) {n i : Nat}
    {j : Job} (hn : (i, j) ∈ assignedJobs (σ n).log) : ∃ m, n ≤ m ∧ (i, j) ∈ reportedJobs (σ m).log := by
  have hg : ∀ n, Reachable env (initial kinds fs (program ss)) (σ n) := by
    intro n
    induction n with
    | zero => rw [h.start]; exact .refl
    | succ n ih =>
      rcases h.next n with h1 | ⟨_, h1⟩
      · exact .step _ ih h1
      · rw [h1]; exact ih
  by_cases hi : i < kinds.length
  · exact h.processed hk hd ha hi hn
  · have hj := jobs_beyond hk hd (hg n) (Nat.le_of_not_lt hi)
    have hc := (h.good hk hd n).count i j
    unfold Thread.jobs at hj
    obtain ⟨h1, h2⟩ := List.append_eq_nil_iff.1 hj
    have h3 : ((σ n).thr i).phase.computing = [] ∧ ((σ n).thr i).phase.reporting = [] := by
      revert h1
      cases ((σ n).thr i).phase <;> simp [Phase.jobs, Phase.computing, Phase.reporting]
    rw [h2, h3.1, h3.2] at hc
    refine ⟨n, le_rfl, List.count_pos_iff.1 ?_⟩
    have h4 : 0 < (assignedJobs (σ n).log).count (i, j) := List.count_pos_iff.2 hn
    simp only [List.count_nil, Nat.add_zero] at hc
    rw [← hc.2.2, ← hc.2.1, ← hc.1]
    exact h4

end

/-- Execute some steps; `none` if one of them is not possible. -/
def exec (env : Env) (st : State) : List Label → Option State
  | [] => some st
  | l :: ls =>
    match step env st l with
    | .ok (some st') => exec env st' ls
    | _ => none

theorem exec_reachable {env : Env} {st₀ : State} {ls : List Label} : ∀ {st st' : State}, Reachable env st₀ st →
    exec env st ls = some st' → Reachable env st₀ st' := by
  induction ls with
  | nil => intro st st' hr h; cases h; exact hr
  | cons l ls ih =>
    intro st st' hr h
    simp only [exec] at h
    split at h
    · rename_i st1 hs
      exact ih (.step l hr hs) h
    · cases h

/-- The wake-up for the only block is lost. -/
def lostSect : Sect := ⟨⟨7, 1, 2, false, 1, "out".toList, 100⟩, [[(0, 10)]]⟩

def lostEnv : Env := ⟨fun _ _ => .ok []⟩

def lostInit : State := initial [false] (fun _ => some []) (program [lostSect])

def lostChoice : Choice := ⟨false, true, 0⟩

/-- The main thread up to `assign`; the thread tests its flags; the main thread puts the block into its queue, and
notifies; the thread waits; the main thread waits for the block. -/
def lostLabels : List Label :=
  List.replicate 9 (.master lostChoice) ++ [.thread 0] ++ List.replicate 3 (.master lostChoice) ++
    [.thread 0, .master lostChoice]

def lostTail (n : Nat) : Label := if n % 2 = 0 then .thread 0 else .master lostChoice

def lostState : Nat → State
  | 0 => lostInit
  | n + 1 =>
    match step lostEnv (lostState n) (lostLabels.getD n (lostTail n)) with
    | .ok (some st) => st
    | _ => lostState n

def lostJob : Job := ⟨[(0, 10)], some ⟨lostSect.cfg, 0⟩⟩

theorem lost_succ (n : Nat) : lostState (n + 1) =
    match step lostEnv (lostState n) (lostLabels.getD n (lostTail n)) with
    | .ok (some st) => st
    | _ => lostState n := rfl

theorem lost_step (n : Nat) (hn : n < 15) :
    step lostEnv (lostState n) (lostLabels.getD n (lostTail n)) = .ok (some (lostState (n + 1))) := by
  interval_cases n <;> rfl

theorem lost_thread : step lostEnv (lostState 15) (.thread 0) = .ok none := rfl

theorem lost_master : step lostEnv (lostState 15) (.master lostChoice) = .ok (some (lostState 15)) := rfl

theorem lost_tail (n : Nat) (hn : 15 ≤ n) : lostState n = lostState 15 ∧ lostLabels.getD n (lostTail n) = lostTail n := by
  have hl : ∀ n, 15 ≤ n → lostLabels.getD n (lostTail n) = lostTail n := by
    intro n hn
    rw [List.getD_eq_getElem?_getD, List.getElem?_eq_none (by exact hn)]
    rfl
  refine ⟨?_, hl n hn⟩
  induction n, hn using Nat.le_induction with
  | base => rfl
  | succ n hn ih =>
    rw [lost_succ, hl n hn, ih, lostTail]
    by_cases h : n % 2 = 0
    · rw [if_pos h, lost_thread]
    · rw [if_neg h, lost_master]

/-- C40 is false: there is an execution without failures in which every thread is scheduled again and again, and a
block that was assigned is never taken, so that the run does not end. -/
theorem C40_false : ∃ (env : Env) (kinds : List Bool) (fs : FileSystem) (ss : List Sect) (σ : Nat → State)
    (ls : Nat → Label) (i : Nat) (j : Job) (n : Nat),
    (∀ s ∈ ss, s.blocks.Nodup) ∧ Exec env (initial kinds fs (program ss)) σ ls ∧
    (∀ m, n ≤ m → (i, j) ∈ assignedJobs (σ m).log ∧ (i, j) ∉ takenJobs (σ m).log) ∧
    ∀ m, (σ m).pc ≠ .finished := by
  refine ⟨lostEnv, [false], fun _ => some [], [lostSect], lostState, fun n => lostLabels.getD n (lostTail n), 0, lostJob,
    15, ?_, ⟨rfl, fun n => ?_, fun i hi n => ?_, fun n => ?_⟩, fun m hm => ?_, fun m => ?_⟩
  · intro s hs
    rw [List.mem_singleton.1 hs]
    decide
  · by_cases hn : n < 15
    · exact Or.inl (lost_step n hn)
    · have h1 := lost_tail n (by omega)
      have h2 := lost_tail (n + 1) (by omega)
      simp only [h1.2, h1.1, h2.1]
      rw [lostTail]
      split
      · exact Or.inr ⟨lost_thread, trivial⟩
      · exact Or.inl lost_master
  · have hi : i = 0 := Nat.lt_one_iff.1 hi
    subst hi
    refine ⟨2 * n + 16, by omega, ?_⟩
    rw [(lost_tail (2 * n + 16) (by omega)).2, lostTail, if_pos (by omega)]
  · refine ⟨2 * n + 17, by omega, lostChoice, ?_⟩
    rw [(lost_tail (2 * n + 17) (by omega)).2, lostTail, if_neg (by omega)]
  · rw [(lost_tail m hm).1]
    refine ⟨List.mem_cons_self, ?_⟩
    exact List.not_mem_nil
  · by_cases hm : m < 15
    · interval_cases m <;> exact (by intro h; cases h)
    · rw [(lost_tail m (by omega)).1]
      intro h
      cases h

/-- Two sections with one and two blocks, one thread of each kind. -/
def demoSects : List Sect :=
  [⟨⟨7, 1, 2, false, 1, "a".toList, 100⟩, [[(0, 10)]]⟩, ⟨⟨11, 1, 1, false, 1, "b".toList, 100⟩, [[(0, 10)], [(10, 12)]]⟩]

def demoEnv : Env := ⟨fun c b => .ok [(⟨[c.prime], [b.length]⟩, 3)]⟩

def demoInit : State := initial [true, false] (fun _ => none) (program demoSects)

def mainSteps (n : Nat) : List Label := List.replicate n (.master ⟨false, true, 5⟩)

def threadSteps (i n : Nat) : List Label := List.replicate n (.thread i)

/-- The first section: the OpenCL thread computes its block, which is saved to the first directory. -/
def demoFirst : List Label := threadSteps 0 2 ++ mainSteps 12 ++ threadSteps 0 4 ++ mainSteps 7

/-- The second section: both threads get a block. -/
def demoSecond : List Label := demoFirst ++ mainSteps 15 ++ threadSteps 0 4 ++ threadSteps 1 4 ++ mainSteps 3

/-- The second directory is written and the threads stop. -/
def demoAll : List Label := demoSecond ++ mainSteps 5 ++ threadSteps 0 1 ++ mainSteps 3 ++ threadSteps 1 1 ++ mainSteps 2

/-- Hypotheses of C37 to C41. -/
example : ∀ s ∈ demoSects, s.blocks.Nodup := by decide

/-- Hypotheses of `C37_assign`: a thread of each kind is idle. -/
example : ∃ st, exec demoEnv demoInit (demoFirst ++ mainSteps 5) = some st ∧ st.pc = .take ∧ st.nmbCpu = 1 ∧
    st.nmbOpencl = 1 ∧ st.pool.idle = [0, 1] := ⟨_, rfl, rfl, rfl, rfl, rfl⟩

/-- Hypotheses of `C38_end` and `C39_end`. -/
example : ∃ st, exec demoEnv demoInit demoAll = some st ∧ st.pc = .finished ∧
    (reportedJobs st.log).map (fun e => (e.1, e.2.block)) = [(1, [(10, 12)]), (0, [(0, 10)]), (0, [(0, 10)])] :=
  ⟨_, rfl, rfl, rfl⟩

/-- Hypotheses of `C39_waited`. -/
example : ∃ st, exec demoEnv demoInit (demoFirst ++ mainSteps 15 ++ threadSteps 0 4 ++ threadSteps 1 4 ++ mainSteps 2) = some st ∧ st.pc = .save .exit ∧
    (pending st.log).map Job.block = [[(10, 12)], [(0, 10)]] ∧ st.static.record = [[(0, 10)], [(10, 12)]] ∧
    st.static.store = [(⟨[11], [1]⟩, 6)] := ⟨_, rfl, rfl, rfl, rfl, rfl⟩

/-- Hypotheses of `C41_saved`: two stores are saved to different directories. -/
example : ∃ st, exec demoEnv demoInit demoAll = some st ∧
    st.log.filterMap (fun e => match e with | .saved p s => some (p, s.store) | _ => none) =
      [(some "b".toList, [(⟨[11], [1]⟩, 6)]), (some "a".toList, [(⟨[7], [1]⟩, 3)])] := ⟨_, rfl, rfl⟩

/-- Hypotheses of `C40_sleeps`. -/
example : ∃ st, Reachable lostEnv lostInit st ∧ Asleep 0 st :=
  ⟨_, exec_reachable (ls := lostLabels) .refl rfl, Nat.zero_lt_one, rfl, (by intro h; cases h), by intro b h; cases h⟩

/-- The thread sleeps before it gets the block, and wakes up. -/
def wokenLabels : List Label :=
  [.thread 0, .thread 0] ++ List.replicate 12 (.master lostChoice) ++ List.replicate 4 (.thread 0) ++
    List.replicate 8 (.master lostChoice) ++ [.thread 0] ++ List.replicate 2 (.master lostChoice)

def wokenState : Nat → State
  | 0 => lostInit
  | n + 1 =>
    match step lostEnv (wokenState n) (wokenLabels.getD n (lostTail n)) with
    | .ok (some st) => st
    | _ => wokenState n

theorem woken_step (n : Nat) (hn : n < 29) :
    step lostEnv (wokenState n) (wokenLabels.getD n (lostTail n)) = .ok (some (wokenState (n + 1))) := by
  interval_cases n <;> rfl

theorem woken_alert (n : Nat) (hn : n < 29) : Alert (wokenState n) (wokenLabels.getD n (lostTail n)) := by
  interval_cases n <;> first
    | exact trivial
    | (intro i h; rcases h with h | ⟨b, h⟩ <;> first | (cases h; done) | (cases h; intro h; cases h))

theorem woken_stays (n : Nat) : step lostEnv (wokenState 29) (lostTail n) = .ok none := by
  rw [lostTail]
  split <;> rfl

theorem woken_tail (n : Nat) (hn : 29 ≤ n) :
    wokenState n = wokenState 29 ∧ wokenLabels.getD n (lostTail n) = lostTail n := by
  have hl : ∀ n, 29 ≤ n → wokenLabels.getD n (lostTail n) = lostTail n := by
    intro n hn
    rw [List.getD_eq_getElem?_getD, List.getElem?_eq_none (by exact hn)]
    rfl
  refine ⟨?_, hl n hn⟩
  induction n, hn using Nat.le_induction with
  | base => rfl
  | succ n hn ih =>
    rw [show wokenState (n + 1) = match step lostEnv (wokenState n) (wokenLabels.getD n (lostTail n)) with
      | .ok (some st) => st
      | _ => wokenState n from rfl, hl n hn, ih, woken_stays]

/-- Hypotheses of `C40_processed_partial`: a run that finishes. -/
example : Exec lostEnv lostInit wokenState (fun n => wokenLabels.getD n (lostTail n)) ∧
    (∀ n, Alert (wokenState n) (wokenLabels.getD n (lostTail n))) ∧ (0, lostJob) ∈ assignedJobs (wokenState 13).log ∧
    (0, lostJob) ∉ takenJobs (wokenState 13).log ∧ (wokenState 29).pc = .finished := by
  refine ⟨⟨rfl, fun n => ?_, fun i hi n => ?_, fun n => ?_⟩, fun n => ?_, List.mem_cons_self, List.not_mem_nil, rfl⟩
  · by_cases hn : n < 29
    · exact Or.inl (woken_step n hn)
    · have h1 := woken_tail n (by omega)
      have h2 := woken_tail (n + 1) (by omega)
      right
      simp only [h1.2, h1.1, h2.1]
      exact ⟨woken_stays n, trivial⟩
  · have hi : i = 0 := Nat.lt_one_iff.1 hi
    subst hi
    refine ⟨2 * n + 30, by omega, ?_⟩
    rw [(woken_tail (2 * n + 30) (by omega)).2, lostTail, if_pos (by omega)]
  · refine ⟨2 * n + 31, by omega, lostChoice, ?_⟩
    rw [(woken_tail (2 * n + 31) (by omega)).2, lostTail, if_neg (by omega)]
  · by_cases hn : n < 29
    · exact woken_alert n hn
    · rw [(woken_tail n (by omega)).1, (woken_tail n (by omega)).2, lostTail]
      split
      · trivial
      · intro i h
        rcases h with h | ⟨b, h⟩ <;> cases h

end Run
end Hycu
