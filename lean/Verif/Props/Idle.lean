import Verif.Props.Pace
import Verif.Lemmas.RunRefines

/-!
C87: threads that are not used.
-/

namespace Hycu

theorem Run.Book.has {size : Nat} {oc : Nat → Bool} {thr : Nat → Run.Thread} {pool : Run.ThreadPool} {cpu ocl : Nat}
    {assigned : OSet Block} {fl : List Block} (h : Run.Book size oc (fun i => (thr i).jobs) pool cpu ocl assigned fl)
    {i : Nat} (hi : i < size) (h1 : (thr i).given = []) (h2 : i ∉ pool.ready) : i ∈ pool.idle := by
  have hm := h.perm.mem_iff.2 (List.mem_range.2 hi)
  rw [List.mem_append, List.mem_append] at hm
  rcases hm with (hm | hm) | hm
  · exact hm
  · exact absurd hm h2
  · rcases h.own i hi with ⟨_, h4⟩ | ⟨j, h4, _⟩
    · exact absurd hm h4
    · have := Run.given_length (thr i)
      rw [h1, h4] at this
      cases this

namespace Run

variable {env : Env} {kinds : List Bool} {ss : List Sect} {fs : FileSystem} {st : State}

/-- C87: the main thread only waits for threads if all of them have a block. -/
theorem C87_waits (hk : kinds.length < 4294967296) (hd : ∀ s ∈ ss, s.blocks.Nodup)
    (h : Reachable env (initial kinds fs (program ss)) st) (hpc : st.pc = .fillReady) {ch : Choice} {st' : State}
    (hs : step env st (.master ch) = .ok (some st')) (hpc' : st'.pc = .fillFinished) {i : Nat} (hi : i < kinds.length) :
    (st'.thr i).given ≠ [] := by
  intro hg
  have hg' := (Good.init env hk fs hd).reachable (.step _ h hs)
  have hm : masterStep st ch = .ok (some st') := hs
  unfold masterStep at hm
  rw [hpc] at hm
  cases hm
  have hb := hg'.inv.book
  have hz : (fillReadyStep st).nmbCpu = 0 ∧ (fillReadyStep st).nmbOpencl = 0 := by
    unfold fillReadyStep at hpc' ⊢
    simp only at hpc' ⊢
    split at hpc'
    · assumption
    · cases hpc'
  have := hb.has (by rw [hg'.size]; exact hi) hg (by simp [fillReadyStep, ThreadPool.flushReady])
  obtain ⟨a, b, e, _, _, e1, e2⟩ := hb.split
  rw [hz.1] at e2
  rw [hz.2] at e1
  rw [e, List.length_eq_zero_iff.1 e1.symm, List.length_eq_zero_iff.1 e2.symm] at this
  cases this

/-- C87: a block is passed to a thread without device only if all threads with devices have a block, or have reported one
since the main thread asked for the last time. -/
theorem C87_opencl (hk : kinds.length < 4294967296) (hd : ∀ s ∈ ss, s.blocks.Nodup)
    (h : Reachable env (initial kinds fs (program ss)) st) (hpc : st.pc = .take) {ch : Choice} {st' : State}
    (hs : step env st (.master ch) = .ok (some st')) {j : Nat} {b : Block} (hpc' : st'.pc = .notify j b)
    (hj : kinds[j]? = some false) {i : Nat} (hi : kinds[i]? = some true) :
    (st.thr i).given ≠ [] ∨ i ∈ st.pool.ready := by
  by_contra hc
  simp only [not_or, not_not] at hc
  obtain ⟨hlt, _⟩ := List.getElem?_eq_some_iff.1 hi
  have hg := (Good.init env hk fs hd).reachable h
  have hf : Locks.Fixed kinds st := by
    clear hpc hs hc hg
    induction h with
    | refl => exact ⟨rfl, fun _ => rfl⟩
    | step l _ hs ih => exact (Locks.Fixed.step (ih) hs).1
  have hidle := hg.inv.book.has (by rw [hg.size]; exact hlt) hc.1 hc.2
  have hm : masterStep st ch = .ok (some st') := hs
  unfold masterStep at hm
  rw [hpc] at hm
  simp only at hm
  split at hm
  · have hm := some_map_ok hm
    unfold takeStep at hm
    split at hm
    · obtain ⟨p, hp, hm⟩ := Res.bind_eq_ok.1 hm
      cases hm
      cases hpc'
      unfold ThreadPool.assign at hp
      split at hp
      · cases hp
      · split at hp
        · rename_i ho
          cases hp
          simp only at ho hj
          rw [hf.2, hj] at ho
          cases ho
        · cases hp
    · rename_i hz
      obtain ⟨a, b, e, _, e3, e1, _⟩ := hg.inv.book.split
      rw [not_not.1 hz] at e1
      rw [e, List.length_eq_zero_iff.1 e1.symm, List.nil_append] at hidle
      have := e3 i hidle
      rw [hf.2, hi] at this
      cases this
  · cases hm

set_option maxRecDepth 20000 in
/-- Hypotheses of `Run.C87_waits`: both threads have a block, and the third block is to be assigned. -/
example : ∃ st st', Reachable demoEnv (initial [true, false] (fun _ => none) (program [paceSect])) st ∧ st.pc = .fillReady ∧
    step demoEnv st (.master ⟨false, true, 0⟩) = .ok (some st') ∧ st'.pc = .fillFinished ∧
    (st.thr 0).given.length = 1 ∧ (st.thr 1).given.length = 1 :=
  ⟨_, _, exec_reachable (ls := mainSteps 22) .refl rfl, rfl, rfl, rfl, rfl, rfl⟩

set_option maxRecDepth 20000 in
/-- Hypotheses of `Run.C87_opencl`: the thread with a device has the first block, the other one gets the second. -/
example : ∃ st st', Reachable demoEnv (initial [true, false] (fun _ => none) (program [paceSect])) st ∧ st.pc = .take ∧
    step demoEnv st (.master ⟨false, true, 0⟩) = .ok (some st') ∧ st'.pc = .notify 1 [(10, 20)] ∧
    (st.thr 0).given.length = 1 :=
  ⟨_, _, exec_reachable (ls := mainSteps 16) .refl rfl, rfl, rfl, rfl, rfl⟩

end Run

namespace Mpi

open Run (Env Sect program Choice)

variable {env : Env} {kinds : List (List Bool)} {ss : List Sect} {fs : FileSystem} {st : State}

/-- C87: the master only waits for threads if all threads of all processes have a block, apart from threads that have
reported one since the process was asked for the last time, and threads for which a block is on the way. -/
theorem C87_waits (hk : ∀ k ∈ kinds, k.length < 4294967296) (hd : ∀ s ∈ ss, s.blocks.Nodup)
    (h : Reachable env (initial kinds fs (program ss)) st) (hpc : st.pc = .filled) {ch : Choice} {st' : State}
    (hs : step env st (.master ch) = .ok (some st')) (hpc' : st'.pc = .flush .fill) {ix : Nat} {ks : List Bool}
    (hx : kinds[ix]? = some ks) :
    ((Finset.range ks.length).filter fun i =>
      ((st.procs ix).thr i).given = [] ∧ i ∉ (st.procs ix).pool.ready).card ≤
      ((st.procs ix).inbox.filter fun m => m matches .assign ..).length := by
  obtain ⟨hlt, _⟩ := List.getElem?_eq_some_iff.1 hx
  have h0 : kinds ≠ [] := List.length_pos_iff.1 (Nat.zero_lt_of_lt hlt)
  have hq := (Kinds.reachable h).2 ix ks hx
  have hp := ((Inv.initial h0 hk fs (Run.distinct_program hd)).reachable h).each ix ((Kinds.reachable h).1 ▸ hlt)
  have hm : masterStep st ch = .ok (some st') := hs
  unfold masterStep at hm
  rw [hpc] at hm
  cases hm
  have hz : st.cpuQueue = [] ∧ st.openclQueue = [] := by
    simp only at hpc'
    split at hpc'
    · assumption
    · cases hpc'
  have hr := hp.prot
  rw [hpc] at hr
  have hr := hr.2.2.1
  obtain ⟨a, b, e, _, _, e1, e2⟩ := hp.ok.book.split
  rw [hz.2, hr] at e1
  rw [hz.1, hr] at e2
  simp only [List.count_nil, List.map_nil, List.sum_nil, Nat.add_zero, Nat.zero_add] at e1 e2
  have hsub : ((Finset.range ks.length).filter fun i =>
      ((st.procs ix).thr i).given = [] ∧ i ∉ (st.procs ix).pool.ready) ⊆ (st.procs ix).pool.idle.toFinset := by
    intro i hi
    obtain ⟨h1, h2, h3⟩ := Finset.mem_filter.1 hi
    exact List.mem_toFinset.2 (hp.ok.book.has (by rw [hq.1]; exact Finset.mem_range.1 h1) h2 h3)
  refine (Finset.card_le_card hsub).trans ((List.toFinset_card_le _).trans ?_)
  refine (le_of_eq ?_).trans (le_of_eq (assigns_length _).symm)
  rw [e, List.length_append, ← e1, ← e2]
  exact Nat.add_comm _ _

/-- C87: a thread without device is used only if all threads with devices of all processes have a block, apart from threads
that have reported one since the process was asked for the last time, and threads for which a block is on the way. -/
theorem C87_opencl (hk : ∀ k ∈ kinds, k.length < 4294967296) (hd : ∀ s ∈ ss, s.blocks.Nodup)
    (h : Reachable env (initial kinds fs (program ss)) st) (hpc : st.pc = .take) {ch : Choice} {st' : State}
    (hs : step env st (.master ch) = .ok (some st')) (hc : st'.cpuQueue ≠ st.cpuQueue) {ix : Nat} {ks : List Bool}
    (hx : kinds[ix]? = some ks) :
    ((Finset.range ks.length).filter fun i =>
      ks[i]? = some true ∧ ((st.procs ix).thr i).given = [] ∧ i ∉ (st.procs ix).pool.ready).card ≤
      ((st.procs ix).inbox.filter fun m => m matches .assign true _).length := by
  obtain ⟨hlt, _⟩ := List.getElem?_eq_some_iff.1 hx
  have h0 : kinds ≠ [] := List.length_pos_iff.1 (Nat.zero_lt_of_lt hlt)
  have hq := (Kinds.reachable h).2 ix ks hx
  have hp := ((Inv.initial h0 hk fs (Run.distinct_program hd)).reachable h).each ix ((Kinds.reachable h).1 ▸ hlt)
  have hz : st.openclQueue = [] := by
    have hm : masterStep st ch = .ok (some st') := hs
    unfold masterStep at hm
    rw [hpc] at hm
    simp only at hm
    split at hm
    · have hm := Run.some_map_ok hm
      unfold takeStep at hm
      split at hm
      · refine absurd ?_ hc
        rcases passBlock_cases hm with ⟨_, r, _, rfl⟩ | ⟨_, rfl⟩ <;> rfl
      · assumption
    · cases hm
  have hr := hp.prot
  rw [hpc] at hr
  have hr := hr.2.2.1
  obtain ⟨a, b, e, _, e3, e1, _⟩ := hp.ok.book.split
  rw [hz, hr] at e1
  simp only [List.count_nil, List.map_nil, List.sum_nil, Nat.add_zero, Nat.zero_add] at e1
  have hsub : ((Finset.range ks.length).filter fun i =>
      ks[i]? = some true ∧ ((st.procs ix).thr i).given = [] ∧ i ∉ (st.procs ix).pool.ready) ⊆ a.toFinset := by
    intro i hi
    obtain ⟨h1, h4, h2, h3⟩ := Finset.mem_filter.1 hi
    have := hp.ok.book.has (by rw [hq.1]; exact Finset.mem_range.1 h1) h2 h3
    rw [e, List.mem_append] at this
    rcases this with h | h
    · exact List.mem_toFinset.2 h
    · have := e3 i h
      rw [hq.2, h4] at this
      cases this
  refine (Finset.card_le_card hsub).trans ((List.toFinset_card_le _).trans ?_)
  rw [← e1]
  unfold Proc.promised
  rw [List.countP_eq_length_filter]
  refine le_of_eq (congrArg _ (List.filter_congr fun m _ => ?_))
  cases m with
  | assign o b => cases o <;> rfl
  | _ => rfl

/-- The master and the worker in turn; the threads are slow. -/
def idleRun (n : Nat) : State :=
  ((List.range n).flatMap fun k => [.master ⟨false, true, k⟩, .worker 1]).foldl (attempt Run.demoEnv)
    (initial [[false], [true]] (fun _ => none) (program [Run.paceSect]))

theorem idleRun_reachable (n : Nat) :
    Reachable Run.demoEnv (initial [[false], [true]] (fun _ => none) (program [Run.paceSect])) (idleRun n) :=
  attempts_reachable _ .refl

set_option maxRecDepth 20000 in
/-- Hypotheses of `Mpi.C87_waits`: the threads of both processes have a block. -/
example : (idleRun 48).pc = .filled ∧ (((idleRun 48).procs 0).thr 0).given.length = 1 ∧
    (((idleRun 48).procs 1).thr 0).given.length = 1 ∧
    ∃ st', step Run.demoEnv (idleRun 48) (.master ⟨false, true, 0⟩) = .ok (some st') ∧ st'.pc = .flush .fill :=
  ⟨rfl, rfl, rfl, _, rfl, rfl⟩

set_option maxRecDepth 20000 in
/-- Hypotheses of `Mpi.C87_opencl`: the worker with a device has the first block, the thread of the master gets the
second. -/
example : (idleRun 35).pc = .take ∧ (((idleRun 35).procs 1).thr 0).given.length = 1 ∧
    ∃ st', step Run.demoEnv (idleRun 35) (.master ⟨false, true, 0⟩) = .ok (some st') ∧
      st'.cpuQueue ≠ (idleRun 35).cpuQueue ∧ st'.pc = .notify 0 [(10, 20)] :=
  ⟨rfl, rfl, _, rfl, (by intro h; exact absurd (congrArg List.length h) (by decide)), rfl⟩

end Mpi

end Hycu
