import Verif.Lemmas.MpiPace
import Verif.Lemmas.MpiLive
import Verif.Spec.Making
import Verif.Props.Mpi

/-!
C86: how much work is handed out at a time.
-/

namespace Hycu

theorem Run.given_length (t : Run.Thread) : t.given.length = t.jobs.length := by
  unfold Run.Thread.given Run.Thread.jobs Run.Phase.jobs
  cases t.phase <;> simp

/-- Threads that have a block. -/
theorem Run.Book.busy_le {size : Nat} {oc : Nat → Bool} {thr : Nat → Run.Thread} {pool : Run.ThreadPool} {cpu ocl : Nat}
    {assigned : OSet Block} {fl : List Block} (h : Run.Book size oc (fun i => (thr i).jobs) pool cpu ocl assigned fl) :
    ((Finset.range size).filter fun i => (thr i).given ≠ []).card ≤ pool.busy.length := by
  have : ((Finset.range size).filter fun i => (thr i).given ≠ []) ⊆ (pool.busy.map Prod.snd).toFinset := by
    intro i hi
    obtain ⟨h1, h2⟩ := Finset.mem_filter.1 hi
    rw [List.mem_toFinset]
    rcases h.own i (Finset.mem_range.1 h1) with ⟨h3, _⟩ | ⟨j, _, h4⟩
    · exact absurd (List.length_eq_zero_iff.1 ((Run.given_length _).trans (by rw [h3]; rfl))) h2
    · exact List.mem_map.2 ⟨_, OMap.mem_of_find? h4, rfl⟩
  exact (Finset.card_le_card this).trans ((List.toFinset_card_le _).trans (by rw [List.length_map]))

theorem Run.Book.one {size : Nat} {oc : Nat → Bool} {thr : Nat → Run.Thread} {pool : Run.ThreadPool} {cpu ocl : Nat}
    {assigned : OSet Block} {fl : List Block} (h : Run.Book size oc (fun i => (thr i).jobs) pool cpu ocl assigned fl)
    {i : Nat} (hi : i < size) : (thr i).given.length ≤ 1 := by
  rw [Run.given_length]
  rcases h.own i hi with ⟨h1, _⟩ | ⟨j, h1, _⟩ <;> rw [h1] <;> simp

namespace Run

variable {env : Env} {kinds : List Bool} {ss : List Sect} {fs : FileSystem} {st : State}

/-- C86: no thread has more than one block, be it in its queue, computed or about to be reported. -/
theorem C86_thread (hk : kinds.length < 4294967296) (hd : ∀ s ∈ ss, s.blocks.Nodup)
    (h : Reachable env (initial kinds fs (program ss)) st) {i : Nat} (hi : i < kinds.length) :
    (st.thr i).given.length ≤ 1 := by
  have hg := (Good.init env hk fs hd).reachable h
  exact hg.inv.book.one (by rw [hg.size]; exact hi)

/-- C86: the set of assigned blocks, with the one that is about to be inserted, never has more elements than twice the
number of threads. -/
theorem C86_assigned (hk : kinds.length < 4294967296) (hd : ∀ s ∈ ss, s.blocks.Nodup)
    (h : Reachable env (initial kinds fs (program ss)) st) :
    st.assigned.length ≤ 2 * kinds.length ∧
      ∀ i b, (st.pc = .notify i b ∨ st.pc = .insert b) → st.assigned.length + 1 ≤ 2 * kinds.length := by
  have hg := (Good.init env hk fs hd).reachable h
  have h1 := hg.inv.book.blocks.length_eq
  have h2 := (Pace.reachable hk hd h).always
  have h3 := hg.inv.ready_le
  rw [hg.size] at h2 h3
  simp only [List.length_append, List.length_map] at h1
  refine ⟨by omega, fun i b hpc => ?_⟩
  have : st.pc.inflight.length = 1 := by
    rcases hpc with hpc | hpc <;> simp [Pc.inflight, hpc]
  omega

/-- One section with three blocks. -/
def paceSect : Sect := ⟨⟨7, 1, 2, false, 1, "out".toList, 100⟩, [[(0, 10)], [(10, 20)], [(20, 30)]]⟩

set_option maxRecDepth 20000 in
/-- The bounds of `C86_thread` and `C86_assigned` are reached with one thread: the thread finishes its first block after
the finished blocks have been asked for, and before the threads that are ready are asked for. -/
example : ∃ st, Reachable demoEnv (initial [false] (fun _ => none) (program [paceSect])) st ∧
    (st.thr 0).given = [⟨[(10, 20)], some ⟨paceSect.cfg, 0⟩⟩] ∧ st.assigned = [[(0, 10)], [(10, 20)]] ∧ st.pc = .main :=
  ⟨_, exec_reachable (ls := threadSteps 0 2 ++ mainSteps 15 ++ threadSteps 0 4 ++ mainSteps 4) .refl rfl, rfl, rfl, rfl⟩

example : (∀ s ∈ [paceSect], s.blocks.Nodup) ∧ [false].length < 4294967296 := by decide

end Run

namespace Mpi

open Run (Env Sect program)

variable {env : Env} {kinds : List (List Bool)} {ss : List Sect} {fs : FileSystem} {st : State}

/-- C86: no thread of any process has more than one block. -/
theorem C86_thread (hk : ∀ k ∈ kinds, k.length < 4294967296) (hd : ∀ s ∈ ss, s.blocks.Nodup)
    (h : Reachable env (initial kinds fs (program ss)) st) {ix : Nat} {ks : List Bool} (hx : kinds[ix]? = some ks)
    {i : Nat} (hi : i < ks.length) : ((st.procs ix).thr i).given.length ≤ 1 := by
  obtain ⟨hlt, _⟩ := List.getElem?_eq_some_iff.1 hx
  have h0 : kinds ≠ [] := List.length_pos_iff.1 (Nat.zero_lt_of_lt hlt)
  have hq := (Kinds.reachable h).2 ix ks hx
  have hp := ((Inv.initial h0 hk fs (Run.distinct_program hd)).reachable h).each ix ((Kinds.reachable h).1 ▸ hlt)
  exact hp.ok.book.one (hq.1 ▸ hi)

theorem assigns_length (l : List Msg) : (l.filter fun m => m matches .assign ..).length =
    l.countP (Msg.isAssign false) + l.countP (Msg.isAssign true) := by
  induction l with
  | nil => rfl
  | cons m l ih =>
    cases m with
    | assign o b => cases o <;> simp [Msg.isAssign, ih] <;> omega
    | _ => simpa [Msg.isAssign] using ih

/-- C86: the blocks that are on the way to a process, and the threads of the process that have a block, are not more than
its threads: blocks are never sent to a process that has no thread for them. -/
theorem C86_messages (hk : ∀ k ∈ kinds, k.length < 4294967296) (hd : ∀ s ∈ ss, s.blocks.Nodup)
    (h : Reachable env (initial kinds fs (program ss)) st) {ix : Nat} {ks : List Bool} (hx : kinds[ix]? = some ks) :
    ((st.procs ix).inbox.filter fun m => m matches .assign ..).length +
      ((Finset.range ks.length).filter fun i => ((st.procs ix).thr i).given ≠ []).card ≤ ks.length := by
  obtain ⟨hlt, _⟩ := List.getElem?_eq_some_iff.1 hx
  have h0 : kinds ≠ [] := List.length_pos_iff.1 (Nat.zero_lt_of_lt hlt)
  have hq := (Kinds.reachable h).2 ix ks hx
  have hp := ((Inv.initial h0 hk fs (Run.distinct_program hd)).reachable h).each ix ((Kinds.reachable h).1 ▸ hlt)
  have h1 := hp.size_eq
  have h2 := hp.ok.book.busy_le
  rw [hq.1] at h1 h2
  rw [assigns_length]
  unfold Proc.promised at h1
  omega

/-- C86: the set of blocks assigned to a process, with the one that is about to be inserted, never has more elements than
twice the number of its threads. -/
theorem C86_assigned (hk : ∀ k ∈ kinds, k.length < 4294967296) (hd : ∀ s ∈ ss, s.blocks.Nodup)
    (h : Reachable env (initial kinds fs (program ss)) st) {ix : Nat} {ks : List Bool} (hx : kinds[ix]? = some ks) :
    (st.assigned ix).length ≤ 2 * ks.length ∧
      ∀ b, (st.pc = .insert ix b ∨ ix = 0 ∧ ∃ i, st.pc = .notify i b) → (st.assigned ix).length + 1 ≤ 2 * ks.length := by
  obtain ⟨hlt, _⟩ := List.getElem?_eq_some_iff.1 hx
  have h0 : kinds ≠ [] := List.length_pos_iff.1 (Nat.zero_lt_of_lt hlt)
  have hq := (Kinds.reachable h).2 ix ks hx
  have hi := Inv.initial h0 hk fs (Run.distinct_program hd)
  have hlt' : ix < st.nprocs := (Kinds.reachable h).1 ▸ hlt
  have h1 := (Pace.reachable hi h ix hlt').held ((hi.reachable h).each ix hlt')
  rw [hq.1] at h1
  refine ⟨by omega, fun b hpc => ?_⟩
  rcases hpc with hpc | ⟨rfl, i, hpc⟩ <;> rw [hpc] at h1 <;> simpa [Pc.inflight] using h1

/-- The master and the first worker in turn, the thread of the worker in between. -/
def paceLabels (a b : Nat) : List Label :=
  [.thread 1 0, .thread 1 0] ++ (List.range a).flatMap (fun n => [.master ⟨false, true, n⟩, .worker 1]) ++
    List.replicate 4 (.thread 1 0) ++ (List.range b).flatMap fun n => [.master ⟨false, true, n⟩, .worker 1]

def paceRun (ls : List Label) : State :=
  ls.foldl (attempt Run.demoEnv) (initial [[], [false]] (fun _ => none) (program [Run.paceSect]))

theorem paceRun_reachable (ls : List Label) :
    Reachable Run.demoEnv (initial [[], [false]] (fun _ => none) (program [Run.paceSect])) (paceRun ls) :=
  attempts_reachable ls .refl

set_option maxRecDepth 20000 in
/-- The bounds of `C86_thread` and `C86_assigned` are reached with one thread of a worker. -/
example : (((paceRun (paceLabels 30 7)).procs 1).thr 0).given = [⟨[(10, 20)], some ⟨Run.paceSect.cfg, 0⟩⟩] ∧
    (paceRun (paceLabels 30 7)).assigned 1 = [[(0, 10)], [(10, 20)]] ∧ [[], [false]][1]? = some [false] :=
  ⟨rfl, rfl, rfl⟩

set_option maxRecDepth 20000 in
/-- The bound of `C86_messages` is reached: the only thread of the worker has no block, but one is on the way. -/
example : ((paceRun (paceLabels 30 5 ++ [.master ⟨false, true, 0⟩])).procs 1).inbox = [.assign false [(10, 20)]] ∧
    (((paceRun (paceLabels 30 5 ++ [.master ⟨false, true, 0⟩])).procs 1).thr 0).given = [] := ⟨rfl, rfl⟩

end Mpi

end Hycu
