import Verif.Lemmas.Shutdown
import Verif.Lemmas.MpiShutdown
import Verif.Props.Locks
import Verif.Props.MpiLocks

/-!
C68: no thread outlives its pool, and threads are stopped after everything has been saved.
-/

namespace Hycu

namespace Run

variable {env : Env} {kinds : List Bool} {fs : FileSystem} {ss : List Sect} {st : State}

/-- C68: threads return only after they have been told to stop, and a thread is told to stop only after those before it
have returned. -/
theorem C68_order (hk : kinds.length < 4294967296) (hd : ∀ s ∈ ss, s.blocks.Nodup)
    (hr : Reachable env (initial kinds fs (program ss)) st) (i : Nat) :
    ((st.thr i).phase = .done → (st.thr i).stop = true) ∧
    ((st.thr i).stop = true → i < kinds.length ∧ ∀ j, j < i → (st.thr j).phase = .done) := by
  have hg := (Good.init env hk fs hd).reachable hr
  have hs := (StopInv.init kinds fs (program ss)).reachable (Good.init env hk fs hd).inv hr
  refine ⟨hg.inv.done i, fun h => ?_⟩
  have h1 := (hs.told i).1 h
  have h2 : st.pc.told st.size ≤ st.pc.joined st.size + 1 := by
    cases st.pc <;> simp [Pc.told, Pc.joined]
  exact ⟨hg.size ▸ lt_of_lt_of_le h1 hs.bound, fun j hj => hs.joined j (by omega)⟩

/-- C68: when a thread is told to stop, all threads have finished all their work, all blocks have been reported, and
all results have been saved. -/
theorem C68_told (hk : kinds.length < 4294967296) (hd : ∀ s ∈ ss, s.blocks.Nodup)
    (hr : Reachable env (initial kinds fs (program ss)) st) {i : Nat} (hi : (st.thr i).stop = true) :
    st.assigned = [] ∧ st.pool.busy = [] ∧ st.static = ⟨[], []⟩ ∧
    ∀ j, j < kinds.length → (st.thr j).queue = [] ∧ (∀ b, (st.thr j).phase ≠ .compute b) ∧
      (∀ b, (st.thr j).phase ≠ .report b) ∧ (st.thr j).phase ≠ .pop := by
  have hg := (Good.init env hk fs hd).reachable hr
  have hs := (StopInv.init kinds fs (program ss)).reachable (Good.init env hk fs hd).inv hr
  have ht := (hs.told i).1 hi
  have hc : st.pc.clean = true := by
    cases hpc : st.pc <;> rw [hpc] at ht <;> first | rfl | exact absurd ht (Nat.not_lt_zero _)
  have hn := hg.inv.noJobs (Pc.clean_quiet hc)
  have hp := hg.pend.gathers
  rw [hg.pend.clean hc] at hp
  refine ⟨hg.inv.quiet (Pc.clean_quiet hc), hn.1, hp.empty, fun j hj => ?_⟩
  have h1 := hn.2.2 j (hg.size ▸ hj)
  unfold Thread.jobs at h1
  obtain ⟨h2, h3⟩ := List.append_eq_nil_iff.1 h1
  refine ⟨h3, fun b h => ?_, fun b h => ?_, fun h => hg.inv.pop j h h3⟩ <;> rw [h] at h2 <;> cases h2

/-- C68: at the end of the run all threads have returned, and nothing can happen any more. -/
theorem C68_end (hk : kinds.length < 4294967296) (hd : ∀ s ∈ ss, s.blocks.Nodup)
    (hr : Reachable env (initial kinds fs (program ss)) st) (hpc : st.pc = .finished) :
    (∀ i, i < kinds.length → (st.thr i).phase = .done) ∧ ∀ l, step env st l = .ok none := by
  have hg := (Good.init env hk fs hd).reachable hr
  have hs := (StopInv.init kinds fs (program ss)).reachable (Good.init env hk fs hd).inv hr
  refine ⟨fun i hi => hs.joined i ?_, hs.final hpc⟩
  rw [hpc, hg.size]
  exact hi

/-- Hypotheses of `C68_order` and `C68_told`: the first thread has returned, the second one has been told to stop. -/
example : ∃ n st, exec demoEnv demoInit (demoAll.take n) = some st ∧ (st.thr 0).phase = .done ∧
    (st.thr 1).stop = true ∧ (st.thr 1).phase ≠ .done := ⟨59, _, rfl, rfl, rfl, by decide⟩

/-- Hypotheses of `C68_end`. -/
example : ∃ st, exec demoEnv demoInit demoAll = some st ∧ st.pc = .finished := ⟨_, rfl, rfl⟩

end Run

namespace Mpi

open Run (Env Cmd Sect program Input Past)

variable {env : Env} {kinds : List (List Bool)} {fs : FileSystem} {ss : List Sect} {st : State}

/-- C68: in every process, threads return only after they have been told to stop, and a thread is told to stop only
after those before it have returned. -/
theorem C68_order (hr : Reachable env (initial kinds fs (program ss)) st) {q : Nat} {ks : List Bool}
    (hq : kinds[q]? = some ks) (i : Nat) :
    (((st.procs q).thr i).phase = .done → ((st.procs q).thr i).stop = true) ∧
    (((st.procs q).thr i).stop = true → i < ks.length ∧ ∀ j, j < i → ((st.procs q).thr j).phase = .done) := by
  have hx := (List.getElem?_eq_some_iff.1 hq).1
  have hs := Halts.reachable hr q (by rw [(Kinds.reachable hr).1]; exact hx)
  refine ⟨hs.done i, fun h => ?_⟩
  have h1 := (hs.told i).1 h
  have h2 := WorkerPc.told_joined (st.place q) (st.procs q).size
  have h3 := ((Kinds.reachable hr).2 q ks hq).1
  exact ⟨h3 ▸ lt_of_lt_of_le h1 hs.bound, fun j hj => hs.joined j (by omega)⟩

/-- C68: when a thread of some process is told to stop, all threads of all processes have finished all their work, all
blocks have been reported to the master, and all results have been saved.  A worker stops its threads only after the
message of the master. -/
theorem C68_told {result : ConfigNode → Block → StoreMap} (hi : Input env ss result) (hp : Past env ss fs)
    (h0 : kinds ≠ []) (hk : ∀ k ∈ kinds, k.length < 4294967296)
    (hr : Reachable env (initial kinds fs (program ss)) st) {q i : Nat} (hq : q < kinds.length)
    (hs : ((st.procs q).thr i).stop = true) :
    ∀ q', q' < kinds.length → st.assigned q' = [] ∧ (st.procs q').pool.busy = [] ∧ (st.procs q').static = ⟨[], []⟩ ∧
      ∀ j, j < (st.procs q').size → ((st.procs q').thr j).queue = [] ∧ (∀ b, ((st.procs q').thr j).phase ≠ .compute b) ∧
        (∀ b, ((st.procs q').thr j).phase ≠ .report b) ∧ ((st.procs q').thr j).phase ≠ .pop := by
  have hn := (Kinds.reachable hr).1
  have hv := (Inv.start hi h0 hk).reachable hr
  have hc := (Halts.reachable hr).closing (Serves.reachable hr) (by rw [hn]; exact hq) hs
  intro q' hq'
  have hx : q' < st.nprocs := by rw [hn]; exact hq'
  have hcl := hc.clean q'
  obtain ⟨h1, h2⟩ := hv.idle hcl.quiet hx
  refine ⟨(hv.each q' hx).quiet hcl.quiet, h1, (DataInv.reachable hi h0 hk (hp.kept hi) hr).clean q' hx hcl, fun j hj => ?_⟩
  have h3 := h2 j hj
  unfold Run.Thread.jobs at h3
  obtain ⟨h4, h5⟩ := List.append_eq_nil_iff.1 h3
  refine ⟨h5, fun b h => ?_, fun b h => ?_, fun h => (hv.each q' hx).ok.pop j h h5⟩ <;> rw [h] at h4 <;> cases h4

/-- C68: a process that has returned leaves no threads. -/
theorem C68_returned (hr : Reachable env (initial kinds fs (program ss)) st) {q : Nat} {ks : List Bool}
    (hq : kinds[q]? = some ks) (hpc : if q = 0 then st.pc = .finished else (st.procs q).pc = .returned) :
    ∀ i, i < ks.length → ((st.procs q).thr i).phase = .done := by
  have hx := (List.getElem?_eq_some_iff.1 hq).1
  have hs := Halts.reachable hr q (by rw [(Kinds.reachable hr).1]; exact hx)
  intro i hi
  refine hs.joined i ?_
  rw [← ((Kinds.reachable hr).2 q ks hq).1] at hi
  by_cases h0 : q = 0
  · rw [if_pos h0] at hpc
    simp only [State.place, if_pos h0, hpc]
    exact hi
  · rw [if_neg h0] at hpc
    simp only [State.place, if_neg h0, hpc]
    exact hi

/-- C68: at the end of all processes nothing can happen any more. -/
theorem C68_end (hr : Reachable env (initial kinds fs (program ss)) st) (hpc : st.pc = .finished)
    (hw : ∀ q, 0 < q → q < kinds.length → (st.procs q).pc = .returned) (l : Label) : step env st l = .ok none :=
  (Halts.reachable hr).final hpc (by rw [(Kinds.reachable hr).1]; exact hw) l

set_option maxRecDepth 20000 in
/-- Hypotheses of `C68_order` and `C68_told`: the threads of both processes are being stopped. -/
example : (((demoRun 147).procs 0).thr 0).stop = true ∧ (((demoRun 147).procs 1).thr 0).phase = .done ∧
    (((demoRun 147).procs 1).thr 1).stop = true ∧ ((demoRun 147).procs 1).pc ≠ .returned :=
  ⟨rfl, rfl, rfl, by decide⟩

set_option maxRecDepth 20000 in
/-- Hypotheses of `C68_returned` and `C68_end`. -/
example : (demoRun 150).pc = .finished ∧ ((demoRun 150).procs 1).pc = .returned := ⟨rfl, rfl⟩

end Mpi

/-- C68: the same holds in small steps: when the main thread of hycu-threaded has ended, all threads have decided to
return. -/
theorem Locks.C68_end {env : Run.Env} {kinds : List Bool} {fs : FileSystem} {ss : List Run.Sect}
    {c : Locks.Config Locks.Agent Locks.Lock Locks.Var Locks.Val} (hk : kinds.length < 4294967296)
    (hd : ∀ s ∈ ss, s.blocks.Nodup)
    (hr : Locks.Reachable (Locks.runs kinds env) (Locks.initial kinds fs (Run.program ss)) c)
    (hf : (c.mem .main : Locks.MainData).pc = .finished) :
    ∀ i, i < kinds.length → (c.mem (.phase i) : Run.Phase) = .done := by
  intro i hi
  obtain ⟨st, h1, -, h2⟩ := Locks.C54_atomic hr
  rw [h2 .main fun l hl => by cases hl] at hf
  rw [h2 (.phase i) fun l hl => by cases hl]
  exact (Run.C68_end hk hd h1 hf).1 i hi

/-- C68: and in small steps of hycu-mpi, for every process. -/
theorem MpiLocks.C68_end {env : Run.Env} {kinds : List (List Bool)} {fs : FileSystem} {ss : List Run.Sect}
    {c : Locks.Config MpiLocks.Agent MpiLocks.Lock MpiLocks.Var MpiLocks.Val}
    (hr : Locks.Reachable (MpiLocks.system kinds env) (MpiLocks.initial kinds fs (Run.program ss)) c) {q : Nat}
    {ks : List Bool} (hq : kinds[q]? = some ks) (hf : if q = 0 then (c.mem .master : MpiLocks.MasterData).pc = .finished
      else (c.mem (.of q .worker) : MpiLocks.WorkerData).pc = .returned) :
    ∀ i, i < ks.length → (c.mem (.of q (.phase i)) : Run.Phase) = .done := by
  intro i hi
  obtain ⟨st, h1, h2, -⟩ := MpiLocks.C59_atomic hr
  rw [h1 .master (fun l hl => by cases hl), h1 (.of q .worker) (fun l hl => by cases hl)] at hf
  rw [h1 (.of q (.phase i)) fun l hl => by cases hl]
  have := Mpi.C68_returned h2 hq hf i hi
  exact this

end Hycu
