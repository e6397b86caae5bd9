import Verif.Lemmas.MpiHang
import Verif.Lemmas.LocksHang
import Verif.Props.MpiEnds
import Verif.Props.MpiLocksFair

/-!
C52 and C60: in every run of `hycu-mpi`, every process that has a thread can hang, however fair the schedule is, since the
notification of a thread can be lost.
-/

namespace Hycu
namespace Mpi

open Run (Env Sect program Input Choice)

section

variable {env : Env} {kinds : List (List Bool)} {fs : FileSystem} {ss : List Sect} {st₀ st : State} {x : Nat}
  {result : ConfigNode → Block → StoreMap}

theorem Hung.thread (h : Hung x st) (q i : Nat) : step env st (.thread q i) = .ok none := by
  simp only [step]
  by_cases hq : q < st.nprocs ∧ i < (st.procs q).size
  · rw [if_pos hq]
    by_cases e : q = x
    · subst e
      simp only [Proc.threadStep, h.sleep i hq.2]
      rfl
    · simp only [Proc.threadStep, h.done q hq.1 e i hq.2]
      rfl
  · rw [if_neg hq]

theorem Hung.master (h : Hung x st) (ch : Choice) : step env st (.master ch) = .ok none := by
  by_cases e : x = 0
  · subst e
    have hj := h.join
    simp only [State.place, if_true] at hj
    simp only [step, masterStep, place_join hj]
    rw [if_neg]
    rw [h.sleep 0 h.pos]
    simp
  · have hr := h.others 0 (by have := h.proc; omega) (Ne.symm e)
    simp only [State.place, if_true] at hr
    simp only [step, masterStep, place_returned hr]

theorem Hung.worker (h : Hung x st) (q : Nat) : step env st (.worker q) = .ok none := by
  simp only [step]
  by_cases hq : 0 < q ∧ q < st.nprocs
  · rw [if_pos hq]
    have h0 : q ≠ 0 := by omega
    by_cases e : q = x
    · subst e
      have hj := h.join
      simp only [State.place, if_neg h0] at hj
      simp only [Proc.workerStep, hj]
      rw [if_neg (by rw [h.sleep 0 h.pos]; simp)]
      rfl
    · have hr := h.others q hq.2 e
      simp only [State.place, if_neg h0] at hr
      simp only [Proc.workerStep, hr]
      rfl
  · rw [if_neg hq]

/-- An execution up to a state. -/
theorem Reachable.path (h : Reachable env st₀ st) : ∃ (N : Nat) (σ : Nat → State) (ls : Nat → Label),
    σ 0 = st₀ ∧ (∀ n, n < N → Mpi.step env (σ n) (ls n) = .ok (some (σ (n + 1)))) ∧ ∀ n, N ≤ n → σ n = st := by
  induction h with
  | refl => exact ⟨0, fun _ => st₀, fun _ => .worker 0, rfl, fun n hn => absurd hn (Nat.not_lt_zero n), fun _ _ => rfl⟩
  | @step s s' l _ hs ih =>
    obtain ⟨N, σ, ls, h1, h2, h3⟩ := ih
    refine ⟨N + 1, fun n => if n ≤ N then σ n else s', fun n => if n < N then ls n else l, ?_, fun n hn => ?_, fun n hn => ?_⟩
    · beta_reduce
      rw [if_pos (Nat.zero_le _), h1]
    · beta_reduce
      rw [if_pos (by omega)]
      by_cases e : n < N
      · rw [if_pos e, if_pos (by omega)]
        exact h2 n e
      · rw [if_neg e, if_neg (by omega), h3 n (by omega)]
        exact hs
    · beta_reduce
      rw [if_neg (by omega)]

/-- An execution in which nothing happens any more. -/
theorem Hung.exec (h : Hung x st) (hr : Reachable env st₀ st) :
    ∃ σ ls, Exec env st₀ σ ls ∧ Renewing σ ls ∧ ∃ N, ∀ n, N ≤ n → σ n = st := by
  obtain ⟨N, σ, ls, h1, h2, h3⟩ := hr.path
  have ht : ∀ t : Turn, t ≠ .worker 0 → ∀ n, ∃ m, n ≤ m ∧ N ≤ m ∧
      (if m < N then ls m else (turn m).label st) = t.label st := by
    intro t ht n
    obtain ⟨m, h4, h5⟩ := turn_recurs t ht (n + N)
    exact ⟨m, by omega, by omega, by rw [if_neg (by omega), h5]⟩
  refine ⟨σ, fun n => if n < N then ls n else (turn n).label st, ⟨h1, fun n => ?_, fun ix i _ _ n => ?_, fun ix hx _ n => ?_,
    fun n => ?_⟩, fun n => ?_, N, h3⟩
  · by_cases hn : n < N
    · simp only [if_pos hn]
      exact Or.inl (h2 n hn)
    · simp only [if_neg hn]
      rw [h3 n (by omega), h3 (n + 1) (by omega)]
      refine Or.inr ⟨?_, rfl⟩
      cases turn n with
      | thread ix i => exact h.thread ix i
      | master => exact h.master _
      | worker ix => exact h.worker ix
  · obtain ⟨m, h4, _, h5⟩ := ht (.thread ix i) (by simp) n
    exact ⟨m, h4, h5⟩
  · obtain ⟨m, h4, _, h5⟩ := ht (.worker ix) (by simp; omega) n
    exact ⟨m, h4, h5⟩
  · obtain ⟨m, h4, _, h5⟩ := ht .master (by simp) n
    exact ⟨m, h4, _, h5⟩
  · obtain ⟨m, h4, h6, h5⟩ := ht .master (by simp) n
    refine ⟨m, h4, _, h5, fun f d hp => ?_⟩
    have hpc : st.pc = .join 0 ∨ st.pc = .finished := by
      by_cases e : x = 0
      · subst e
        have hj := h.join
        simp only [State.place, if_true] at hj
        exact Or.inl (place_join hj)
      · have hr := h.others 0 (by have := h.proc; omega) (Ne.symm e)
        simp only [State.place, if_true] at hr
        exact Or.inr (place_returned hr)
    rw [h3 m h6] at hp
    rcases hp with ⟨k, hp⟩ | ⟨ix, k, hp⟩ <;> rcases hpc with hpc | hpc <;> (rw [hpc] at hp; cases hp)

/-- A state from which nothing happens any more can always be reached, for every process with threads. -/
theorem hung_reachable (hi : Input env ss result) (hp : Past env ss fs) (hk : ∀ k ∈ kinds, k.length < 4294967296)
    {k : List Bool} (hx : kinds[x]? = some k) (hne : k ≠ []) :
    ∃ st, Reachable env (initial kinds fs (program ss)) st ∧ Hung x st ∧ st.nprocs = kinds.length ∧
      ∀ q, q < kinds.length → (st.procs q).size = (kinds[q]?.getD []).length := by
  have hmem : k ∈ kinds := List.mem_of_getElem? hx
  have h0 : kinds ≠ [] := List.ne_nil_of_mem hmem
  obtain ⟨σ, ls, h, ha, hn, _⟩ := C52_exists hi hp h0 hk
  obtain ⟨n, h1⟩ := C52_ends hk ⟨k, hmem, hne⟩ hi.blocks h ha hn
  obtain ⟨st, h2, h3⟩ := (h.reachable n).stopping rfl (by rw [(h1 n le_rfl).1]; rfl)
  have hkd := fun {st : State} (h : Reachable env (initial kinds fs (program ss)) st) => Kinds.reachable h
  have hsize : ∀ {st : State}, Reachable env (initial kinds fs (program ss)) st →
      ∀ q, q < kinds.length → (st.procs q).size = (kinds[q]?.getD []).length := fun h q hq => by
    rw [((hkd h).2 q _ (List.getElem?_eq_getElem hq)).1, List.getElem?_eq_getElem hq]
    rfl
  have hlt : x < kinds.length := (List.getElem?_eq_some_iff.1 hx).1
  obtain ⟨st', h4, h5⟩ := (Facts.initial h0 hk fs (Run.distinct_program hi.blocks)).hung h2 h3 (x := x)
    (by rw [(hkd h2).1]; exact hlt) (by rw [hsize h2 x hlt, hx]; exact List.length_pos_iff.2 hne)
  exact ⟨st', h4, h5, (hkd h4).1, hsize h4⟩

/-- C52: every process that has a thread can hang in the destructor of its pool, even if everybody is scheduled again and
again: its main thread waits for the end of a thread, which waits for a notification, for ever.  All other processes
end. -/
theorem C52_hangs (hi : Input env ss result) (hp : Past env ss fs) (hk : ∀ k ∈ kinds, k.length < 4294967296)
    {k : List Bool} (hx : kinds[x]? = some k) (hne : k ≠ []) :
    ∃ σ ls, Exec env (initial kinds fs (program ss)) σ ls ∧ Renewing σ ls ∧ ∃ N, ∀ n, N ≤ n →
      (σ n).pc = (if x = 0 then .join 0 else .finished) ∧
      (∀ q, 0 < q → q < kinds.length → ((σ n).procs q).pc = if q = x then .join 0 else .returned) ∧
      ∀ i, i < k.length → (((σ n).procs x).thr i).phase = .sleep := by
  have hlt : x < kinds.length := (List.getElem?_eq_some_iff.1 hx).1
  obtain ⟨st, h1, h2, hn, hs⟩ := hung_reachable hi hp hk hx hne
  obtain ⟨σ, ls, h3, h4, N, h5⟩ := h2.exec h1
  refine ⟨σ, ls, h3, h4, N, fun n hN => ?_⟩
  rw [h5 n hN]
  refine ⟨?_, fun q h0 hq => ?_, fun i hi => h2.sleep i (by rw [hs x hlt, hx]; exact hi)⟩
  · split
    · rename_i e
      subst e
      have hj := h2.join
      simp only [State.place, if_true] at hj
      exact place_join hj
    · rename_i e
      have hr := h2.others 0 (by have := h2.proc; omega) (Ne.symm e)
      simp only [State.place, if_true] at hr
      exact place_returned hr
  · have hq0 : q ≠ 0 := by omega
    split
    · rename_i e
      subst e
      have hj := h2.join
      simp only [State.place, if_neg hq0] at hj
      exact hj
    · rename_i e
      have hr := h2.others q (by omega) e
      simp only [State.place, if_neg hq0] at hr
      exact hr

end

/-- Hypotheses of `C52_hangs`: two sections with one and three blocks; the second worker hangs. -/
example : ∃ σ ls, Exec demoEnv (initial [[true, false], [], [false]] (fun _ => none) (program demoSects)) σ ls ∧
    Renewing σ ls ∧ ∃ N, ∀ n, N ≤ n → (σ n).pc = .finished ∧ ((σ n).procs 2).pc = .join 0 := by
  obtain ⟨σ, ls, h1, h2, N, h3⟩ := C52_hangs (fs := fun _ => none) (kinds := [[true, false], [], [false]]) (x := 2) demo_input
    (.start _ fun s _ d hd => by cases hd) (by decide) rfl (by decide)
  exact ⟨σ, ls, h1, h2, N, fun n hn => ⟨(h3 n hn).1, (h3 n hn).2.1 2 (by decide) (by decide)⟩⟩

end Mpi

namespace MpiLocks

open Locks (Config Fair)

section

variable {env : Run.Env} {kinds : List (List Bool)} {fs : FileSystem} {ss : List Run.Sect} {x : Nat}
  {result : ConfigNode → Block → StoreMap}

/-- C60: every process of `hycu-mpi` that has a thread can hang in the destructor of its pool, if all threads are scheduled
fairly instruction by instruction. -/
theorem C60_hangs_mpi (hi : Run.Input env ss result) (hp : Mpi.Past env ss fs) (hk : ∀ k ∈ kinds, k.length < 4294967296)
    {k : List Bool} (hx : kinds[x]? = some k) (hne : k ≠ []) :
    ∃ σ who, Fair (system kinds env) sleeper (initial kinds fs (Run.program ss)) σ who ∧ ∃ N, ∀ n, N ≤ n →
      ((σ n).mem .master : MasterData).pc = (if x = 0 then .join 0 else .finished) ∧
      (∀ q, 0 < q → q < kinds.length →
        ((σ n).mem (.of q .worker) : WorkerData).pc = if q = x then .join 0 else .returned) ∧
      ∀ i, i < k.length → ((σ n).mem (.of x (.phase i)) : Run.Phase) = .sleep := by
  have hlt : x < kinds.length := (List.getElem?_eq_some_iff.1 hx).1
  obtain ⟨st, h1, h2, hn, hs⟩ := Mpi.hung_reachable hi hp hk hx hne
  have hm : st.pc = if x = 0 then .join 0 else .finished := by
    split
    · rename_i e
      subst e
      have hj := h2.join
      simp only [Mpi.State.place, if_true] at hj
      exact Mpi.place_join hj
    · rename_i e
      have hr := h2.others 0 (by have := h2.proc; omega) (Ne.symm e)
      simp only [Mpi.State.place, if_true] at hr
      exact Mpi.place_returned hr
  have hw : ∀ q, 0 < q → q < kinds.length → (st.procs q).pc = if q = x then .join 0 else .returned := by
    intro q h0 hq
    have hq0 : q ≠ 0 := by omega
    split
    · rename_i e
      subst e
      have hj := h2.join
      simp only [Mpi.State.place, if_neg hq0] at hj
      exact hj
    · rename_i e
      have hr := h2.others q (by omega) e
      simp only [Mpi.State.place, if_neg hq0] at hr
      exact hr
  obtain ⟨c, h3, h4, _, h5⟩ := C59_reaches h1 (fun i b h => by rw [hm] at h; split at h <;> cases h) (fun ix i h0 hx h => by
    rw [hw ix h0 hx] at h
    split at h <;> cases h)
  have hpc : (c.mem .master : MasterData).pc = if x = 0 then .join 0 else .finished := by rw [h5]; exact hm
  have hwk : ∀ q, 0 < q → q < kinds.length →
      (c.mem (.of q .worker) : WorkerData).pc = if q = x then .join 0 else .returned := fun q h0 hq => by
    rw [h5]; exact hw q h0 hq
  have hha : ∀ q, (c.mem (.of q .worker) : WorkerData).hand = .none := fun q => by rw [h5]; rfl
  have hsz : ∀ q, q < kinds.length → size kinds q = (st.procs q).size := fun q hq => (hs q hq).symm
  have hph : ∀ i, i < k.length → (c.mem (.of x (.phase i)) : Run.Phase) = .sleep := fun i hi => by
    rw [h5]; exact h2.sleep i (by rw [hs x hlt, hx]; exact hi)
  have hrest : ∀ a, (system kinds env).rest a c.mem := by
    intro a
    cases a with
    | main ix =>
      match ix with
      | 0 =>
        show masterRests (c.mem .master)
        unfold masterRests
        rw [hpc]
        by_cases e : x = 0
        · rw [if_pos e]; trivial
        · rw [if_neg e]; trivial
      | ix + 1 =>
        by_cases hq : ix + 1 < kinds.length
        · refine Or.inr ?_
          unfold workerRests
          rw [hha, hwk _ (Nat.succ_pos ix) hq]
          by_cases e : ix + 1 = x
          · rw [if_pos e]; trivial
          · rw [if_neg e]; trivial
        · exact Or.inl hq
    | thread ix i =>
      by_cases hq : ix < kinds.length ∧ i < size kinds ix
      · refine Or.inr ?_
        by_cases e : ix = x
        · subst e
          left
          rw [h5]
          exact h2.sleep i (by rw [← hsz _ hq.1]; exact hq.2)
        · right
          rw [h5]
          exact h2.done ix (by rw [hn]; exact hq.1) e i (by rw [← hsz ix hq.1]; exact hq.2)
      · exact Or.inl hq
  obtain ⟨σ, who, h6, N, h7⟩ := h3.hang (sleeper := sleeper) fun a ha => by
    cases a with
    | thread ix i => exact ha.2 trivial (h4 _) (hrest _)
    | main ix =>
      obtain ⟨c', hs⟩ := ha.1
      have hout := h4 (.main ix)
      cases hs with
      | enter reg h hr _ => exact hr (hrest _)
      | sync m reg h hs =>
        cases ix with
        | zero =>
          obtain ⟨i, b, hp, -⟩ | ⟨i, hp, -⟩ | ⟨i, hp, hd, -⟩ := sync_master_iff.1 hs
          · rw [hpc] at hp; split at hp <;> cases hp
          · rw [hpc] at hp; split at hp <;> cases hp
          · rw [hpc] at hp
            split at hp
            · rename_i e
              cases hp
              subst e
              rw [hph 0 (List.length_pos_iff.2 hne)] at hd
              cases hd
            · cases hp
        | succ ix =>
          obtain ⟨hq, _, hq'⟩ := (sync_worker_iff (Nat.succ_pos ix)).1 hs
          obtain ⟨i, hp, -⟩ | ⟨i, hp, -⟩ | ⟨i, hp, hd, -⟩ := hq' <;> rw [hwk _ (Nat.succ_pos ix) hq] at hp <;> split at hp <;> cases hp
          rename_i e
          subst e
          rw [hph 0 (List.length_pos_iff.2 hne)] at hd
          cases hd
      | acquire k reg l h => rw [hout] at h; cases h
      | read k reg x h => rw [hout] at h; cases h
      | compute k reg s ch h => rw [hout] at h; cases h
      | write ws reg ls x h => rw [hout] at h; cases h
      | release reg l ls h => rw [hout] at h; cases h
      | exit reg h => rw [hout] at h; cases h
  exact ⟨σ, who, h6, N, fun n hn => by rw [h7 n hn]; exact ⟨hpc, hwk, hph⟩⟩

end

/-- Hypotheses of `C60_hangs_mpi`: two sections with one and three blocks; the master hangs. -/
example : ∃ σ who, Fair (system [[true, false], [], [false]] Mpi.demoEnv) sleeper
    (initial [[true, false], [], [false]] (fun _ => none) (Run.program Mpi.demoSects)) σ who ∧
    ∃ N, ∀ n, N ≤ n → ((σ n).mem .master : MasterData).pc = .join 0 := by
  obtain ⟨σ, who, h1, N, h2⟩ := C60_hangs_mpi (fs := fun _ => none) (kinds := [[true, false], [], [false]]) (x := 0)
    Mpi.demo_input (.start _ fun s _ d hd => by cases hd) (by decide) rfl (by decide)
  exact ⟨σ, who, h1, N, fun n hn => (h2 n hn).1⟩

end MpiLocks
end Hycu
