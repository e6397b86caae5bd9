import Verif.Lemmas.MpiLocksExist
import Verif.Props.MpiLocks

/-!
C60 for `hycu-mpi`: if all threads of all processes are scheduled fairly, instruction by instruction, then the run ends, and
the results are complete.
-/

namespace Hycu
namespace MpiLocks

open Locks (Config Fair Sane Fails abs abs_private)

section

variable {env : Run.Env} {kinds : List (List Bool)} {fs : FileSystem} {ss : List Run.Sect}
  {result : ConfigNode → Block → StoreMap} {σ : Nat → Config Agent Lock Var Val} {who : Nat → Option Agent}

theorem sane (hi : Run.Input env ss result) (hp : Mpi.Past env ss fs) (hk : ∀ k ∈ kinds, k.length < 4294967296)
    (h0 : kinds ≠ []) (hf : Fair (system kinds env) sleeper (initial kinds fs (Run.program ss)) σ who) :
    Sane (system kinds env) sleeper (agents kinds) (initial kinds fs (Run.program ss)) σ who where
  run := hf
  sleepers := sleepers kinds env
  short := short kinds env
  inv := (start_inv env kinds fs _).1
  out _ := rfl
  safe _ h := C59_safe hi hp h0 hk h

/-- C60: a fair execution in small steps ends, with all processes returned, unless a notification is lost. -/
theorem C60_ends_mpi (hi : Run.Input env ss result) (hp : Mpi.Past env ss fs) (hk : ∀ k ∈ kinds, k.length < 4294967296)
    (hx : ∃ k ∈ kinds, k ≠ []) (hf : Fair (system kinds env) sleeper (initial kinds fs (Run.program ss)) σ who)
    (ha : ∀ n a, who n = some a → Alert (σ n) a) :
    ∃ n, ∀ m, n ≤ m → ((σ m).mem .master : MasterData).pc = .finished ∧
      (∀ ix, 0 < ix → ix < kinds.length → ((σ m).mem (.of ix .worker) : WorkerData).pc = .returned) ∧
      ((σ m).mem .master : MasterData).fs = ((σ n).mem .master : MasterData).fs := by
  have h0 : kinds ≠ [] := by
    obtain ⟨k, hk, _⟩ := hx
    exact List.ne_nil_of_mem hk
  obtain ⟨τ, ls, v, h1, h2, h3, h4, h5, _⟩ := exists_exec (sane hi hp hk h0 hf)
    (fun b hb l => (Mpi.C42_safe hi hp h0 hk hb l).2.2) ha
  obtain ⟨n, hn⟩ := Mpi.C52_ends hk hx hi.blocks h1 h2 h3
  have hmem : ∀ m x b, guard x = .inr b → (σ m).mem x = ofState (v m) x := fun m x b hb => by
    rw [(h4 m).2]
    exact (abs_private (S := system kinds env) hb).symm
  have key : ∀ m, n ≤ m → (flat (v m)).pc = .finished ∧ (∀ ix, 0 < ix → ix < kinds.length → ((flat (v m)).procs ix).pc = .returned) ∧
      (flat (v m)).fs = (τ n).fs := by
    intro m hm
    obtain ⟨k, hk, he⟩ := h5 m
    rw [← he]
    exact hn k (by omega)
  refine ⟨n, fun m hm => ?_⟩
  obtain ⟨k1, k2, k3⟩ := key m hm
  refine ⟨?_, fun ix hx hl => ?_, ?_⟩
  · rw [hmem m .master _ rfl]
    exact k1
  · rw [hmem m (.of ix .worker) _ rfl]
    exact k2 ix hx hl
  · rw [hmem m .master _ rfl, hmem n .master _ rfl]
    exact k3.trans (key n le_rfl).2.2.symm

/-- C60: if moreover no configuration is refused, then all results are there in the end: the merger gives the sum of the
results of all blocks. -/
theorem C60_complete_mpi (hi : Run.Input env ss result) (hp : Mpi.Past env ss fs) (hk : ∀ k ∈ kinds, k.length < 4294967296)
    (hx : ∃ k ∈ kinds, k ≠ []) (hf : Fair (system kinds env) sleeper (initial kinds fs (Run.program ss)) σ who)
    (ha : ∀ n a, who n = some a → Alert (σ n) a)
    (hc : ∀ n, ((σ n).mem .master : MasterData).pc = .flush (.wait .exit) → ((σ n).mem .master : MasterData).todo = []) :
    ∃ n, ∀ m, n ≤ m → ((σ m).mem .master : MasterData).pc = .finished ∧ ((σ m).mem .master : MasterData).todo = [] ∧
      (∀ ix, 0 < ix → ix < kinds.length → ((σ m).mem (.of ix .worker) : WorkerData).pc = .returned) ∧
      ∀ s ∈ ss, ∃ d ps, ((σ m).mem .master : MasterData).fs s.cfg.resultPath = some d ∧ d.Holds ps ∧
        (∀ b, (ps.flatMap Prod.fst).count b = if b ∈ s.blocks then 1 else 0) ∧
        ∃ r m, Merger.merge d = .ok ⟨0, some (Store.print m, Record.print r)⟩ ∧
          Tally m (s.blocks.flatMap (result s.cfg)) ∧ OSet.Sorted r ∧ ∀ b, b ≠ [] → (b ∈ r ↔ b ∈ s.blocks) := by
  have h0 : kinds ≠ [] := by
    obtain ⟨k, hk, _⟩ := hx
    exact List.ne_nil_of_mem hk
  obtain ⟨τ, ls, v, h1, _, _, h4, h5, h6⟩ := exists_exec (sane hi hp hk h0 hf)
    (fun b hb l => (Mpi.C42_safe hi hp h0 hk hb l).2.2) ha
  have hmem : ∀ m, (σ m).mem .master = ofState (v m) .master := fun m => by
    rw [(h4 m).2]
    exact (abs_private (S := system kinds env) (x := Var.master) rfl).symm
  obtain ⟨n, hn⟩ := C60_ends_mpi hi hp hk hx hf ha
  refine ⟨n, fun m hm => ?_⟩
  obtain ⟨k1, k2, _⟩ := hn m hm
  have ht : ((σ m).mem .master : MasterData).todo = [] := by
    obtain ⟨k, _, he⟩ := h5 m
    rw [hmem m] at k1 ⊢
    have hpc : (flat (v m)).pc = .finished := k1
    have := h1.todo_nil rfl (fun j hj => ?_) k (by rw [he, hpc]; rfl)
    · rw [he] at this
      exact this
    · obtain ⟨i, hi⟩ := h6 j
      rw [hi] at hj ⊢
      have := hc i
      rw [hmem i] at this
      exact this hj
  exact ⟨k1, ht, k2, C59_exact hi hp h0 hk (hf.reachable m) k1 ht⟩

/-- C60: there are such executions. -/
theorem C60_exists_mpi (hi : Run.Input env ss result) (hp : Mpi.Past env ss fs) (hk : ∀ k ∈ kinds, k.length < 4294967296)
    (h0 : kinds ≠ []) (hz : ∀ s ∈ ss, Run.Nonzero s.cfg) :
    ∃ σ who, Fair (system kinds env) sleeper (initial kinds fs (Run.program ss)) σ who ∧
      (∀ n a, who n = some a → Alert (σ n) a) ∧
      ∀ n, ((σ n).mem .master : MasterData).pc = .flush (.wait .exit) → ((σ n).mem .master : MasterData).todo = [] := by
  have hinv := (start_inv env kinds fs (Run.program ss)).1
  obtain ⟨σ, who, h1, h2, h3⟩ := Locks.exists_fair_only (good := Creates) (laws kinds env) (awake_create kinds env) (eager kinds env)
    (sleepers kinds env) (short kinds env) hinv (fun c hc => C59_safe hi hp h0 hk hc) (fun _ => rfl)
    (fun a => by match a with
      | .main 0 => rfl
      | .main (k + 1) =>
        show (if k + 1 < kinds.length then _ else _) = _
        split <;> rfl
      | .thread ix i => rfl)
    (fun a hu => by
      cases a with
      | main k => exact hu
      | thread ix i => cases hu.2)
  have hst : ∀ n a, Stays kinds (ss.map fun s => s.cfg) a (σ n).mem := fun n => by
    refine stays hinv (h3 n) fun a => ?_
    cases a with
    | thread ix i => exact fun _ h => by cases h
    | main k =>
      refine fun _ => ⟨fun hl => (by cases hl), fun c hc => ?_⟩
      obtain ⟨s, h1, h2⟩ := List.mem_flatMap.1 hc
      rcases List.mem_cons.1 h2 with h2 | h2
      · cases h2
        exact List.mem_map.2 ⟨s, h1, rfl⟩
      · obtain ⟨b, _, h2⟩ := List.mem_map.1 h2
        cases h2
  refine ⟨σ, who, h1, fun n a h => Calm.alert (hst n) (h2 n a h), fun n hn => ?_⟩
  have hl := hst n (.main 0) rfl
  rcases hl.todo (by
    show ((σ n).mem .master : MasterData).pc.leaving = true
    rw [hn]; rfl) with h | ⟨c, rest, h, hc⟩
  · exact h
  · obtain ⟨s, h4, h5⟩ := List.mem_map.1 (hl.accept c (by rw [h]; exact List.mem_cons_self))
    exact absurd (h5 ▸ hz s h4) hc

end

/-! ### Hypotheses can be satisfied -/

/-- Three processes, one of them without threads. -/
example : ∃ σ who, Fair (system [[true, false], [], [false]] Mpi.demoEnv) sleeper
      (initial [[true, false], [], [false]] (fun _ => none) (Run.program Mpi.demoSects)) σ who ∧
    (∀ n a, who n = some a → Alert (σ n) a) ∧
    (∀ n, ((σ n).mem .master : MasterData).pc = .flush (.wait .exit) → ((σ n).mem .master : MasterData).todo = []) ∧
    ∃ n, ((σ n).mem .master : MasterData).pc = .finished := by
  obtain ⟨σ, who, h1, h2, h3⟩ := C60_exists_mpi (fs := fun _ => none) (kinds := [[true, false], [], [false]]) Mpi.demo_input
    (.start _ fun s _ d hd => by cases hd) (by decide) (by decide) (fun s hs => by
      simp only [Mpi.demoSects, List.mem_cons, List.not_mem_nil, or_false] at hs
      rcases hs with rfl | rfl <;> constructor <;> decide)
  obtain ⟨n, hn⟩ := C60_ends_mpi Mpi.demo_input (.start _ fun s _ d hd => by cases hd) (by decide)
    ⟨_, List.mem_cons_self, by decide⟩ h1 h2
  exact ⟨σ, who, h1, h2, h3, n, (hn n le_rfl).1⟩

end MpiLocks
end Hycu
