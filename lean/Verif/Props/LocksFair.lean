import Verif.Lemmas.RunLocksExist
import Verif.Props.Ends
import Verif.Props.Locks
import Verif.Props.Mpi

/-!
C60 for `hycu-threaded`: if all threads are scheduled fairly, instruction by instruction, then the run ends, and the results
are complete.
-/

namespace Hycu
namespace Locks

section

variable {env : Run.Env} {kinds : List Bool} {fs : FileSystem} {ss : List Run.Sect}
  {result : ConfigNode → Block → StoreMap} {σ : Nat → Config Agent Lock Var Val} {who : Nat → Option Agent}

theorem start_inv (env : Run.Env) (kinds : List Bool) (fs : FileSystem) (todo : List Run.Cmd) :
    Inv (runs kinds env) (initial kinds fs todo) :=
  (Inv.initial (runs kinds env) (initial kinds fs todo) (fun _ => rfl) (fun _ => rfl) fun a => by cases a <;> rfl).1

theorem sane (hi : Run.Input env ss result) (hp : Run.Past env ss fs) (hk : kinds.length < 4294967296)
    (hf : Fair (runs kinds env) sleeper (initial kinds fs (Run.program ss)) σ who) :
    Sane (runs kinds env) sleeper (agents kinds) (initial kinds fs (Run.program ss)) σ who where
  run := hf
  sleepers := sleepers kinds env
  short := short kinds env
  inv := start_inv env kinds fs _
  out _ := rfl
  safe _ h := C54_safe hi hp hk h

/-- C60: a fair execution in small steps ends, unless a notification is lost. -/
theorem C60_ends (hi : Run.Input env ss result) (hp : Run.Past env ss fs) (hk : kinds.length < 4294967296) (h0 : kinds ≠ [])
    (hf : Fair (runs kinds env) sleeper (initial kinds fs (Run.program ss)) σ who)
    (ha : ∀ n a, who n = some a → Alert (σ n) a) :
    ∃ n, ∀ m, n ≤ m → ((σ m).mem .main : MainData).pc = .finished ∧
      ((σ m).mem .main : MainData).fs = ((σ n).mem .main : MainData).fs := by
  obtain ⟨τ, ls, v, h1, h2, h3, h4, h5, _⟩ := exists_exec (sane hi hp hk hf) (fun st h l => Run.C38_safe hi hp hk h l) ha
  obtain ⟨n, hn⟩ := Run.C51_ends hk h0 hi.blocks h1 h2 h3
  have hmem : ∀ m, (σ m).mem .main = ofState (v m) .main := fun m => by
    rw [(h4 m).2.1]
    exact (abs_private (S := runs kinds env) (x := Var.main) rfl).symm
  have key : ∀ m, n ≤ m → (v m).pc = .finished ∧ (v m).fs = (τ n).fs := by
    intro m hm
    obtain ⟨k, hk, he⟩ := h5 m
    rw [← he]
    exact hn k (by omega)
  refine ⟨n, fun m hm => ?_⟩
  obtain ⟨k1, k2⟩ := key m hm
  rw [hmem m, hmem n]
  exact ⟨k1, k2.trans (key n (Nat.le_refl _)).2.symm⟩

/-- C60: if moreover no configuration is refused, then all results are there in the end: the merger gives the sum of the
results of all blocks. -/
theorem C60_complete (hi : Run.Input env ss result) (hp : Run.Past env ss fs) (hk : kinds.length < 4294967296) (h0 : kinds ≠ [])
    (hf : Fair (runs kinds env) sleeper (initial kinds fs (Run.program ss)) σ who)
    (ha : ∀ n a, who n = some a → Alert (σ n) a)
    (hc : ∀ n, ((σ n).mem .main : MainData).pc = .wait .exit → ((σ n).mem .main : MainData).todo = []) :
    ∃ n, ∀ m, n ≤ m → ((σ m).mem .main : MainData).pc = .finished ∧ ((σ m).mem .main : MainData).todo = [] ∧
      ∀ s ∈ ss, ∃ d ps, ((σ m).mem .main : MainData).fs s.cfg.resultPath = some d ∧ d.Holds ps ∧
        (∀ b, (ps.flatMap Prod.fst).count b = if b ∈ s.blocks then 1 else 0) ∧
        ∃ r m, Merger.merge d = .ok ⟨0, some (Store.print m, Record.print r)⟩ ∧
          Tally m (s.blocks.flatMap (result s.cfg)) ∧ ∀ b, b ≠ [] → (b ∈ r ↔ b ∈ s.blocks) := by
  obtain ⟨τ, ls, v, h1, _, _, h4, h5, h6⟩ := exists_exec (sane hi hp hk hf) (fun st h l => Run.C38_safe hi hp hk h l) ha
  have hmem : ∀ m, (σ m).mem .main = ofState (v m) .main := fun m => by
    rw [(h4 m).2.1]
    exact (abs_private (S := runs kinds env) (x := Var.main) rfl).symm
  obtain ⟨n, hn⟩ := C60_ends hi hp hk h0 hf ha
  refine ⟨n, fun m hm => ?_⟩
  obtain ⟨k1, _⟩ := hn m hm
  have ht : ((σ m).mem .main : MainData).todo = [] := by
    obtain ⟨k, _, he⟩ := h5 m
    rw [hmem m] at k1 ⊢
    have hpc : (v m).pc = .finished := k1
    have := h1.todo_nil rfl (fun j hj => ?_) k (by rw [he, hpc]; rfl)
    · rw [he] at this
      exact this
    · obtain ⟨i, hi⟩ := h6 j
      rw [hi] at hj ⊢
      have := hc i
      rw [hmem i] at this
      exact this hj
  exact ⟨k1, ht, C54_exact hi hp hk (hf.reachable m) k1 ht⟩

/-- C60: there are such executions. -/
theorem C60_exists (hi : Run.Input env ss result) (hp : Run.Past env ss fs) (hk : kinds.length < 4294967296)
    (hz : ∀ s ∈ ss, Run.Nonzero s.cfg) :
    ∃ σ who, Fair (runs kinds env) sleeper (initial kinds fs (Run.program ss)) σ who ∧
      (∀ n a, who n = some a → Alert (σ n) a) ∧
      ∀ n, ((σ n).mem .main : MainData).pc = .wait .exit → ((σ n).mem .main : MainData).todo = [] := by
  have hinv := start_inv env kinds fs (Run.program ss)
  obtain ⟨σ, who, h1, h2, h3⟩ := exists_fair_only (good := Creates) (laws _ _ env) (awake_create _ _ env) (eager kinds env)
    (sleepers kinds env) (short kinds env) hinv (fun c hc => C54_safe hi hp hk hc) (fun _ => rfl)
    (fun a => by cases a <;> rfl)
    (fun a hu => by
      cases a with
      | main => exact hu
      | thread i => cases hu.2)
  have hst : ∀ n a, Stays kinds (ss.map fun s => s.cfg) a (σ n).mem := fun n => by
    refine stays hinv (h3 n) fun a => ?_
    cases a with
    | thread i => exact fun _ h => by cases h
    | main =>
      refine ⟨fun hl => (by cases hl), fun c hc => ?_⟩
      obtain ⟨s, h1, h2⟩ := List.mem_flatMap.1 hc
      rcases List.mem_cons.1 h2 with h2 | h2
      · cases h2
        exact List.mem_map.2 ⟨s, h1, rfl⟩
      · obtain ⟨b, _, h2⟩ := List.mem_map.1 h2
        cases h2
  refine ⟨σ, who, h1, fun n a h => Calm.alert (hst n) (h2 n a h), fun n hn => ?_⟩
  have hl : Run.Leaving _ _ := hst n .main
  rcases hl.todo (by
    show ((σ n).mem .main : MainData).pc.leaving = true
    rw [hn]; rfl) with h | ⟨c, rest, h, hc⟩
  · exact h
  · obtain ⟨s, h4, h5⟩ := List.mem_map.1 (hl.accept c (by rw [h]; exact List.mem_cons_self))
    exact absurd (h5 ▸ hz s h4) hc

end

/-! ### Hypotheses can be satisfied -/

/-- Two threads, one of them with OpenCL. -/
example : ∃ σ who, Fair (runs [true, false] Mpi.demoEnv) sleeper
      (initial [true, false] (fun _ => none) (Run.program Mpi.demoSects)) σ who ∧
    (∀ n a, who n = some a → Alert (σ n) a) ∧
    (∀ n, ((σ n).mem .main : MainData).pc = .wait .exit → ((σ n).mem .main : MainData).todo = []) ∧
    ∃ n, ((σ n).mem .main : MainData).pc = .finished := by
  obtain ⟨σ, who, h1, h2, h3⟩ := C60_exists (fs := fun _ => none) (kinds := [true, false]) Mpi.demo_input
    (.start _ fun s _ d hd => by cases hd) (by decide) (fun s hs => by
      simp only [Mpi.demoSects, List.mem_cons, List.not_mem_nil, or_false] at hs
      rcases hs with rfl | rfl <;> constructor <;> decide)
  obtain ⟨n, hn⟩ := C60_ends Mpi.demo_input (.start _ fun s _ d hd => by cases hd) (by decide) (by decide) h1 h2
  exact ⟨σ, who, h1, h2, h3, n, (hn n (Nat.le_refl _)).1⟩

end Locks
end Hycu
