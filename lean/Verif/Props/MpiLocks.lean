import Verif.Lemmas.MpiLocksFollow
import Verif.Props.MpiEnds

/-!
C59: the threads of all processes of `hycu-mpi` in small steps.  There are no data races, no deadlocks of mutexes, and
whatever happens is possible as well if critical sections are single steps and messages are handled and answered in one
step, as in the machine of `Verif.Model.Mpi`.
-/

namespace Hycu
namespace MpiLocks

open Locks (Config Step Scribble Reachable Accesses Fails Drains Inv abs abs_free abs_private)

section

variable {env : Run.Env} {kinds : List (List Bool)} {fs : FileSystem} {todo : List Run.Cmd} {ss : List Run.Sect}
  {result : ConfigNode → Block → StoreMap} {c c' : Config Agent Lock Var Val} {a b : Agent} {x : Var}

/-- What `Accesses` means, stores: a step that changes a shared variable accesses it. -/
theorem C59_stores (hx : ∃ l, guard x = .inl l) (hs : Step (system kinds env) a c c') (hne : c'.mem x ≠ c.mem x) :
    Accesses (system kinds env) c a x := (laws kinds env).stores hx hs hne

/-- What `Accesses` means, loads: a step that does not access a shared variable is possible whatever its value is, and
does the same. -/
theorem C59_loads (hx : ∃ l, guard x = .inl l) (hs : Step (system kinds env) a c c')
    (hn : ¬ Accesses (system kinds env) c a x) (v : Val x) : Step (system kinds env) a (c.store x v) (c'.store x v) :=
  (laws kinds env).loads hx hs hn v

/-- C59: no data races.  If two threads may access the same shared variable in their next steps, then they are the same
thread; it holds the mutex of this variable. -/
theorem C59_exclusive (h : Reachable (system kinds env) (initial kinds fs todo) c) (ha : Accesses (system kinds env) c a x) :
    (∃ l, guard x = .inl l ∧ c.owner l = some a) ∧ ∀ b, Accesses (system kinds env) c b x → b = a :=
  ⟨(refines h).1.owned (laws kinds env) ha, fun _ hb => (refines h).1.exclusive (laws kinds env) hb ha⟩

/-- C59: processes do not share memory, except for messages: a thread accesses variables of another process only if it is
the master that sends or receives a message. -/
theorem C59_separate (h : Reachable (system kinds env) (initial kinds fs todo) c) {ix : Nat} {y : Local}
    (ha : Accesses (system kinds env) c a (.of ix y)) :
    a = .main ix ∨ (∃ i, a = .thread ix i) ∨
      (a = .main 0 ∧ (y = .inbox ∨ y = .finishedOut ∨ y = .readyOut ∨ y = .saveOut)) := by
  have h1 := separate h a
  unfold Accesses at ha
  split at ha
  · exact ha.elim
  · rcases ha with ha | ha
    · exact plan_allowed kinds env a _ _ (List.mem_filterMap.2 ⟨_, List.mem_of_getElem? ha, rfl⟩)
    · obtain ⟨k, _, hk⟩ := Locks.reads_take ha
      exact plan_allowed kinds env a _ _ (List.mem_filterMap.2 ⟨_, List.mem_of_getElem? hk, rfl⟩)
  · next ws reg ls hp =>
    rw [hp] at h1
    exact h1 _ ha

/-- C59: critical sections are atomic.  For every state that can be reached there is a state of the machine with large
steps, with everything that is not protected by a mutex held by some thread; up to messages that a worker handles or
answers just now, this is a state of the machine in `Verif.Model.Mpi`, with the same files. -/
theorem C59_atomic (h : Reachable (system kinds env) (initial kinds fs todo) c) :
    ∃ st, (∀ x, (∀ l, guard x = .inl l → c.owner l = none) → c.mem x = ofState st x) ∧
      Mpi.Reachable env (Mpi.initial kinds fs todo) (flat st) ∧ (flat st).fs = (c.mem .master : MasterData).fs := by
  obtain ⟨_, st, h1, h2⟩ := refines h
  have key : ∀ x, (∀ l, guard x = .inl l → c.owner l = none) → c.mem x = ofState st x := by
    intro x hx
    rw [h2]
    cases hg : guard x with
    | inl l => exact (abs_free (S := system kinds env) hg (hx l hg)).symm
    | inr b => exact (abs_private (S := system kinds env) hg).symm
  refine ⟨st, key, (flat_reach h1).2, ?_⟩
  rw [key .master fun l hl => by cases hl]
  rfl

/-- C59: moreover one execution corresponds to another one, step by step: a small step has no effect, or it is a large
step. -/
theorem C59_simulation (env : Run.Env) (kinds : List (List Bool)) (fs : FileSystem) (todo : List Run.Cmd) :
    ∃ R : Config Agent Lock Var Val → Mpi.State → Prop, R (initial kinds fs todo) (Mpi.initial kinds fs todo) ∧
      ∀ c b, R c b →
        (∃ st, flat st = b ∧ ∀ x, (∀ l, guard x = .inl l → c.owner l = none) → c.mem x = ofState st x) ∧
        (∀ a c', Step (system kinds env) a c c' → R c' b ∨ ∃ l b', Mpi.step env b l = .ok (some b') ∧ R c' b') ∧
        ∀ c', Scribble (system kinds env) c c' → R c' b := by
  have hl := laws kinds env
  refine ⟨fun c b => ∃ st, flat st = b ∧ Inv (system kinds env) c ∧ Matches env kinds fs todo (abs (system kinds env) c) st,
    ?_, ?_⟩
  · exact ⟨_, flat_start kinds fs todo, start_inv env kinds fs todo⟩
  · rintro c b ⟨st, rfl, hi, hm⟩
    refine ⟨⟨st, rfl, fun x hx => ?_⟩, fun a c' hs => ?_, fun c' hs => ?_⟩
    · rw [hm.2]
      cases hg : guard x with
      | inl l => exact (abs_free (S := system kinds env) hg (hx l hg)).symm
      | inr b => exact (abs_private (S := system kinds env) hg).symm
    · obtain ⟨h1, h2 | h2⟩ := hi.step hl hs
      · exact Or.inl ⟨st, rfl, h1, by rw [h2]; exact hm⟩
      · obtain ⟨l, st', h3, h4⟩ := hm.big h2
        have hf := step_flat env (flat_reach hm.1).1 l
        rw [h4] at hf
        cases hf with
        | stutter _ hf _ => exact Or.inl ⟨st', hf, h1, h3⟩
        | move _ hr => exact Or.inr ⟨l, _, hr, st', rfl, h1, h3⟩
    · obtain ⟨h1, h2⟩ := hi.scribble hl hs
      exact ⟨st, rfl, h1, by rw [h2]; exact hm⟩

/-- C59: conversely all states of the machine with large steps can be reached in small steps, except for those inside of
`ThreadPool::assign`, where the mutex of a pool is held. -/
theorem C59_reaches {b : Mpi.State} (h : Mpi.Reachable env (Mpi.initial kinds fs todo) b) (hp : ∀ i k, b.pc ≠ .notify i k)
    (hw : ∀ ix i, 0 < ix → ix < kinds.length → (b.procs ix).pc ≠ .notify i) :
    ∃ c, Reachable (system kinds env) (initial kinds fs todo) c ∧ (∀ a, c.prog a = .out) ∧ (∀ l, c.owner l = none) ∧
      c.mem = ofState ⟨b, fun _ => .none⟩ := by
  obtain ⟨c, h1, h2, h3⟩ := follows (reach_of h)
  have hm : c.mem = ofState ⟨b, fun _ => .none⟩ := by
    rw [h3]
    exact settle_eq hp fun ix ⟨h0, hx, _, i, hi⟩ => hw ix i h0 hx hi
  refine ⟨c, h1, h2, fun l => ?_, hm⟩
  cases ho : c.owner l with
  | none => rfl
  | some a =>
    have := (refines h1).1.held_of_owner (h2 a) ho
    rw [h3, (settles kinds env).free] at this
    cases this

/-- C59: nothing undefined happens and nothing is thrown. -/
theorem C59_safe (hi : Run.Input env ss result) (hp : Mpi.Past env ss fs) (h0 : kinds ≠ [])
    (hk : ∀ k ∈ kinds, k.length < 4294967296) (h : Reachable (system kinds env) (initial kinds fs (Run.program ss)) c) :
    ¬ Fails (system kinds env) c := by
  intro hf
  obtain ⟨hinv, st, hm⟩ := refines h
  obtain ⟨a, ch, _, hn⟩ := hinv.fails (laws kinds env) hf
  obtain ⟨hc, hr⟩ := flat_reach hm.1
  obtain ⟨_, _, o, ho⟩ := Mpi.C42_safe hi hp h0 hk hr (label ch a)
  have hok : ∃ o', step env st (label ch a) = .ok o' := by
    have hs := step_flat env hc (label ch a)
    generalize step env st (label ch a) = r at hs
    cases hs with
    | stutter st' _ _ => exact ⟨_, rfl⟩
    | move _ hr =>
      rw [ho] at hr
      cases r with
      | ok o' => exact ⟨o', rfl⟩
      | _ => cases hr
  obtain ⟨o', ho'⟩ := hok
  refine hn (o'.map ofState) ?_
  show (step env (toState kinds (abs (system kinds env) c)) (label ch a)).bind _ = _
  rw [hm.toState, ho']
  rfl

/-- C59: a run that has ended leaves what is claimed in C43 for the machine with large steps: every block is in exactly
one record, and the merger gives the sum of the results of all blocks. -/
theorem C59_exact (hi : Run.Input env ss result) (hp : Mpi.Past env ss fs) (h0 : kinds ≠ [])
    (hk : ∀ k ∈ kinds, k.length < 4294967296) (h : Reachable (system kinds env) (initial kinds fs (Run.program ss)) c)
    (hf : (c.mem .master : MasterData).pc = .finished) (ht : (c.mem .master : MasterData).todo = []) :
    ∀ s ∈ ss, ∃ d ps, (c.mem .master : MasterData).fs s.cfg.resultPath = some d ∧ d.Holds ps ∧
      (∀ b, (ps.flatMap Prod.fst).count b = if b ∈ s.blocks then 1 else 0) ∧
      ∃ r m, Merger.merge d = .ok ⟨0, some (Store.print m, Record.print r)⟩ ∧
        Tally m (s.blocks.flatMap (result s.cfg)) ∧ OSet.Sorted r ∧ ∀ b, b ≠ [] → (b ∈ r ↔ b ∈ s.blocks) := by
  obtain ⟨st, h1, h2, -⟩ := C59_atomic h
  have e := h1 .master fun l hl => by cases hl
  rw [e] at hf ht ⊢
  have hf' : (flat st).pc = .finished := hf
  have ht' : (flat st).todo = [] := ht
  have := Mpi.C43_exact hi hp h0 hk h2 hf' ht'
  exact this

/-- C59: there is no deadlock of mutexes.  From every state all critical sections can be completed without beginning new
ones, and then all mutexes are free. -/
theorem C59_drains (hi : Run.Input env ss result) (hp : Mpi.Past env ss fs) (h0 : kinds ≠ [])
    (hk : ∀ k ∈ kinds, k.length < 4294967296) (h : Reachable (system kinds env) (initial kinds fs (Run.program ss)) c) :
    ∃ c', Drains (system kinds env) c c' ∧ (∀ a, c'.prog a = .out) ∧ ∀ l, c'.owner l = none :=
  (short kinds env).drains (laws kinds env) (start_inv env kinds fs _).1 (fun _ => rfl) h fun _ h' => C59_safe hi hp h0 hk h'

/-- C59: and this is what happens if no new ones are begun.  Whenever a thread is in a critical section, a thread that is
in one or holds a mutex can make a step, and there are finitely many such steps. -/
theorem C59_finite (hi : Run.Input env ss result) (hp : Mpi.Past env ss fs) (h0 : kinds ≠ [])
    (hk : ∀ k ∈ kinds, k.length < 4294967296) (h : Reachable (system kinds env) (initial kinds fs (Run.program ss)) c) :
    (c.prog a ≠ .out → ∃ b c', (c.prog b ≠ .out ∨ ∃ l, c.owner l = some b) ∧ Step (system kinds env) b c c') ∧
    ¬ ∃ (σ : Nat → Config Agent Lock Var Val) (who : Nat → Agent), σ 0 = c ∧
      ∀ n, ((σ n).prog (who n) ≠ .out ∨ ∃ l, (σ n).owner l = some (who n)) ∧
        Step (system kinds env) (who n) (σ n) (σ (n + 1)) := by
  refine ⟨fun ha => ?_, (short kinds env).finite (laws kinds env) (start_inv env kinds fs _).1 (fun _ => rfl) h⟩
  have hinv := (refines h).1
  rcases hinv.progress (laws kinds env) ha with hf | ⟨b, c', hs, hb⟩
  · exact absurd hf (C59_safe hi hp h0 hk h)
  · refine ⟨b, c', ?_, hs⟩
    rcases hb with hb | hb
    · exact Or.inl hb
    · obtain ⟨l, hl⟩ := List.exists_mem_of_ne_nil _ hb
      exact Or.inr ⟨l, (hinv.own b l).1 (List.mem_append_left _ hl)⟩

/-- C59: so that every run can end in small steps, with all processes returned, whatever happened in earlier runs. -/
theorem C59_ends (hi : Run.Input env ss result) (hp : Mpi.Past env ss fs) (hz : ∀ s ∈ ss, Run.Nonzero s.cfg)
    (hk : ∀ k ∈ kinds, k.length < 4294967296) (hx : ∃ k ∈ kinds, k ≠ []) :
    ∃ c, Reachable (system kinds env) (initial kinds fs (Run.program ss)) c ∧ (∀ a, c.prog a = .out) ∧
      (∀ l, c.owner l = none) ∧ (c.mem .master : MasterData).pc = .finished ∧ (c.mem .master : MasterData).todo = [] ∧
      ∀ ix, 0 < ix → ix < kinds.length → (c.mem (.of ix .worker) : WorkerData).pc = .returned := by
  obtain ⟨st, h1, h2, h3, h4⟩ := Mpi.C52_reachable hi hp hz hk hx
  obtain ⟨c, r1, r2, r3, r4⟩ := C59_reaches h1 (fun i b h => by rw [h2] at h; cases h) fun ix i h0 hx h => by
    rw [h4 ix h0 hx] at h; cases h
  exact ⟨c, r1, r2, r3, by rw [r4]; exact h2, by rw [r4]; exact h3, fun ix h0 hx => by rw [r4]; exact h4 ix h0 hx⟩

end

/-! ### Examples -/

/-- Hypotheses of `C59_reaches`, `C59_exact` and `C59_ends`: a run of three processes, one without threads, ends. -/
example : ∃ c, Reachable (system [[true, false], [], [false]] Mpi.demoEnv)
    (initial [[true, false], [], [false]] (fun _ => none) (Run.program Mpi.demoSects)) c ∧
    (c.mem .master : MasterData).pc = .finished ∧ (c.mem .master : MasterData).todo = [] := by
  obtain ⟨c, h1, _, _, h2, h3, _⟩ := C59_ends (kinds := [[true, false], [], [false]]) (fs := fun _ => none) Mpi.demo_input
    (.start _ fun s _ d hd => by cases hd) (fun s hs => by
      simp only [Mpi.demoSects, List.mem_cons, List.not_mem_nil, or_false] at hs
      rcases hs with rfl | rfl <;> constructor <;> decide) (by decide) ⟨_, List.mem_cons_self, by decide⟩
  exact ⟨c, h1, h2, h3⟩

/-- A state in which two threads are in critical sections: thread 0 of process 1 has acquired its mutex, the main thread of
process 1 is in front of the mutex of its queue of messages. -/
noncomputable def insideConfig : Config Agent Lock Var Val :=
  let c := initial [[false], [true, false]] (fun _ => none) (Run.program Mpi.demoSects)
  let c1 := c.go (.main 1) (.entering 0 c.mem)
  let c2 := c1.go (.thread 1 0) (.entering 0 c1.mem)
  { c2.go (.thread 1 0) (.entering 1 c1.mem) with owner := Function.update c2.owner (Lock.data 1 0) (some (.thread 1 0)) }

theorem inside_reachable : Reachable (system [[false], [true, false]] Mpi.demoEnv)
    (initial [[false], [true, false]] (fun _ => none) (Run.program Mpi.demoSects)) insideConfig := by
  refine .step (.thread 1 0) (.step (.thread 1 0) (.step (.main 1) .refl (.enter _ _ rfl ?_ fun _ _ => rfl))
    (.enter _ _ rfl ?_ fun _ _ => rfl)) (.acquire _ 0 _ (Lock.data 1 0) rfl rfl rfl)
  · rintro (h | h)
    · exact h (by decide)
    · exact h
  · rintro (h | h | h)
    · exact h (by decide)
    · cases h
    · cases h

/-- Hypotheses of `C59_exclusive`, `C59_separate`, `C59_atomic`, `C59_drains` and `C59_finite`: thread 0 of process 1 will read
its flag, the main thread of process 1 is in a section as well. -/
example : Reachable (system [[false], [true, false]] Mpi.demoEnv)
    (initial [[false], [true, false]] (fun _ => none) (Run.program Mpi.demoSects)) insideConfig ∧
    Accesses (system [[false], [true, false]] Mpi.demoEnv) insideConfig (.thread 1 0) (.of 1 (.stop 0)) ∧
    insideConfig.prog (.main 1) ≠ .out :=
  ⟨inside_reachable, Or.inl rfl, fun h => by cases h⟩

/-- Hypotheses of `C59_stores`: the main thread of process 1 has decided that its thread 0 has to stop. -/
example : ∃ c c' : Config Agent Lock Var Val, Step (system [[], [false]] Mpi.demoEnv) (.main 1) c c' ∧
    c'.mem (.of 1 (.stop 0)) ≠ c.mem (.of 1 (.stop 0)) := by
  let c := (initial [[], [false]] (fun _ => none) []).go (.main 1)
    (.leaving [.of 1 (.stop 0)] (Function.update (initial [[], [false]] (fun _ => none) []).mem (.of 1 (.stop 0)) true) [.data 1 0])
  refine ⟨c, _, .write c _ _ _ (.of 1 (.stop 0)) rfl (List.mem_singleton.2 rfl), fun h => ?_⟩
  cases h

/-- Hypotheses of `C59_loads`: thread 0 of process 1 reads its flag, which has nothing to do with the messages. -/
example : ∃ c', Step (system [[false], [true, false]] Mpi.demoEnv) (.thread 1 0) insideConfig c' ∧
    ¬ Accesses (system [[false], [true, false]] Mpi.demoEnv) insideConfig (.thread 1 0) (.of 1 .inbox) := by
  refine ⟨_, .read insideConfig 1 _ (.of 1 (.stop 0)) rfl rfl, ?_⟩
  rintro (h | h)
  · cases h
  · cases h

end MpiLocks
end Hycu
