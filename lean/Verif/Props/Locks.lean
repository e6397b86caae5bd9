import Verif.Lemmas.RunDrain
import Verif.Props.Ends

/-!
C54: the threads of `hycu-threaded` in small steps.  There are no data races, no deadlocks of mutexes, and whatever
happens is possible as well if critical sections are single steps, as in the machine of `Verif.Model.Pool`.
-/

namespace Hycu
namespace Locks

section

variable {env : Run.Env} {kinds : List Bool} {fs : FileSystem} {todo : List Run.Cmd} {ss : List Run.Sect}
  {result : ConfigNode → Block → StoreMap} {c c' : Config Agent Lock Var Val} {a b : Agent} {x : Var}

/-- What `Accesses` means, stores: a step that changes a shared variable accesses it. -/
theorem C54_stores (hx : ∃ l, guard x = .inl l) (hs : Step (runs kinds env) a c c') (hne : c'.mem x ≠ c.mem x) :
    Accesses (runs kinds env) c a x := by
  obtain ⟨l, hx⟩ := hx
  have hl := laws kinds.length (fun i => kinds[i]?.getD false) env
  cases hs with
  | write ws reg ls y h hy =>
    by_cases he : x = y
    · subst he
      unfold Accesses
      rw [h]
      exact hy
    · exact absurd (Function.update_of_ne he _ _) hne
  | compute k reg s ch h hk hs =>
    refine absurd (if_neg ?_) hne
    show guard x ≠ _
    rw [hx]
    simp
  | sync m reg h hs => exact absurd (hl.sync_shared _ _ _ hs x l hx) hne
  | _ => exact absurd rfl hne

/-- What `Accesses` means, loads: a step that does not access a shared variable is possible whatever its value is, and
does the same. -/
theorem C54_loads (hx : ∃ l, guard x = .inl l) (hs : Step (runs kinds env) a c c') (hn : ¬ Accesses (runs kinds env) c a x)
    (v : Val x) : Step (runs kinds env) a (c.store x v) (c'.store x v) := by
  obtain ⟨l, hx⟩ := hx
  have hl := laws kinds.length (fun i => kinds[i]?.getD false) env
  have hp : ∀ (m : Mem) y d, guard y = .inr d → Function.update m x v y = m y := fun m y d hy =>
    Function.update_of_ne (by rintro rfl; rw [hx] at hy; cases hy) _ _
  cases hs with
  | enter reg h hr hreg =>
    exact .enter (c.store x v) reg h (fun h => hr (hl.rest_dep _ _ _ (fun y hy => hp _ y _ hy) h)) fun y hy => by
      rw [hreg y hy]
      exact (hp _ y _ hy).symm
  | acquire k reg l h hi hf => exact .acquire (c.store x v) k reg l h hi hf
  | read k reg y h hi =>
    have hne : y ≠ x := by
      rintro rfl
      unfold Accesses at hn
      rw [h] at hn
      exact hn (Or.inl hi)
    have := Step.read (c.store x v) k reg y h hi
    rw [show (c.store x v).mem y = c.mem y from Function.update_of_ne hne _ _] at this
    exact this
  | compute k reg s ch h hk hs =>
    have := Step.compute (c.store x v) k reg s ch h hk hs
    convert this using 1
    show (⟨_, _, _⟩ : Config Agent Lock Var Val) = ⟨_, _, _⟩
    refine congrArg (fun m => (⟨m, c.owner, _⟩ : Config Agent Lock Var Val)) ?_
    funext y
    by_cases he : y = x
    · subst he
      show Function.update _ y v y = if guard y = .inr a then s y else Function.update c.mem y v y
      rw [Function.update_self, Function.update_self, if_neg (by rw [hx]; simp)]
    · show Function.update _ x v y = if guard y = .inr a then s y else Function.update c.mem x v y
      rw [Function.update_of_ne he, Function.update_of_ne he]
      rfl
  | write ws reg ls y h hy =>
    have hne : y ≠ x := by
      rintro rfl
      unfold Accesses at hn
      rw [h] at hn
      exact hn hy
    have := Step.write (S := runs kinds env) (c.store x v) ws reg ls y h hy
    convert this using 1
    show (⟨_, _, _⟩ : Config Agent Lock Var Val) = ⟨_, _, _⟩
    exact congrArg (fun m => (⟨m, c.owner, _⟩ : Config Agent Lock Var Val)) (Function.update_comm hne.symm _ _ _).symm
  | release reg l ls h => exact .release (c.store x v) reg l ls h
  | exit reg h => exact .exit (c.store x v) reg h
  | sync m reg h hs =>
    have e : ∀ n : Mem, (runs kinds env).held a (Function.update n x v) = (runs kinds env).held a n := fun n =>
      hl.held_dep _ _ _ fun y hy => hp n y a hy
    have := Step.sync (c.store x v) (Function.update m x v) reg h (hl.sync_frame a c.mem _ m _ hs
      (fun y d hy => (hp _ y d hy).symm) (fun y d hy => hp _ y d hy) fun y l' hy => ?_)
    · rw [e m, show (runs kinds env).held a (c.store x v).mem = (runs kinds env).held a c.mem from e c.mem] at this
      exact this
    · by_cases he : y = x
      · subst he
        rw [Function.update_self]
        exact (Function.update_self ..).symm
      · rw [Function.update_of_ne he, hl.sync_shared _ _ _ hs y l' hy]
        exact (Function.update_of_ne he _ _).symm

/-- C54: no data races.  If two threads may access the same shared variable in their next steps, then they are the same
thread; it holds the mutex of this variable. -/
theorem C54_exclusive (h : Reachable (runs kinds env) (initial kinds fs todo) c) (ha : Accesses (runs kinds env) c a x) :
    (∃ l, guard x = .inl l ∧ c.owner l = some a) ∧ ∀ b, Accesses (runs kinds env) c b x → b = a := by
  have hl := laws kinds.length (fun i => kinds[i]?.getD false) env
  have hi := (refines h).1
  refine ⟨?_, fun b hb => hi.exclusive hl hb ha⟩
  unfold Accesses at ha
  split at ha
  · exact ha.elim
  · next k reg hp =>
    rcases ha with ha | ha
    · exact hi.next_owned hl hp ha
    · exact hi.read_owned hl hp ha
  · next ws reg ls hp => exact hi.write_owned hp ha

/-- C54: critical sections are atomic.  For every state that can be reached there is a state of the machine with large
steps, with the same files, and everything else that is not protected by a mutex held by some thread. -/
theorem C54_atomic (h : Reachable (runs kinds env) (initial kinds fs todo) c) :
    ∃ st, Run.Reachable env (Run.initial kinds fs todo) st ∧ st.fs = (c.mem .main : MainData).fs ∧
      ∀ x, (∀ l, guard x = .inl l → c.owner l = none) → c.mem x = ofState st x := by
  obtain ⟨_, st, h1, h2, _⟩ := refines h
  have key : ∀ x, (∀ l, guard x = .inl l → c.owner l = none) → c.mem x = ofState st x := by
    intro x hx
    rw [h2]
    cases hg : guard x with
    | inl l => exact (abs_free (S := runs kinds env) hg (hx l hg)).symm
    | inr b => exact (abs_private (S := runs kinds env) hg).symm
  refine ⟨st, h1, ?_, key⟩
  rw [key .main fun l hl => by cases hl]
  rfl

/-- C54: moreover one execution corresponds to another one, step by step: a small step has no effect, or it is a large
step. -/
theorem C54_simulation (env : Run.Env) (kinds : List Bool) (fs : FileSystem) (todo : List Run.Cmd) :
    ∃ R : Config Agent Lock Var Val → Run.State → Prop, R (initial kinds fs todo) (Run.initial kinds fs todo) ∧
      ∀ c st, R c st →
        (∀ x, (∀ l, guard x = .inl l → c.owner l = none) → c.mem x = ofState st x) ∧
        (∀ a c', Step (runs kinds env) a c c' → R c' st ∨ ∃ l st', Run.step env st l = .ok (some st') ∧ R c' st') ∧
        ∀ c', Scribble (runs kinds env) c c' → R c' st := by
  have hl := laws kinds.length (fun i => kinds[i]?.getD false) env
  refine ⟨fun c st => Inv (runs kinds env) c ∧ Matches env kinds fs todo (abs (runs kinds env) c) st, ?_, ?_⟩
  · obtain ⟨h1, h2⟩ := Inv.initial (runs kinds env) (initial kinds fs todo) (fun _ => rfl) (fun _ => rfl) (fun a => by
      cases a <;> rfl)
    exact ⟨h1, .refl, h2.symm, rfl, fun _ => rfl⟩
  · rintro c st ⟨hi, hm⟩
    refine ⟨fun x hx => ?_, fun a c' hs => ?_, fun c' hs => ?_⟩
    · rw [hm.2.1]
      cases hg : guard x with
      | inl l => exact (abs_free (S := runs kinds env) hg (hx l hg)).symm
      | inr b => exact (abs_private (S := runs kinds env) hg).symm
    · obtain ⟨h1, h2 | h2⟩ := hi.step hl hs
      · exact Or.inl ⟨h1, by rw [h2]; exact hm⟩
      · obtain ⟨l, st', h3, h4⟩ := hm.big h2
        exact Or.inr ⟨l, st', h4, h1, h3⟩
    · obtain ⟨h1, h2⟩ := hi.scribble hl hs
      exact ⟨h1, by rw [h2]; exact hm⟩

/-- C54: conversely all states of the machine with large steps can be reached in small steps, except for those inside of
`ThreadPool::assign`, where the mutex of the pool is held. -/
theorem C54_reaches {st : Run.State} (h : Run.Reachable env (Run.initial kinds fs todo) st) (hp : ∀ i b, st.pc ≠ .notify i b) :
    ∃ c, Reachable (runs kinds env) (initial kinds fs todo) c ∧ (∀ a, c.prog a = .out) ∧ (∀ l, c.owner l = none) ∧
      c.mem = ofState st := by
  obtain ⟨_, c, h1, h2, h3⟩ := follows h
  have hm : c.mem = ofState st := by
    cases h3 with
    | same h => exact h
    | late i b h => exact absurd h (hp i b)
    | woken i b h => exact absurd h (hp i b)
  refine ⟨c, h1, h2, fun l => owner_free (refines h1).1 h2 fun i b h => ?_, hm⟩
  rw [hm] at h
  exact absurd h (hp i b)

/-- C54: nothing undefined happens and nothing is thrown. -/
theorem C54_safe (hi : Run.Input env ss result) (hp : Run.Past env ss fs) (hk : kinds.length < 4294967296)
    (h : Reachable (runs kinds env) (initial kinds fs (Run.program ss)) c) : ¬ Fails (runs kinds env) c := by
  intro hf
  have hl := laws kinds.length (fun i => kinds[i]?.getD false) env
  obtain ⟨hinv, st, hm⟩ := refines h
  obtain ⟨a, ch, _, hn⟩ := hinv.fails hl hf
  obtain ⟨o, ho⟩ := Run.C38_safe hi hp hk hm.1 (label ch a)
  have he := eqv_step env st [] (label ch a)
  rw [ho, ← hm.toState] at he
  obtain ⟨o', ho'⟩ : ∃ o', Run.step env (toState kinds.length (fun i => kinds[i]?.getD false) (abs (runs kinds env) c))
      (label ch a) = .ok o' := by
    generalize Run.step env (toState kinds.length (fun i => kinds[i]?.getD false) (abs (runs kinds env) c)) (label ch a) = r at he
    cases he with
    | none => exact ⟨_, rfl⟩
    | some u => exact ⟨_, rfl⟩
  refine hn (o'.map ofState) ?_
  show (Run.step env (toState kinds.length (fun i => kinds[i]?.getD false) (abs (runs kinds env) c)) (label ch a)).bind _ = _
  rw [ho']
  rfl

/-- C54: a run that has ended leaves what is claimed in C35 for the machine with large steps: every block is in exactly
one record, and the merger gives the sum of the results of all blocks. -/
theorem C54_exact (hi : Run.Input env ss result) (hp : Run.Past env ss fs) (hk : kinds.length < 4294967296)
    (h : Reachable (runs kinds env) (initial kinds fs (Run.program ss)) c) (hf : (c.mem .main : MainData).pc = .finished)
    (ht : (c.mem .main : MainData).todo = []) :
    ∀ s ∈ ss, ∃ d ps, (c.mem .main : MainData).fs s.cfg.resultPath = some d ∧ d.Holds ps ∧
      (∀ b, (ps.flatMap Prod.fst).count b = if b ∈ s.blocks then 1 else 0) ∧
      ∃ r m, Merger.merge d = .ok ⟨0, some (Store.print m, Record.print r)⟩ ∧
        Tally m (s.blocks.flatMap (result s.cfg)) ∧ ∀ b, b ≠ [] → (b ∈ r ↔ b ∈ s.blocks) := by
  obtain ⟨st, h1, -, h2⟩ := C54_atomic h
  have e := h2 .main fun l hl => by cases hl
  rw [e] at hf ht ⊢
  exact Run.C35_exact_partial hi hp hk h1 hf ht

/-- C54: there is no deadlock of mutexes.  From every state all critical sections can be completed without beginning new
ones, and then all mutexes are free. -/
theorem C54_drains (hi : Run.Input env ss result) (hp : Run.Past env ss fs) (hk : kinds.length < 4294967296)
    (h : Reachable (runs kinds env) (initial kinds fs (Run.program ss)) c) :
    ∃ c', Drains (runs kinds env) c c' ∧ (∀ a, c'.prog a = .out) ∧ ∀ l, c'.owner l = none :=
  drains h fun _ h' => C54_safe hi hp hk h'

/-- C54: and this is what happens if no new ones are begun.  Whenever a thread is in a critical section, a thread that is
in one or holds a mutex can make a step, and there are finitely many such steps. -/
theorem C54_finite (hi : Run.Input env ss result) (hp : Run.Past env ss fs) (hk : kinds.length < 4294967296)
    (h : Reachable (runs kinds env) (initial kinds fs (Run.program ss)) c) :
    (c.prog a ≠ .out → ∃ b c', (c.prog b ≠ .out ∨ ∃ l, c.owner l = some b) ∧ Step (runs kinds env) b c c') ∧
    ¬ ∃ (σ : Nat → Config Agent Lock Var Val) (who : Nat → Agent), σ 0 = c ∧
      ∀ n, ((σ n).prog (who n) ≠ .out ∨ ∃ l, (σ n).owner l = some (who n)) ∧
        Step (runs kinds env) (who n) (σ n) (σ (n + 1)) := by
  have hl := laws kinds.length (fun i => kinds[i]?.getD false) env
  constructor
  · intro ha
    have hinv := (refines h).1
    rcases hinv.progress hl ha with hf | ⟨b, c', hs, hb⟩
    · exact absurd hf (C54_safe hi hp hk h)
    · refine ⟨b, c', ?_, hs⟩
      rcases hb with hb | hb
      · exact Or.inl hb
      · obtain ⟨l, hl⟩ := List.exists_mem_of_ne_nil _ hb
        exact Or.inr ⟨l, (hinv.own b l).1 (List.mem_append_left _ hl)⟩
  · rintro ⟨σ, who, h0, hs⟩
    have hr : ∀ n, Reachable (runs kinds env) (initial kinds fs (Run.program ss)) (σ n) := by
      intro n
      induction n with
      | zero => rw [h0]; exact h
      | succ n ih => exact .step _ ih (hs n).2
    have hlt : ∀ n, total kinds.length (σ (n + 1)) < total kinds.length (σ n) := by
      intro n
      refine total_lt (hr n) ?_ (hs n).2
      rcases (hs n).1 with h1 | ⟨l, h1⟩
      · exact Or.inl h1
      · by_cases ho : (σ n).prog (who n) = .out
        · right
          have := ((refines (hr n)).1.own (who n) l).2 h1
          unfold holds at this
          rw [ho] at this
          change l ∈ (runs kinds env).held (who n) (σ n).mem ++ [] at this
          rw [List.append_nil] at this
          exact List.ne_nil_of_mem this
        · exact Or.inl ho
    have hbound : ∀ n, total kinds.length (σ n) + n ≤ total kinds.length (σ 0) := by
      intro n
      induction n with
      | zero => exact Nat.le_refl _
      | succ n ih =>
        have := hlt n
        omega
    have := hbound (total kinds.length (σ 0) + 1)
    omega

end

/-! ### Examples -/

/-- A state in which two threads are in critical sections: thread 0 has acquired its mutex, thread 1 is in front of its
mutex. -/
noncomputable def insideConfig : Config Agent Lock Var Val :=
  let c := initial [true, false] (fun _ => none) (Run.program Mpi.demoSects)
  let c1 := c.go (.thread 1) (.entering 0 c.mem)
  let c2 := c1.go (.thread 0) (.entering 0 c1.mem)
  { c2.go (.thread 0) (.entering 1 c1.mem) with owner := Function.update c2.owner (Lock.data 0) (some (.thread 0)) }

theorem inside_reachable : Reachable (runs [true, false] Mpi.demoEnv)
    (initial [true, false] (fun _ => none) (Run.program Mpi.demoSects)) insideConfig := by
  refine .step (.thread 0) (.step (.thread 0) (.step (.thread 1) .refl (.enter _ _ rfl ?_ fun _ _ => rfl))
    (.enter _ _ rfl ?_ fun _ _ => rfl)) (.acquire _ 0 _ (Lock.data 0) rfl rfl rfl)
  · rintro (h | h | h)
    · exact h (by decide)
    · cases h
    · cases h
  · rintro (h | h | h)
    · exact h (by decide)
    · cases h
    · cases h

/-- Hypotheses of `C54_exclusive`, `C54_atomic`, `C54_drains` and `C54_finite`: thread 0 will read its flag, thread 1 is in
a section as well. -/
example : Reachable (runs [true, false] Mpi.demoEnv) (initial [true, false] (fun _ => none) (Run.program Mpi.demoSects))
    insideConfig ∧ Accesses (runs [true, false] Mpi.demoEnv) insideConfig (.thread 0) (.stop 0) ∧
    insideConfig.prog (.thread 1) ≠ .out :=
  ⟨inside_reachable, Or.inl rfl, fun h => by cases h⟩

/-- Hypotheses of `C54_stores`: the main thread has decided that thread 0 has to stop. -/
example : ∃ c c' : Config Agent Lock Var Val, Step (runs [false] Mpi.demoEnv) .main c c' ∧ c'.mem (.stop 0) ≠ c.mem (.stop 0) := by
  let c := (initial [false] (fun _ => none) []).go .main
    (.leaving [.stop 0] (Function.update (initial [false] (fun _ => none) []).mem (Var.stop 0) true) [.data 0])
  refine ⟨c, _, .write c _ _ _ (.stop 0) rfl (List.mem_singleton.2 rfl), fun h => ?_⟩
  cases h

/-- Hypotheses of `C54_loads`: thread 0 reads its flag, which has nothing to do with the list of idle threads. -/
example : ∃ c', Step (runs [true, false] Mpi.demoEnv) (.thread 0) insideConfig c' ∧
    ¬ Accesses (runs [true, false] Mpi.demoEnv) insideConfig (.thread 0) .idle := by
  refine ⟨_, .read insideConfig 1 _ (.stop 0) rfl rfl, ?_⟩
  rintro (h | h)
  · cases h
  · cases h

/-- Hypotheses of `C54_reaches` and `C54_exact`: a run in small steps that ends. -/
example : ∃ c, Reachable (runs [true, false] Mpi.demoEnv)
    (initial [true, false] (fun _ => none) (Run.program Mpi.demoSects)) c ∧ (c.mem .main : MainData).pc = .finished ∧
    (c.mem .main : MainData).todo = [] := by
  obtain ⟨st, h1, h2, h3⟩ := Run.C51_reachable (kinds := [true, false]) (fs := fun _ => none) Mpi.demo_input
    (.start _ fun s _ d hd => by cases hd) (fun s hs => by
      simp only [Mpi.demoSects, List.mem_cons, List.not_mem_nil, or_false] at hs
      rcases hs with rfl | rfl <;> constructor <;> decide) (by decide) (by decide)
  obtain ⟨c, h4, _, _, h5⟩ := C54_reaches h1 fun i b h => by rw [h2] at h; cases h
  exact ⟨c, h4, by rw [h5]; exact h2, by rw [h5]; exact h3⟩

end Locks
end Hycu
