import Verif.Lemmas.MpiLocksSettle

/-!
Steps of the machine with large steps are large steps of the threads.
-/

namespace Hycu
namespace MpiLocks

open Mpi (Proc Msg)
open Run (Env Choice)
open Locks (Config Inv Big Bigs)

variable {env : Env} {kinds : List (List Bool)} {fs : FileSystem} {todo : List Run.Cmd}

/-- The master makes a step in a section, or notifies, or joins. -/
theorem master_not_rest {st st' : Mpi.State} {ch : Choice} (hs : Mpi.masterStep st ch = .ok (some st')) {d : MasterData}
    (hd : d.pc = st.pc) (ht : d.todo = st.todo) :
    (∃ i b, st.pc = .notify i b ∨ st.pc = .shutNotify i ∨ st.pc = .join i) ∨ ¬ masterRests d := by
  by_cases h : ∃ i b, st.pc = .notify i b ∨ st.pc = .shutNotify i ∨ st.pc = .join i
  · exact Or.inl h
  right
  intro hr
  unfold masterRests at hr
  rw [hd, ht] at hr
  unfold Mpi.masterStep at hs
  split at hs <;> rename_i hpc <;> rw [hpc] at hr <;> simp only at hr <;> try exact hr.elim
  · split at hs
    · next h => exact hr ⟨_, _, h⟩
    · cases hs
  · split at hs
    · next h => exact hr ⟨_, _, h⟩
    · cases hs
  · split at hs
    · next h => exact hr ⟨_, _, h⟩
    · cases hs
  · split at hs
    · next h => exact hr ⟨_, _, h⟩
    · cases hs
  · split at hs
    · next h => exact hr ⟨_, _, h⟩
    · cases hs
  · exact h ⟨_, _, Or.inl hpc⟩
  · exact h ⟨_, [], Or.inr (Or.inl hpc)⟩
  · exact h ⟨_, [], Or.inr (Or.inr hpc)⟩
  · cases hs

/-- The main thread of a worker makes a step in a section, or notifies, or joins. -/
theorem worker_not_rest {p : Proc} {r : Proc × Hand} {h : Hand} (hs : workerStep p h = .ok (some r)) {d : WorkerData}
    (hd : d.pc = p.pc) (hh : d.hand = h) :
    (h = .none ∧ ∃ i, p.pc = .notify i ∨ p.pc = .shutNotify i ∨ p.pc = .join i) ∨ ¬ workerRests d := by
  by_cases hn : h = .none ∧ ∃ i, p.pc = .notify i ∨ p.pc = .shutNotify i ∨ p.pc = .join i
  · exact Or.inl hn
  right
  intro hr
  unfold workerRests at hr
  rw [hh, hd] at hr
  split at hr
  · next hpc => exact hn ⟨rfl, _, Or.inl hpc⟩
  · next hpc => exact hn ⟨rfl, _, Or.inr (Or.inl hpc)⟩
  · next hpc => exact hn ⟨rfl, _, Or.inr (Or.inr hpc)⟩
  · next hpc =>
    unfold workerStep Proc.workerStep at hs
    rw [hpc] at hs
    cases hs
  · exact hr

theorem big_of_step {st st' : State} {l : Mpi.Label} (hf : Fixed kinds st.base) (hs : step env st l = .ok (some st')) :
    Big (system kinds env) (ofState st) (ofState st') := by
  have hts : toState kinds (ofState st) = st := toState_ofState hf
  have hstep : step env (toState kinds (ofState st)) l = .ok (some st') := by rw [hts]; exact hs
  cases l with
  | master ch =>
    have hact : (system kinds env).act (.main 0) ch (ofState st) = .ok (some (ofState st')) := by
      show (step env (toState kinds (ofState st)) (.master ch)).bind _ = _
      rw [hstep]
      rfl
    by_cases hw : Waits st.base
    · refine .act (.main 0) ch (fun hr => ?_) hact
      change masterRests (ofState st .master) at hr
      unfold masterRests at hr
      unfold Waits at hw
      split at hw <;> rename_i hpc <;> first | exact hw | (rw [show (ofState st .master : MasterData).pc = st.base.pc from rfl, hpc] at hr; exact hr)
    · unfold step at hs
      simp only at hs
      rw [if_neg hw] at hs
      obtain ⟨o, h1, h2⟩ := Res.bind_eq_ok.1 hs
      cases o with
      | none => cases h2
      | some b =>
        rcases master_not_rest h1 (d := ofState st .master) rfl rfl with h | h
        · exact .sync (.main 0) (.master _ ch st' h hstep)
        · exact .act (.main 0) ch h hact
  | worker ix =>
    unfold step at hs
    simp only at hs
    split at hs
    · next hx =>
      obtain ⟨o, h1, h2⟩ := Res.bind_eq_ok.1 hs
      cases o with
      | none => cases h2
      | some r =>
        rcases worker_not_rest h1 (d := ofState st (.of ix .worker)) rfl rfl with ⟨h, h'⟩ | h
        · exact .sync (.main ix) (.worker ix _ st' h h' hstep)
        · obtain ⟨k, rfl⟩ := Nat.exists_eq_succ_of_ne_zero (Nat.ne_of_gt hx.1)
          refine .act (.main (k + 1)) ⟨false, false, 0⟩ ?_ ?_
          · rintro (h' | h')
            · exact h' (hf.1 ▸ hx.2)
            · exact h h'
          · show (step env (toState kinds (ofState st)) (.worker (k + 1))).bind _ = _
            rw [hstep]
            rfl
    · cases hs
  | thread ix i =>
    refine .act (.thread ix i) ⟨false, false, 0⟩ ?_ ?_
    · have hs' : (Mpi.step env st.base (.thread ix i)).bind _ = .ok (some st') := hs
      obtain ⟨o, h1, h2⟩ := Res.bind_eq_ok.1 hs'
      cases o with
      | none => cases h2
      | some b =>
        unfold Mpi.step at h1
        simp only at h1
        split at h1
        · next hx =>
          rintro (h | h)
          · refine h ⟨hf.1 ▸ hx.1, ?_⟩
            rw [← (hf.2 ix).1]
            exact hx.2
          · obtain ⟨o', h3, h4⟩ := Res.bind_eq_ok.1 h1
            have : ∀ f, ((st.base.procs ix).thr i).phase = f → f = .sleep ∨ f = .done → o' = none := by
              intro f hp hor
              unfold Proc.threadStep at h3
              rcases hor with rfl | rfl <;> simp only [hp] at h3 <;> cases h3 <;> rfl
            have hn := this _ rfl h
            subst hn
            cases h4
        · cases h1
    · show (step env (toState kinds (ofState st)) (.thread ix i)).bind _ = _
      rw [hstep]
      rfl
  | spurious ix i => exact .sync (.thread ix i) (.spurious _ ix i st' hstep)

theorem bigs_of_reach {st : State} (h : Reach env (start kinds fs todo) st) :
    Bigs (system kinds env) (ofState (start kinds fs todo)) (ofState st) := by
  induction h with
  | refl => exact .refl
  | step l h hs ih => exact .step ih (big_of_step (fixed_reach h) hs)

/-- Every state of the machine with large steps can be reached, with the pending notifications already made. -/
theorem follows {st : State} (h : Reach env (start kinds fs todo) st) :
    ∃ c, Locks.Reachable (system kinds env) (initial kinds fs todo) c ∧ (∀ a, c.prog a = .out) ∧
      c.mem = settle kinds (ofState st) := by
  refine (settles kinds env).run (laws kinds env) (start_inv env kinds fs todo).1 (fun _ => rfl) ?_ (bigs_of_reach h)
  refine mem_ext (fun x l hx => (settle_shared _ hx).symm) rfl (fun ix => ?_) fun ix i => ?_
  · refine (settleWorker_eq ?_).symm
    rintro ⟨_, _, _, i, hi⟩
    cases hi
  · rw [settle_phase, settlePhase_ne (by show (Run.Phase.check : Run.Phase) ≠ _; simp)]
    rfl

/-- Nothing is pending. -/
theorem settle_eq {m : Mem} (hm : ∀ i b, (m .master : MasterData).pc ≠ .notify i b)
    (hw : ∀ ix, Free kinds ix (m (.of ix .worker))) : settle kinds m = m := by
  refine mem_ext (fun x l hx => settle_shared _ hx) (settleMaster_eq hm) (fun ix => settleWorker_eq (hw ix)) fun ix i => ?_
  rw [settle_phase]
  cases ix with
  | zero => rw [pending_zero hm, settlePhase_none]
  | succ k => rw [pending_none (Nat.succ_pos k) (hw _), settlePhase_none]

end MpiLocks
end Hycu
