import Verif.Lemmas.Making
import Verif.Lemmas.MpiData

/-!
When workers get configurations.
-/

namespace Hycu.Mpi

open Run (Env Cmd)

variable {env : Env} {st st' : State}

/-- Where a configuration is sent, this goes on or the call ends. -/
theorem keeps_sending {l : Label} {ix : Nat} (h : step env st l = .ok (some st')) (hpc : st.pc = .configSend ix) :
    (∃ jx, st'.pc = .configSend jx) ∨ st'.todo.length < st.todo.length := by
  cases step_trans h with
  | thread _ _ _ _ p _ => exact Or.inl ⟨ix, hpc⟩
  | worker _ _ _ p _ => exact Or.inl ⟨ix, hpc⟩
  | master _ hm =>
    cases hm with
    | configSend jx _ c rest ht hi => exact Or.inl ⟨jx + 1, rfl⟩
    | configEnd jx _ c rest ht hi =>
      right
      rw [ht]
      exact Nat.lt_succ_self _
    | _ => simp_all

/-- As long as no call has been made, no configuration is on its way, unless it is being sent. -/
structure Untold (n : Nat) (st : State) : Prop where
  todo : st.todo.length ≤ n
  sends : ∀ ix, st.pc = .configSend ix → ∃ c rest, st.todo = .config c :: rest
  inbox : ∀ ix c, .config c ∈ (st.procs ix).inbox → st.todo.length < n ∨ ∃ jx, st.pc = .configSend jx

theorem Untold.initial {kinds : List (List Bool)} {fs : FileSystem} {todo : List Cmd} :
    Untold todo.length (Mpi.initial kinds fs todo) := by
  refine ⟨le_rfl, fun ix h => ?_, fun ix c h => ?_⟩
  · cases h
  · cases h

theorem Untold.step {n : Nat} {l : Label} (hu : Untold n st) (h : step env st l = .ok (some st')) : Untold n st' := by
  have hk := fun ix => keeps_sending (ix := ix) h
  rcases step_goes h with ⟨_, h2, c, rest, h3, rfl⟩ | ⟨iy, c, ms, rfl, h1, h2, h3, h4, rfl⟩ | hg
  · exact ⟨hu.todo, fun _ _ => ⟨c, rest, h3⟩, fun _ _ _ => Or.inr ⟨1, rfl⟩⟩
  · refine ⟨hu.todo, hu.sends, fun ix c' hc => ?_⟩
    have hc : Msg.config c' ∈ (Function.update st.procs iy ({ st.procs iy with inbox := ms }.update c) ix).inbox := hc
    by_cases hx : ix = iy
    · subst hx
      rw [Function.update_self] at hc
      exact hu.inbox ix c' (h4 ▸ List.mem_cons_of_mem _ hc)
    · rw [Function.update_of_ne hx] at hc
      exact hu.inbox ix c' hc
  · have hle : st'.todo.length ≤ st.todo.length := by
      rcases hg.todo with h2 | ⟨b, h2⟩ | ⟨ix, c', h2, h3⟩
      · rw [h2]
      · rw [h2]; exact Nat.le_succ _
      · rw [h3]; exact Nat.le_succ _
    have hs : (∃ jx, st.pc = .configSend jx) → st'.todo.length < n ∨ ∃ jx, st'.pc = .configSend jx := by
      rintro ⟨jx, hj⟩
      rcases hk jx hj with h | h
      · exact Or.inr h
      · exact Or.inl (h.trans_le hu.todo)
    refine ⟨hle.trans hu.todo, fun ix hx => ?_, fun ix c' hc => ?_⟩
    · obtain ⟨⟨ix', h1⟩, h2⟩ := hg.sends ix hx
      rw [h2]
      exact hu.sends ix' h1
    · rcases (hg.procs ix).inbox _ hc with hc | hc
      · rcases hu.inbox ix c' hc with h1 | h1
        · exact Or.inl (hle.trans_lt h1)
        · exact hs h1
      · exact hs (hc c' rfl).2

theorem Untold.reachable {kinds : List (List Bool)} {fs : FileSystem} {todo : List Cmd}
    (h : Reachable env (Mpi.initial kinds fs todo) st) : Untold todo.length st := by
  induction h with
  | refl => exact .initial
  | step l _ hs ih => exact ih.step hs

end Hycu.Mpi
