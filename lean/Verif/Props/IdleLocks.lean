import Verif.Props.Idle
import Verif.Props.AttemptsLocks

/-!
C87 for the machine of hycu-threaded with small steps.
-/

namespace Hycu

open Run (program)

/-- Only steps of the main thread change where it is. -/
theorem Run.step_pc {env : Run.Env} {st st' : Run.State} {l : Run.Label} (h : Run.step env st l = .ok (some st'))
    (hn : st'.pc ≠ st.pc) : ∃ ch, l = .master ch := by
  cases l with
  | master ch => exact ⟨ch, rfl⟩
  | thread i =>
    refine absurd ?_ hn
    simp only [Run.step] at h
    split at h
    · unfold Run.threadStep at h
      simp only at h
      split at h
      · split at h
        · cases h; rfl
        · split at h <;> cases h <;> rfl
      · cases h; rfl
      · cases h
      · split at h
        · cases h
        · cases h; rfl
      · split at h
        · cases h
        · obtain ⟨_, _, h⟩ := Res.bind_eq_ok.1 h
          obtain ⟨_, _, h⟩ := Res.bind_eq_ok.1 h
          cases h
          rfl
      · obtain ⟨_, _, h⟩ := Res.bind_eq_ok.1 h
        cases h
        rfl
      · cases h
    · cases h
  | spurious i =>
    refine absurd ?_ hn
    simp only [Run.step] at h
    split at h
    · cases h
      unfold Run.wake
      split <;> rfl
    · cases h

namespace Locks

variable {env : Run.Env} {kinds : List Bool} {fs : FileSystem} {ss : List Run.Sect} {c c' : Config Agent Lock Var Val}

/-- C87 for hycu-threaded in small steps: when the main thread decides to wait for threads, all of them have a block. The
queue of a thread is looked at if no thread is just working on it. -/
theorem C87_waits (hk : kinds.length < 4294967296) (hd : ∀ s ∈ ss, s.blocks.Nodup)
    (h : Reachable (runs kinds env) (initial kinds fs (program ss)) c) {a : Agent} (hs : Step (runs kinds env) a c c')
    (hpc : (c.mem .main : MainData).pc = .fillReady) (hpc' : (c'.mem .main : MainData).pc = .fillFinished)
    {i : Nat} (hi : i < kinds.length) (ho : c'.owner (.data i) = none) :
    (c'.mem (.queue i) : List Run.Job) ≠ [] ∨
      ∃ j, c'.mem (.phase i) = Run.Phase.compute j ∨ c'.mem (.phase i) = Run.Phase.report j := by
  obtain ⟨hv, st, hm⟩ := refines h
  have e : abs (runs kinds env) c .main = c.mem .main := abs_private (S := runs kinds env) (a := .main) rfl
  have e' : abs (runs kinds env) c' .main = c'.mem .main := abs_private (S := runs kinds env) (a := .main) rfl
  obtain ⟨-, h1⟩ := hv.step (laws kinds.length (fun i => kinds[i]?.getD false) env) hs
  rcases h1 with h1 | h1
  · rw [← e', h1, e, hpc] at hpc'
    cases hpc'
  obtain ⟨l, st', hm', hst⟩ := hm.big h1
  rw [← e, ← hm.2.1] at hpc
  rw [← e', ← hm'.2.1] at hpc'
  have p1 : st.pc = .fillReady := hpc
  have p2 : st'.pc = .fillFinished := hpc'
  obtain ⟨ch, rfl⟩ := Run.step_pc hst (by rw [p1, p2]; exact fun h => by cases h)
  have key := Run.C87_waits hk hd hm.1 p1 hst p2 hi
  have hph : (st'.thr i).phase = c'.mem (.phase i) := by
    have e : abs (runs kinds env) c' (.phase i) = c'.mem (.phase i) :=
      abs_private (S := runs kinds env) (a := .thread i) rfl
    rw [← e, ← hm'.2.1]
    rfl
  have hq : (st'.thr i).queue = c'.mem (.queue i) := by
    have e : abs (runs kinds env) c' (.queue i) = c'.mem (.queue i) :=
      abs_free (S := runs kinds env) (l := .data i) rfl ho
    rw [← e, ← hm'.2.1]
    rfl
  rw [← hph, ← hq]
  by_contra hc
  simp only [not_or, not_not, not_exists] at hc
  refine key ?_
  unfold Run.Thread.given
  rw [hc.1]
  split
  · rename_i j hj
    exact absurd hj (hc.2 j).1
  · rename_i j hj
    exact absurd hj (hc.2 j).2
  · rfl

set_option maxRecDepth 20000 in
/-- Hypotheses of `Locks.C87_waits`: both threads have a block, and the third block is to be assigned. -/
example : ∃ c c', Reachable (runs [true, false] Run.demoEnv) (initial [true, false] (fun _ => none) (program [Run.paceSect])) c ∧
    Step (runs [true, false] Run.demoEnv) .main c c' ∧ (c.mem .main : MainData).pc = .fillReady ∧
    (c'.mem .main : MainData).pc = .fillFinished ∧ c'.owner (.data 0) = none ∧ c'.owner (.data 1) = none := by
  obtain ⟨st, st', h1, h2, h3, h4⟩ : ∃ st st', Run.Reachable Run.demoEnv
      (Run.initial [true, false] (fun _ => none) (program [Run.paceSect])) st ∧ st.pc = .fillReady ∧
      Run.step Run.demoEnv st (.master ⟨false, true, 0⟩) = .ok (some st') ∧ st'.pc = .fillFinished :=
    ⟨_, _, Run.exec_reachable (ls := Run.mainSteps 22) .refl rfl, rfl, rfl, rfl⟩
  obtain ⟨c, h5, h6, h7, h8⟩ := C54_reaches h1 fun i b h => by rw [h2] at h; cases h
  have hp : (c.mem .main : MainData).pc = .fillReady := by rw [h8]; exact h2
  have hf : Fixed [true, false] st := by
    clear h2 h3 h5 h6 h7 h8 hp
    induction h1 with
    | refl => exact ⟨rfl, fun _ => rfl⟩
    | step l _ hs ih => exact (Fixed.step ih hs).1
  have ha := hf.act (a := .main) (ch := ⟨false, true, 0⟩) h3
  rw [← h8] at ha
  have hl := laws [true, false].length (fun i => [true, false][i]?.getD false) Run.demoEnv
  have hb := before hl (a := .main) (c := c) (fun l _ => h7 l) _ (Nat.le_refl _)
  have hpl : (runs [true, false] Run.demoEnv).plan .main c.mem = [.acquire .pool, .read .ready, .read .idle] := by
    show mainPlan _ (c.mem .main : MainData) _ = _
    unfold mainPlan
    rw [hp]
  have hr : ¬ (runs [true, false] Run.demoEnv).rest .main c.mem := by
    show ¬ mainRests (c.mem .main : MainData)
    unfold mainRests
    rw [hp]
    exact fun h => h
  have hfree : ∀ i, (if Lock.data i ∈ locks (((runs [true, false] Run.demoEnv).plan .main c.mem).take
      ((runs [true, false] Run.demoEnv).plan .main c.mem).length) then some Agent.main else c.owner (.data i)) = none := by
    intro i
    rw [if_neg, h7]
    rw [hpl]
    simp [locks]
  refine ⟨_, _, h5.trans ((Reachable.one (Step.enter c c.mem (h6 .main) hr fun _ _ => rfl)).trans hb.reachable),
    Step.compute _ ((runs [true, false] Run.demoEnv).plan .main c.mem).length c.mem _ _
      (go_prog c .main (.entering ((runs [true, false] Run.demoEnv).plan .main c.mem).length c.mem)) rfl ha, hp, ?_, hfree 0, hfree 1⟩
  exact (congrArg MainData.pc (if_pos rfl)).trans h4

end Locks
end Hycu
