import Verif.Lemmas.LocksOnly
import Verif.Lemmas.PoolDone
import Verif.Lemmas.RunLocksFair

/-!
There are fair executions of the threads of `hycu-threaded` in which no notification is lost.
-/

namespace Hycu
namespace Locks

open Run (Env)

variable {env : Env} {kinds : List Bool} {size : Nat} {opencl : Nat → Bool}

/-- A thread has tested its flags and is about to wait. -/
def Urgent (kinds : List Bool) : Agent → Mem → Prop
  | .main, _ => False
  | .thread i, m => i < kinds.length ∧ (m (.phase i) : Run.Phase) = .wait

theorem wake_wait {m : Mem} {i j : Nat} (h : (wakeMem m i (.phase j) : Run.Phase) = .wait) :
    (m (.phase j) : Run.Phase) = .wait := by
  unfold wakeMem at h
  split at h
  · by_cases e : (Var.phase j) = .phase i
    · cases e
      rw [Function.update_self] at h
      cases h
    · rwa [Function.update_of_ne e] at h
  · exact h

theorem wake_done {m : Mem} {i j : Nat} (h : (m (.phase j) : Run.Phase) = .done) :
    (wakeMem m i (.phase j) : Run.Phase) = .done := by
  rcases wakeMem_phase m i j with h1 | h1
  · exact Eq.trans h1 h
  · rw [h] at h1
    cases h1

/-- The phase of a thread is changed only by wake-ups. -/
theorem sync_wait {a : Agent} {m s : Mem} (h : Sync size opencl env a m s) {j : Nat}
    (hw : (s (.phase j) : Run.Phase) = .wait) : (m (.phase j) : Run.Phase) = .wait := by
  cases a with
  | main =>
    obtain ⟨i, b, hp, rfl⟩ | ⟨i, hp, rfl⟩ | ⟨i, hp, hd, rfl⟩ := sync_main_iff.1 h <;> rw [goto_phase] at hw
    · exact wake_wait hw
    · exact wake_wait hw
    · exact hw
  | thread i =>
    obtain ⟨-, rfl⟩ := sync_thread_iff.1 h
    exact wake_wait hw

theorem sync_done {a : Agent} {m s : Mem} (h : Sync size opencl env a m s) {j : Nat}
    (hw : (m (.phase j) : Run.Phase) = .done) : (s (.phase j) : Run.Phase) = .done := by
  cases a with
  | main =>
    obtain ⟨i, b, hp, rfl⟩ | ⟨i, hp, rfl⟩ | ⟨i, hp, hd, rfl⟩ := sync_main_iff.1 h <;> rw [goto_phase]
    · exact wake_done hw
    · exact wake_done hw
    · exact hw
  | thread i =>
    obtain ⟨-, rfl⟩ := sync_thread_iff.1 h
    exact wake_done hw

/-- The variables of the main thread are changed only by itself. -/
theorem sync_main {a : Agent} {m s : Mem} (h : Sync size opencl env a m s) (ha : a ≠ .main) : s .main = m .main := by
  cases a with
  | main => exact absurd rfl ha
  | thread i =>
    obtain ⟨-, rfl⟩ := sync_thread_iff.1 h
    exact wakeMem_main m i

/-- A main thread that can notify or join can still do so. -/
theorem sync_stays {m n : Mem} (h : ∃ t, Sync size opencl env .main m t) (e : n .main = m .main)
    (hd : ∀ i, (m (.phase i) : Run.Phase) = .done → (n (.phase i) : Run.Phase) = .done) :
    ∃ t, Sync size opencl env .main n t := by
  obtain ⟨t, ht⟩ := h
  obtain ⟨i, b, hp, -⟩ | ⟨i, hp, -⟩ | ⟨i, hp, h', -⟩ := sync_main_iff.1 ht
  · exact ⟨_, sync_main_iff.2 (Or.inl ⟨i, b, by rw [e]; exact hp, rfl⟩)⟩
  · exact ⟨_, sync_main_iff.2 (Or.inr (Or.inl ⟨i, by rw [e]; exact hp, rfl⟩))⟩
  · exact ⟨_, sync_main_iff.2 (Or.inr (Or.inr ⟨i, by rw [e]; exact hp, hd i h', rfl⟩))⟩

theorem eager (kinds : List Bool) (env : Env) : Eager (runs kinds env) sleeper (Urgent kinds) where
  dep a m n h hu := by
    cases a with
    | main => exact hu
    | thread i => exact ⟨hu.1, by rw [← same_thread h]; exact hu.2⟩
  rest a m hu := by
    cases a with
    | main => exact hu.elim
    | thread i =>
      rintro (h | h | h)
      · exact h hu.1
      · rw [hu.2] at h; cases h
      · rw [hu.2] at h; cases h
  act a ch m s hu h := by
    cases a with
    | main => exact hu.elim
    | thread i =>
      refine ⟨fun hs => ?_, rfl⟩
      obtain ⟨o, h1, h2⟩ := Res.bind_eq_ok.1 (show (Run.step env (toState _ _ m) (.thread i)).bind _ = _ from h)
      cases o with
      | none => cases h2
      | some st =>
        have h2 : ofState st = s := Option.some.inj (Res.ok.inj h2)
        have hp : ((toState kinds.length (fun i => kinds[i]?.getD false) m).thr i).phase = .wait := hu.2
        have h1 : (if i < kinds.length then Run.threadStep env (toState kinds.length (fun i => kinds[i]?.getD false) m) i
          else .ok none) = .ok (some st) := h1
        rw [if_pos hu.1] at h1
        simp only [Run.threadStep, hp] at h1
        cases h1
        subst h2
        have := hs.2
        simp [ofState, Run.State.setThread] at this
  sync a b m s h hu := by
    cases b with
    | main => exact hu
    | thread i => exact ⟨hu.1, sync_wait h hu.2⟩
  stays_act a b m n hb ha h hr hn := by
    cases a with
    | thread i => exact absurd trivial ha
    | main =>
      refine sync_stays h (hn .main _ rfl (Ne.symm hb)) fun i hd => ?_
      by_cases e : b = .thread i
      · subst e
        exact absurd (Or.inr (Or.inr hd)) hr
      · exact (hn (.phase i) _ rfl (Ne.symm e)).trans hd
  stays_sync a b m n hb ha h hs := by
    cases a with
    | thread i => exact absurd trivial ha
    | main => exact sync_stays h (sync_main hs hb) fun i hd => sync_done hs hd

/-- Threads that do not exist do not wait; the main thread leaves only for the reasons given. -/
def Stays (kinds : List Bool) (cs : List ConfigNode) : Agent → Mem → Prop
  | .main, m => Run.Leaving cs (toState kinds.length (fun i => kinds[i]?.getD false) m)
  | .thread i, m => ¬ i < kinds.length → (m (.phase i) : Run.Phase) ≠ .wait

/-- The choices with which directories can be created. -/
def Creates (ch : Run.Choice) : Prop := ch.create = true

theorem leaving_congr {cs : List ConfigNode} {b b' : Run.State} (h : Run.Leaving cs b)
    (h1 : b'.pc.leaving = true → b.pc.leaving = true) (h2 : b'.todo = b.todo) : Run.Leaving cs b' :=
  ⟨fun h3 => (by rw [h2]; exact h.todo (h1 h3)), by rw [h2]; exact h.accept⟩

theorem stays {cs : List ConfigNode} {c : Config Agent Lock Var Val} {c₀ : Config Agent Lock Var Val}
    (hi : Inv (runs kinds env) c₀) (h : Reachable ((runs kinds env).only Creates) c₀ c)
    (h0 : ∀ a, Stays kinds cs a c₀.mem) : ∀ a, Stays kinds cs a c.mem := by
  refine h.private ((laws _ _ env).only (awake_create _ _ env)) hi.only ?_ ?_ ?_ h0
  · intro a m n hs hm
    cases a with
    | main =>
      have e : m .main = n .main := hs .main rfl
      exact leaving_congr hm (fun h => by
        show (m .main : MainData).pc.leaving = true
        rw [e]; exact h) (by
        show (n .main : MainData).todo = (m .main : MainData).todo
        rw [e])
    | thread i =>
      intro hx
      rw [← hs (.phase i) rfl]
      exact hm hx
  · intro a ch m s hr ha hm
    obtain ⟨hc, ha⟩ := only_some ha
    cases a with
    | main =>
      obtain ⟨o, h1, h2⟩ := Res.bind_eq_ok.1 (show (Run.step env (toState _ _ m) (.master ch)).bind _ = _ from ha)
      cases o with
      | none => cases h2
      | some st =>
        have h2 : ofState st = s := Option.some.inj (Res.ok.inj h2)
        subst h2
        have hm : Run.Leaving cs (toState kinds.length (fun i => kinds[i]?.getD false) m) := hm
        have := hm.step (env := env) (l := .master ch) (fun ch' e => (by cases e; exact hc)) h1
        exact leaving_congr this (fun h => h) rfl
    | thread i => exact fun hx => absurd (Or.inl hx) hr
  · intro a b m s hs hm
    cases b with
    | thread i => exact fun hx hw => hm hx (sync_wait hs hw)
    | main =>
      by_cases e : a = .main
      · subst e
        have hg : ∀ (m' : Mem) pc, m' .main = m .main → (pc.leaving = true → (m .main : MainData).pc.leaving = true) →
            Run.Leaving cs (toState kinds.length (fun i => kinds[i]?.getD false) (goto m' pc)) := by
          intro m' pc he hpc
          refine leaving_congr hm (fun h => hpc ?_) ?_
          · have h : (goto m' pc .main : MainData).pc.leaving = true := h
            rwa [goto_main] at h
          · show (goto m' pc .main : MainData).todo = (m .main : MainData).todo
            rw [goto_main, he]
        obtain ⟨i, b, hp, rfl⟩ | ⟨i, hp, rfl⟩ | ⟨i, hp, -, rfl⟩ := sync_main_iff.1 hs
        · exact hg _ _ (wakeMem_main m i) fun h => by cases h
        · exact hg _ _ (wakeMem_main m i) fun h => by rw [hp]; rfl
        · exact hg _ _ rfl fun h => by rw [hp]; rfl
      · have e : s .main = m .main := sync_main hs e
        exact leaving_congr hm (fun h => by
          show (m .main : MainData).pc.leaving = true
          rw [← e]; exact h) (by
          show (s .main : MainData).todo = (m .main : MainData).todo
          rw [e])

theorem Calm.alert {cs : List ConfigNode} {c : Config Agent Lock Var Val} (h : ∀ a, Stays kinds cs a c.mem) {a : Agent}
    (hc : Calm (runs kinds env) (Urgent kinds) c a) : Alert c a := by
  cases a with
  | thread i => trivial
  | main =>
    intro ho i hn hw
    have hr : (runs kinds env).rest .main c.mem := by
      show mainRests (c.mem .main)
      unfold mainRests
      rcases hn with ⟨b, hn⟩ | hn <;> rw [hn] <;> trivial
    by_cases hx : i < kinds.length
    · exact hc ho hr (.thread i) ⟨hx, hw⟩
    · exact h (.thread i) hx hw

end Locks
end Hycu
