import Verif.Lemmas.LocksOnly
import Verif.Lemmas.MpiLocksFair

/-!
There are fair executions of the threads of `hycu-mpi` in which no notification is lost.
-/

namespace Hycu
namespace MpiLocks

open Run (Env)
open Locks (Config Laws Eager Calm)

variable {env : Env} {kinds : List (List Bool)} {fs : FileSystem} {todo : List Run.Cmd}

/-- A thread has tested its flags and is about to wait. -/
def Urgent (kinds : List (List Bool)) : Agent → Mem → Prop
  | .main _, _ => False
  | .thread ix i, m => (ix < kinds.length ∧ i < size kinds ix) ∧ (m (.of ix (.phase i)) : Run.Phase) = .wait

theorem wake_wait {m : Mem} {ix i jx j : Nat} (h : (wakeMem m ix i (.of jx (.phase j)) : Run.Phase) = .wait) :
    (m (.of jx (.phase j)) : Run.Phase) = .wait := by
  unfold wakeMem at h
  split at h
  · by_cases e : (Var.of jx (.phase j)) = .of ix (.phase i)
    · cases e
      rw [Function.update_self] at h
      cases h
    · rwa [Function.update_of_ne e] at h
  · exact h

theorem wake_done {m : Mem} {ix i jx j : Nat} (h : (m (.of jx (.phase j)) : Run.Phase) = .done) :
    (wakeMem m ix i (.of jx (.phase j)) : Run.Phase) = .done := by
  rcases wakeMem_phase m ix i jx j with h1 | h1
  · exact Eq.trans h1 h
  · rw [h] at h1
    cases h1

/-- The phase of a thread is changed only by wake-ups. -/
theorem sync_wait {a : Agent} {m s : Mem} (h : Sync kinds env a m s) {jx j : Nat}
    (hw : (s (.of jx (.phase j)) : Run.Phase) = .wait) : (m (.of jx (.phase j)) : Run.Phase) = .wait := by
  have hg : ∀ (m : Mem) pc, goto m pc (.of jx (.phase j)) = m (.of jx (.phase j)) := fun m pc => goto_other m pc rfl (by simp)
  have hgw : ∀ (m : Mem) ix pc, gotoWorker m ix pc (.of jx (.phase j)) = m (.of jx (.phase j)) :=
    fun m ix pc => gotoWorker_other m ix pc rfl (by simp)
  match a with
  | .main 0 =>
    obtain ⟨i, b, hp, rfl⟩ | ⟨i, hp, rfl⟩ | ⟨i, hp, hd, rfl⟩ := sync_master_iff.1 h <;> rw [hg] at hw
    · exact wake_wait hw
    · exact wake_wait hw
    · exact hw
  | .main (k + 1) =>
    obtain ⟨-, hh, ⟨i, hp, rfl⟩ | ⟨i, hp, rfl⟩ | ⟨i, hp, hd, rfl⟩⟩ := (sync_worker_iff (by simp)).1 h <;> rw [hgw] at hw
    · exact wake_wait hw
    · exact wake_wait hw
    · exact hw
  | .thread ix i =>
    obtain ⟨-, rfl⟩ := sync_thread_iff.1 h
    exact wake_wait hw

theorem sync_done {a : Agent} {m s : Mem} (h : Sync kinds env a m s) {jx j : Nat}
    (hw : (m (.of jx (.phase j)) : Run.Phase) = .done) : (s (.of jx (.phase j)) : Run.Phase) = .done := by
  have hg : ∀ (m : Mem) pc, goto m pc (.of jx (.phase j)) = m (.of jx (.phase j)) := fun m pc => goto_other m pc rfl (by simp)
  have hgw : ∀ (m : Mem) ix pc, gotoWorker m ix pc (.of jx (.phase j)) = m (.of jx (.phase j)) :=
    fun m ix pc => gotoWorker_other m ix pc rfl (by simp)
  match a with
  | .main 0 =>
    obtain ⟨i, b, hp, rfl⟩ | ⟨i, hp, rfl⟩ | ⟨i, hp, hd, rfl⟩ := sync_master_iff.1 h <;> rw [hg]
    · exact wake_done hw
    · exact wake_done hw
    · exact hw
  | .main (k + 1) =>
    obtain ⟨-, hh, ⟨i, hp, rfl⟩ | ⟨i, hp, rfl⟩ | ⟨i, hp, hd, rfl⟩⟩ := (sync_worker_iff (by simp)).1 h <;> rw [hgw]
    · exact wake_done hw
    · exact wake_done hw
    · exact hw
  | .thread ix i =>
    obtain ⟨-, rfl⟩ := sync_thread_iff.1 h
    exact wake_done hw

/-- The variables of a main thread are changed only by itself. -/
theorem sync_main {a : Agent} {m s : Mem} (h : Sync kinds env a m s) {k : Nat} (ha : a ≠ .main k) {x : Var}
    (hx : guard x = .inr (.main k)) : s x = m x := by
  have hg : ∀ (m : Mem) pc, k ≠ 0 → goto m pc x = m x := fun m pc h => goto_other m pc hx (by simpa using h)
  have hgw : ∀ (m : Mem) ix pc, k ≠ ix → gotoWorker m ix pc x = m x := fun m ix pc h => gotoWorker_other m ix pc hx (by simpa using h)
  match a with
  | .main 0 =>
    have hk : k ≠ 0 := fun e => ha (by rw [e])
    obtain ⟨i, b, hp, rfl⟩ | ⟨i, hp, rfl⟩ | ⟨i, hp, hd, rfl⟩ := sync_master_iff.1 h <;> rw [hg _ _ hk]
    · exact wakeMem_main m 0 i hx
    · exact wakeMem_main m 0 i hx
  | .main (j + 1) =>
    have hk : k ≠ j + 1 := fun e => ha (by rw [e])
    obtain ⟨-, hh, ⟨i, hp, rfl⟩ | ⟨i, hp, rfl⟩ | ⟨i, hp, hd, rfl⟩⟩ := (sync_worker_iff (by simp)).1 h <;> rw [hgw _ _ _ hk]
    · exact wakeMem_main m _ i hx
    · exact wakeMem_main m _ i hx
  | .thread ix i =>
    obtain ⟨-, rfl⟩ := sync_thread_iff.1 h
    exact wakeMem_main m _ i hx

/-- A main thread that can notify or join can still do so. -/
theorem sync_stays {k : Nat} {m n : Mem} (h : ∃ t, Sync kinds env (.main k) m t)
    (hm : ∀ x, guard x = .inr (.main k) → n x = m x)
    (hd : ∀ i, k < kinds.length ∨ k = 0 → (m (.of k (.phase i)) : Run.Phase) = .done → (n (.of k (.phase i)) : Run.Phase) = .done) :
    ∃ t, Sync kinds env (.main k) n t := by
  obtain ⟨t, ht⟩ := h
  match k with
  | 0 =>
    have e : n .master = m .master := hm .master rfl
    obtain ⟨i, b, hp, -⟩ | ⟨i, hp, -⟩ | ⟨i, hp, h', -⟩ := sync_master_iff.1 ht
    · exact ⟨_, sync_master_iff.2 (Or.inl ⟨i, b, by rw [e]; exact hp, rfl⟩)⟩
    · exact ⟨_, sync_master_iff.2 (Or.inr (Or.inl ⟨i, by rw [e]; exact hp, rfl⟩))⟩
    · exact ⟨_, sync_master_iff.2 (Or.inr (Or.inr ⟨i, by rw [e]; exact hp, hd i (Or.inr rfl) h', rfl⟩))⟩
  | j + 1 =>
    have e : n (.of (j + 1) .worker) = m (.of (j + 1) .worker) := hm _ rfl
    obtain ⟨hk, hh, ⟨i, hp, -⟩ | ⟨i, hp, -⟩ | ⟨i, hp, h', -⟩⟩ := (sync_worker_iff (by simp)).1 ht
    · exact ⟨_, (sync_worker_iff (by simp)).2 ⟨hk, by rw [e]; exact hh, Or.inl ⟨i, by rw [e]; exact hp, rfl⟩⟩⟩
    · exact ⟨_, (sync_worker_iff (by simp)).2 ⟨hk, by rw [e]; exact hh, Or.inr (Or.inl ⟨i, by rw [e]; exact hp, rfl⟩)⟩⟩
    · exact ⟨_, (sync_worker_iff (by simp)).2 ⟨hk, by rw [e]; exact hh,
        Or.inr (Or.inr ⟨i, by rw [e]; exact hp, hd i (Or.inl hk) h', rfl⟩)⟩⟩

theorem eager (kinds : List (List Bool)) (env : Env) : Eager (system kinds env) sleeper (Urgent kinds) where
  dep a m n h hu := by
    cases a with
    | main ix => exact hu
    | thread ix i => exact ⟨hu.1, by rw [← same_thread h]; exact hu.2⟩
  rest a m hu := by
    cases a with
    | main ix => exact hu.elim
    | thread ix i =>
      rintro (h | h | h)
      · exact h hu.1
      · rw [hu.2] at h; cases h
      · rw [hu.2] at h; cases h
  act a ch m s hu h := by
    cases a with
    | main ix => exact hu.elim
    | thread ix i =>
      refine ⟨fun hs => ?_, rfl⟩
      have h : (step env (toState kinds m) (.thread ix i)).bind (fun o => .ok (o.map ofState)) = .ok (some s) := h
      rw [step_thread m hu.1.1 hu.1.2] at h
      have hp : ((procsOf kinds m ix).thr i).phase = .wait := hu.2
      simp only [Mpi.Proc.threadStep, hp] at h
      cases h
      have := hs.2
      rw [put_same] at this
      simp [ofProc, Mpi.Proc.setThread] at this
  sync a b m s h hu := by
    cases b with
    | main ix => exact hu
    | thread ix i => exact ⟨hu.1, sync_wait h hu.2⟩
  stays_act a b m n hb ha h hr hn := by
    cases a with
    | thread ix i => exact absurd trivial ha
    | main k =>
      refine sync_stays h (fun x hx => hn x _ hx (Ne.symm hb)) fun i hk hd => ?_
      by_cases e : b = .thread k i
      · subst e
        exact absurd (Or.inr (Or.inr hd)) hr
      · exact (hn (.of k (.phase i)) _ rfl (Ne.symm e)).trans hd
  stays_sync a b m n hb ha h hs := by
    cases a with
    | thread ix i => exact absurd trivial ha
    | main k => exact sync_stays h (fun x hx => sync_main hs hb hx) fun i _ hd => sync_done hs hd

/-- Threads that do not exist do not wait; the master leaves only for the reasons given. -/
def Stays (kinds : List (List Bool)) (cs : List ConfigNode) : Agent → Mem → Prop
  | .main k, m => k = 0 → Mpi.Leaving cs (toState kinds m).base
  | .thread ix i, m => ¬ (ix < kinds.length ∧ i < size kinds ix) → (m (.of ix (.phase i)) : Run.Phase) ≠ .wait

/-- The choices with which directories can be created. -/
def Creates (ch : Run.Choice) : Prop := ch.create = true

theorem leaving_congr {cs : List ConfigNode} {b b' : Mpi.State} (h : Mpi.Leaving cs b) (h1 : b'.pc.leaving = true → b.pc.leaving = true)
    (h2 : b'.todo = b.todo) : Mpi.Leaving cs b' :=
  ⟨fun h3 => (by rw [h2]; exact h.todo (h1 h3)), by rw [h2]; exact h.accept⟩

theorem stays {cs : List ConfigNode} {c : Config Agent Lock Var Val} {c₀ : Config Agent Lock Var Val}
    (hi : Locks.Inv (system kinds env) c₀) (h : Locks.Reachable ((system kinds env).only Creates) c₀ c)
    (h0 : ∀ a, Stays kinds cs a c₀.mem) : ∀ a, Stays kinds cs a c.mem := by
  refine h.private ((laws kinds env).only (awake_create kinds env)) hi.only ?_ ?_ ?_ h0
  · intro a m n hs hm
    cases a with
    | main k =>
      rintro rfl
      have e : m .master = n .master := same_master (kinds := kinds) (env := env) hs
      exact leaving_congr (hm rfl) (fun h => by
        show (m .master : MasterData).pc.leaving = true
        rw [e]; exact h) (by
        show (n .master : MasterData).todo = (m .master : MasterData).todo
        rw [e])
    | thread ix i =>
      intro hx
      rw [← same_thread (kinds := kinds) (env := env) hs]
      exact hm hx
  · intro a ch m s hr ha hm
    obtain ⟨hc, ha⟩ := Locks.only_some ha
    cases a with
    | main k =>
      rintro rfl
      obtain ⟨o, h1, h2⟩ := Res.bind_eq_ok.1 ha
      cases o with
      | none => cases h2
      | some st =>
        cases h2
        have h1 : (if Waits (toState kinds m).base then Res.ok (some (toState kinds m)) else
          (Mpi.masterStep (toState kinds m).base ch).bind fun o => .ok (o.map fun b => { toState kinds m with base := b })) =
            .ok (some st) := h1
        split at h1
        · cases h1
          exact hm rfl
        · obtain ⟨o, h3, h4⟩ := Res.bind_eq_ok.1 h1
          cases o with
          | none => cases h4
          | some b =>
            cases h4
            have := (hm rfl).step (env := env) (l := .master ch) (fun ch' e => (by cases e; exact hc)) h3
            exact leaving_congr this (fun h => h) rfl
    | thread ix i => exact fun hx => absurd (Or.inl hx) hr
  · intro a b m s hs hm
    cases b with
    | thread ix i => exact fun hx hw => hm hx (sync_wait hs hw)
    | main k =>
      rintro rfl
      by_cases e : a = .main 0
      · subst e
        have hg : ∀ (m' : Mem) pc, m' .master = m .master → (pc.leaving = true → (m .master : MasterData).pc.leaving = true) →
            Mpi.Leaving cs (toState kinds (goto m' pc)).base := by
          intro m' pc he hpc
          refine leaving_congr (hm rfl) (fun h => hpc ?_) ?_
          · have h : (goto m' pc .master : MasterData).pc.leaving = true := h
            rwa [goto_master] at h
          · show (goto m' pc .master : MasterData).todo = (m .master : MasterData).todo
            rw [goto_master, he]
        obtain ⟨i, b, hp, rfl⟩ | ⟨i, hp, rfl⟩ | ⟨i, hp, -, rfl⟩ := sync_master_iff.1 hs
        · exact hg _ _ (wakeMem_master m 0 i) fun h => by cases h
        · exact hg _ _ (wakeMem_master m 0 i) fun h => by rw [hp]; rfl
        · exact hg _ _ rfl fun h => by rw [hp]; rfl
      · have e : s .master = m .master := sync_main hs e rfl
        exact leaving_congr (hm rfl) (fun h => by
          show (m .master : MasterData).pc.leaving = true
          rw [← e]; exact h) (by
          show (s .master : MasterData).todo = (m .master : MasterData).todo
          rw [e])

theorem Calm.alert {cs : List ConfigNode} {c : Config Agent Lock Var Val} (h : ∀ a, Stays kinds cs a c.mem) {a : Agent}
    (hc : Calm (system kinds env) (Urgent kinds) c a) : Alert c a := by
  cases a with
  | thread ix i => trivial
  | main ix =>
    intro ho i hn hw
    have hr : (system kinds env).rest (.main ix) c.mem := by
      match ix, hn with
      | 0, .inl ⟨_, hn⟩ =>
        show masterRests (c.mem .master)
        unfold masterRests
        rcases hn with ⟨b, hn⟩ | hn <;> rw [hn] <;> trivial
      | k + 1, .inr ⟨_, hh, hn⟩ =>
        refine Or.inr ?_
        unfold workerRests
        rcases hn with hn | hn <;> rw [hn, hh] <;> trivial
    by_cases hx : ix < kinds.length ∧ i < size kinds ix
    · exact hc ho hr (.thread ix i) ⟨hx, hw⟩
    · exact h (.thread ix i) hx hw

end MpiLocks
end Hycu
