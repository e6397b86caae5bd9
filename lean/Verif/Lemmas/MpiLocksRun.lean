import Verif.Lemmas.MpiHand
import Verif.Lemmas.MpiLive
import Verif.Lemmas.LocksDrain

/-!
Runs of `hycu-mpi` in small steps are runs of the machine in `Verif.Model.Mpi`.
-/

namespace Hycu
namespace MpiLocks

open Mpi (Proc Msg)
open Run (Env Choice)
open Locks (Config Inv Big Laws Short abs reads locks)

variable {env : Env} {kinds : List (List Bool)} {fs : FileSystem} {todo : List Run.Cmd}

/-- The constants of a state. -/
def Fixed (kinds : List (List Bool)) (b : Mpi.State) : Prop :=
  b.nprocs = kinds.length ∧ ∀ q, (b.procs q).size = size kinds q ∧
    ∀ i, ((b.procs q).thr i).opencl = (kinds[q]?.getD [])[i]?.getD false

theorem Fixed.proc {b : Mpi.State} (h : Fixed kinds b) {ix : Nat} {p : Proc} (hp : (b.procs ix).Kin p) :
    Fixed kinds (b.setProc ix p) := by
  refine ⟨h.1, fun q => ?_⟩
  simp only [Mpi.State.setProc]
  by_cases hx : q = ix
  · subst hx
    rw [Function.update_self, hp.size]
    exact ⟨(h.2 q).1, fun i => by rw [hp.opencl, (h.2 q).2]⟩
  · rw [Function.update_of_ne hx]
    exact h.2 q

theorem fixed_reachable {b : Mpi.State} (h : Mpi.Reachable env (Mpi.initial kinds fs todo) b) : Fixed kinds b := by
  induction h with
  | refl => exact ⟨rfl, fun q => ⟨rfl, fun _ => rfl⟩⟩
  | step l hr hs ih =>
    cases Mpi.step_trans hs with
    | thread ix hx i hlt p ht => exact ih.proc ht.kin
    | worker ix h0 hx p hw => exact ih.proc hw.kin
    | master st' hm =>
      refine ⟨hm.nprocs.trans ih.1, fun q => ?_⟩
      have hk := (hm.touch q).kin
      exact ⟨hk.size.trans (ih.2 q).1, fun i => by rw [hk.opencl, (ih.2 q).2]⟩

theorem fixed_reach {st : State} (h : Reach env (start kinds fs todo) st) : Fixed kinds st.base := by
  have h1 := fixed_reachable (flat_reach h).2
  exact ⟨h1.1, fun q => ⟨(h1.2 q).1, (h1.2 q).2⟩⟩

theorem toState_ofState {st : State} (h : Fixed kinds st.base) : toState kinds (ofState st) = st := by
  have h1 : ∀ ix, toProc (kinds[ix]?.getD []).length (fun i => (kinds[ix]?.getD [])[i]?.getD false)
      (fun x => ofState st (.of ix x)) = st.base.procs ix := by
    intro ix
    have h2 := h.2 ix
    unfold size at h2
    rw [← h2.1]
    have h3 : (fun i => (kinds[ix]?.getD [])[i]?.getD false) = fun i => ((st.base.procs ix).thr i).opencl := by
      funext i
      exact (h2.2 i).symm
    rw [h3]
    rfl
  unfold toState
  simp only [h1]
  rw [← h.1]
  rfl

/-- A state of the machine with large steps that has the same variables. -/
def Matches (env : Env) (kinds : List (List Bool)) (fs : FileSystem) (todo : List Run.Cmd) (m : Mem) (st : State) : Prop :=
  Reach env (start kinds fs todo) st ∧ ofState st = m

theorem Matches.toState {m : Mem} {st : State} (h : Matches env kinds fs todo m st) : toState kinds m = st := by
  rw [← h.2]
  exact toState_ofState (fixed_reach h.1)

theorem Matches.big {m n : Mem} {st : State} (h : Matches env kinds fs todo m st) (hb : Big (system kinds env) m n) :
    ∃ l st', Matches env kinds fs todo n st' ∧ step env st l = .ok (some st') := by
  cases hb with
  | act a ch _ hb =>
    obtain ⟨o, h1, h2⟩ := Res.bind_eq_ok.1 hb
    cases o with
    | none => cases h2
    | some u =>
      cases h2
      rw [h.toState] at h1
      exact ⟨_, u, ⟨.step _ h.1 h1, rfl⟩, h1⟩
  | sync a hb =>
    cases hb with
    | master _ ch u _ h1 =>
      rw [h.toState] at h1
      exact ⟨_, u, ⟨.step _ h.1 h1, rfl⟩, h1⟩
    | worker ix _ u _ _ h1 =>
      rw [h.toState] at h1
      exact ⟨_, u, ⟨.step _ h.1 h1, rfl⟩, h1⟩
    | spurious _ ix i u h1 =>
      rw [h.toState] at h1
      exact ⟨_, u, ⟨.step _ h.1 h1, rfl⟩, h1⟩

theorem start_inv (env : Env) (kinds : List (List Bool)) (fs : FileSystem) (todo : List Run.Cmd) :
    Inv (system kinds env) (initial kinds fs todo) ∧
      Matches env kinds fs todo (abs (system kinds env) (initial kinds fs todo)) (start kinds fs todo) := by
  obtain ⟨h1, h2⟩ := Inv.initial (system kinds env) (initial kinds fs todo) (fun _ => rfl) (fun _ => rfl) (fun a => by
    cases a with
    | main ix =>
      cases ix with
      | zero => rfl
      | succ k =>
        show (if k + 1 < kinds.length then _ else _) = _
        split <;> rfl
    | thread ix i => rfl)
  exact ⟨h1, .refl, h2.symm⟩

/-- In every state that can be reached, the variables (with the values from the last section that took effect) are those
of a state of the machine with large steps. -/
theorem refines {c : Config Agent Lock Var Val} (h : Locks.Reachable (system kinds env) (initial kinds fs todo) c) :
    Inv (system kinds env) c ∧ ∃ st, Matches env kinds fs todo (abs (system kinds env) c) st := by
  have hl := laws kinds env
  induction h with
  | refl => exact ⟨(start_inv env kinds fs todo).1, _, (start_inv env kinds fs todo).2⟩
  | step a _ hs ih =>
    obtain ⟨hi, st, hm⟩ := ih
    obtain ⟨h1, h2⟩ := hi.step hl hs
    refine ⟨h1, ?_⟩
    rcases h2 with h2 | h2
    · rw [h2]
      exact ⟨st, hm⟩
    · obtain ⟨_, st', h3, _⟩ := hm.big h2
      exact ⟨st', h3⟩
  | scribble _ hs ih =>
    obtain ⟨hi, st, hm⟩ := ih
    obtain ⟨h1, h2⟩ := hi.scribble hl hs
    rw [← h2] at hm
    exact ⟨h1, st, hm⟩

/-! ### Sections are short -/

/-- The threads. -/
def agents (kinds : List (List Bool)) : List Agent :=
  .main 0 :: ((List.range kinds.length).filter fun ix => 0 < ix).map .main ++
    (List.range kinds.length).flatMap fun ix => (List.range (size kinds ix)).map (.thread ix)

theorem assign_length (ix : Nat) (o : Bool) (idle : List Nat) : (assignPlan ix o idle).length ≤ 5 := by
  unfold assignPlan
  cases (if o then idle.head? else idle.getLast?) <;> simp

theorem short (kinds : List (List Bool)) (env : Env) : Short (system kinds env) (agents kinds) where
  nodup := by
    unfold agents
    rw [List.cons_append, List.nodup_cons, List.nodup_append]
    refine ⟨?_, ?_, ?_, ?_⟩
    · simp
    · exact (List.nodup_range.filter _).map fun a b h => by cases h; rfl
    · rw [List.nodup_flatMap]
      refine ⟨fun ix _ => List.nodup_range.map fun a b h => by cases h; rfl, ?_⟩
      refine List.nodup_range.imp fun {a b} hab => ?_
      intro x hx hy
      obtain ⟨i, _, rfl⟩ := List.mem_map.1 hx
      obtain ⟨j, _, h⟩ := List.mem_map.1 hy
      cases h
      exact hab rfl
    · intro x hx y hy
      obtain ⟨i, _, rfl⟩ := List.mem_map.1 hx
      obtain ⟨k, _, hy⟩ := List.mem_flatMap.1 hy
      obtain ⟨j, _, rfl⟩ := List.mem_map.1 hy
      simp
  absent := by
    intro a ha m
    unfold agents at ha
    rw [List.cons_append, List.mem_cons, List.mem_append, not_or, not_or] at ha
    cases a with
    | main ix =>
      cases ix with
      | zero => exact absurd rfl ha.1
      | succ k =>
        have hk : ¬ k + 1 < kinds.length := fun hk => ha.2.1 (List.mem_map.2 ⟨k + 1, List.mem_filter.2
          ⟨List.mem_range.2 hk, by simp⟩, rfl⟩)
        refine ⟨Or.inl hk, ?_⟩
        rintro ⟨s, hs⟩
        exact hk ((sync_worker_iff (Nat.succ_pos k)).1 hs).1
    | thread ix i =>
      have hk : ¬ (ix < kinds.length ∧ i < size kinds ix) := fun hk => ha.2.2 (List.mem_flatMap.2
        ⟨ix, List.mem_range.2 hk.1, List.mem_map.2 ⟨i, List.mem_range.2 hk.2, rfl⟩⟩)
      refine ⟨Or.inl hk, ?_⟩
      rintro ⟨s, hs⟩
      have := (sync_thread_iff.1 hs).1
      exact hk ⟨this.1, this.2.1⟩
  plan := by
    have hs : ∀ ix, (sendPlan ix).length ≤ 5 := fun ix => by simp [sendPlan]
    intro a m
    cases a with
    | main ix =>
      cases ix with
      | zero =>
        show (masterPlan kinds.length (size kinds 0) (m .master) (m (.of 0 .idle))).length ≤ 5
        unfold masterPlan
        split <;> try simp
        · split
          · exact hs _
          · simp
        · split
          · exact hs _
          · simp
        · split <;> simp
        · split
          · exact hs _
          · simp
        · split
          · exact hs _
          · simp
        · split
          · split
            · exact assign_length ..
            · exact hs _
          · split
            · exact assign_length ..
            · exact hs _
          · simp
        · split
          · exact hs _
          · simp
        · split <;> simp
      | succ k =>
        show (workerPlan (k + 1) (size kinds (k + 1)) (m (.of (k + 1) .worker)) (m (.of (k + 1) .idle))).length ≤ 5
        unfold workerPlan
        split <;> try simp
        · split <;> try simp
          split <;> simp
        · exact assign_length ..
    | thread ix i =>
      show (threadPlan ix i (m (.of ix (.phase i)))).length ≤ 5
      cases m (.of ix (.phase i)) <;> simp [threadPlan]
  held := by
    intro a m
    cases a with
    | main ix =>
      cases ix with
      | zero =>
        show (masterHeld (m .master)).length ≤ 1
        unfold masterHeld
        split <;> simp
      | succ k =>
        show (if k + 1 < kinds.length then workerHeld (k + 1) (m (.of (k + 1) .worker)) else []).length ≤ 1
        unfold workerHeld
        split
        · split <;> simp
        · simp
    | thread ix i => exact Nat.zero_le _
  extra := by
    intro a m
    cases a with
    | main ix =>
      cases ix with
      | zero =>
        show (masterExtra (size kinds 0) (m .master)).length ≤ 1
        unfold masterExtra
        split
        · split <;> simp
        · simp
      | succ k =>
        show (workerExtra (k + 1) (size kinds (k + 1)) (m (.of (k + 1) .worker))).length ≤ 1
        unfold workerExtra
        split
        · split <;> simp
        · simp
    | thread ix i => exact Nat.zero_le _
  rests := by
    intro a m h
    cases a with
    | main ix =>
      cases ix with
      | zero =>
        change masterHeld (m .master) ≠ [] at h
        show masterRests (m .master)
        unfold masterHeld at h
        unfold masterRests
        split at h
        · next hp => rw [hp]; trivial
        · exact absurd rfl h
      | succ k =>
        change (if k + 1 < kinds.length then workerHeld (k + 1) (m (.of (k + 1) .worker)) else []) ≠ [] at h
        show ¬ k + 1 < kinds.length ∨ workerRests (m (.of (k + 1) .worker))
        split at h
        · right
          unfold workerHeld at h
          unfold workerRests
          split at h
          · next h1 h2 => rw [h1, h2]; trivial
          · exact absurd rfl h
        · exact absurd rfl h
    | thread ix i => exact absurd rfl h
  frees := by
    intro a m s h
    cases a with
    | main ix =>
      cases ix with
      | zero =>
        show masterHeld (s .master) = []
        rcases sync_master_iff.1 h with ⟨i, b, _, rfl⟩ | ⟨i, _, rfl⟩ | ⟨i, _, _, rfl⟩ <;> rw [goto_master] <;> rfl
      | succ k =>
        show (if k + 1 < kinds.length then workerHeld (k + 1) (s (.of (k + 1) .worker)) else []) = []
        split
        · obtain ⟨_, _, ⟨i, _, rfl⟩ | ⟨i, _, rfl⟩ | ⟨i, _, _, rfl⟩⟩ := (sync_worker_iff (Nat.succ_pos k)).1 h <;>
            rw [gotoWorker_worker] <;> unfold workerHeld <;> split <;> simp_all
        · rfl
    | thread ix i => rfl

/-! ### Processes are separate -/

/-- A thread may access a variable: it belongs to its process, or it is a queue of messages and the thread is the
master. -/
def Allowed (a : Agent) : Var → Prop
  | .of ix y => a = .main ix ∨ (∃ i, a = .thread ix i) ∨
      (a = .main 0 ∧ (y = .inbox ∨ y = .finishedOut ∨ y = .readyOut ∨ y = .saveOut))
  | .master => True

theorem plan_allowed (kinds : List (List Bool)) (env : Env) (a : Agent) (m : Mem) :
    ∀ x ∈ reads ((system kinds env).plan a m), Allowed a x := by
  have hs : ∀ ix, ∀ x ∈ reads (sendPlan ix), Allowed (.main 0) x := by
    intro ix x hx
    simp only [sendPlan, reads, List.filterMap_cons, List.filterMap_nil, List.mem_singleton] at hx
    subst hx
    exact Or.inr (Or.inr ⟨rfl, Or.inl rfl⟩)
  have has : ∀ ix o idle, ∀ x ∈ reads (assignPlan ix o idle), Allowed (.main ix) x := by
    intro ix o idle x hx
    unfold assignPlan at hx
    split at hx <;> simp [reads] at hx <;> rcases hx with rfl | rfl | rfl <;> exact Or.inl rfl
  cases a with
  | main ix =>
    cases ix with
    | zero =>
      show ∀ x ∈ reads (masterPlan kinds.length (size kinds 0) (m .master) (m (.of 0 .idle))), _
      unfold masterPlan
      intro x hx
      split at hx
      · simp [reads] at hx; subst hx; exact Or.inl rfl
      · split at hx
        · exact hs _ _ hx
        · cases hx
      · simp [reads] at hx; subst hx; exact Or.inr (Or.inr ⟨rfl, by simp⟩)
      · simp [reads] at hx; rcases hx with rfl | rfl <;> exact Or.inl rfl
      · split at hx
        · exact hs _ _ hx
        · cases hx
      · simp [reads] at hx; subst hx; exact Or.inr (Or.inr ⟨rfl, by simp⟩)
      · split at hx
        · simp [reads] at hx; rcases hx with rfl | rfl <;> exact Or.inl rfl
        · cases hx
      · split at hx
        · exact hs _ _ hx
        · cases hx
      · simp [reads] at hx; subst hx; exact Or.inr (Or.inr ⟨rfl, by simp⟩)
      · split at hx
        · exact hs _ _ hx
        · cases hx
      · split at hx
        · split at hx
          · exact has _ _ _ _ hx
          · exact hs _ _ hx
        · split at hx
          · exact has _ _ _ _ hx
          · exact hs _ _ hx
        · cases hx
      · split at hx
        · exact hs _ _ hx
        · cases hx
      · split at hx
        · simp [reads] at hx
        · cases hx
      · cases hx
    | succ k =>
      show ∀ x ∈ reads (workerPlan (k + 1) (size kinds (k + 1)) (m (.of (k + 1) .worker)) (m (.of (k + 1) .idle))), _
      intro x hx
      rw [reads_worker] at hx
      obtain ⟨y, _, rfl⟩ := List.mem_map.1 hx
      exact Or.inl rfl
  | thread ix i =>
    show ∀ x ∈ reads (threadPlan ix i (m (.of ix (.phase i)))), _
    intro x hx
    rw [reads_thread] at hx
    obtain ⟨y, _, rfl⟩ := List.mem_map.1 hx
    exact Or.inr (Or.inl ⟨i, rfl⟩)

theorem extra_allowed (kinds : List (List Bool)) (env : Env) (a : Agent) (m : Mem) :
    ∀ x ∈ (system kinds env).extra a m, Allowed a x := by
  cases a with
  | main ix =>
    cases ix with
    | zero =>
      show ∀ x ∈ masterExtra (size kinds 0) (m .master), _
      intro x hx
      unfold masterExtra at hx
      split at hx
      · split at hx
        · rw [List.mem_singleton.1 hx]
          exact Or.inl rfl
        · cases hx
      · cases hx
    | succ k =>
      show ∀ x ∈ workerExtra (k + 1) (size kinds (k + 1)) (m (.of (k + 1) .worker)), _
      intro x hx
      rw [extra_worker] at hx
      obtain ⟨y, _, rfl⟩ := List.mem_map.1 hx
      exact Or.inl rfl
  | thread ix i => exact fun x hx => by cases hx

/-- What remains to be written in a section belongs to the process, or is a message. -/
theorem separate {c : Config Agent Lock Var Val} (h : Locks.Reachable (system kinds env) (initial kinds fs todo) c) (a : Agent) :
    match c.prog a with
    | .leaving ws _ _ => ∀ x ∈ ws, Allowed a x
    | _ => True := by
  induction h with
  | refl => trivial
  | scribble _ hs ih => cases hs <;> exact ih
  | @step c c' b _ hs ih =>
    by_cases hb : a = b
    · subst hb
      cases hs with
      | compute k reg s ch h hk hs =>
        rw [Locks.go_prog]
        intro x hx
        rcases List.mem_append.1 hx with hx | hx
        · exact plan_allowed kinds env a reg x hx
        · exact extra_allowed kinds env a reg x hx
      | write ws reg ls y h hy =>
        rw [h] at ih
        rw [Locks.go_prog]
        exact fun x hx => ih x (List.mem_filter.1 hx).1
      | enter reg h hr hp => rw [Locks.go_prog]; trivial
      | acquire k reg l h hi hf =>
        show (match (c.go a (.entering (k + 1) reg)).prog a with | .leaving ws _ _ => _ | _ => _)
        rw [Locks.go_prog]
        trivial
      | read k reg y h hi => rw [Locks.go_prog]; trivial
      | release reg l ls h =>
        show (match (c.go a (.leaving [] reg ls)).prog a with | .leaving ws _ _ => _ | _ => _)
        rw [Locks.go_prog]
        exact fun x hx => by cases hx
      | exit reg h => rw [Locks.go_prog]; trivial
      | sync m reg h hs =>
        rw [Locks.go_prog]
        exact fun x hx => by cases hx
    · have e : c'.prog a = c.prog a := by
        cases hs <;> exact Function.update_of_ne hb _ _
      rw [e]
      exact ih

end MpiLocks
end Hycu
