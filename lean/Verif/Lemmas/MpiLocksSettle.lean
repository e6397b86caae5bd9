import Verif.Lemmas.MpiLocksRun
import Verif.Lemmas.LocksSettle

/-!
Every state of the machine with large steps can be reached in small steps.
-/

namespace Hycu
namespace MpiLocks

open Mpi (Proc Msg)
open Run (Env Choice)
open Locks (Config Inv Big Bigs Laws Syncs Settles abs)

variable {env : Env} {kinds : List (List Bool)} {fs : FileSystem} {todo : List Run.Cmd}

/-- The thread that will be notified by the main thread of a process, which holds the mutex of the pool. -/
def pending (kinds : List (List Bool)) (m : Mem) : Nat → Option Nat
  | 0 =>
    match (m .master : MasterData).pc with
    | .notify i _ => some i
    | _ => none
  | ix + 1 =>
    if ix + 1 < kinds.length then
      match (m (.of (ix + 1) .worker) : WorkerData).hand, (m (.of (ix + 1) .worker) : WorkerData).pc with
      | .none, .notify i => some i
      | _, _ => none
    else none

/-- After the notification. -/
def settleMaster (d : MasterData) : MasterData :=
  match d.pc with
  | .notify _ b => { d with pc := .insert 0 b }
  | _ => d

@[inherit_doc settleMaster]
def settleWorker (kinds : List (List Bool)) (ix : Nat) (d : WorkerData) : WorkerData :=
  if 0 < ix ∧ ix < kinds.length then
    match d.hand, d.pc with
    | .none, .notify _ => { d with pc := .probe }
    | _, _ => d
  else d

@[inherit_doc settleMaster]
def settlePhase (o : Option Nat) (i : Nat) (f : Run.Phase) : Run.Phase := if o = some i ∧ f = .sleep then .check else f

/-- All pending notifications are made. -/
def settle (kinds : List (List Bool)) (m : Mem) : Mem
  | .master => settleMaster (m .master)
  | .of ix .worker => settleWorker kinds ix (m (.of ix .worker))
  | .of ix (.phase i) => settlePhase (pending kinds m ix) i (m (.of ix (.phase i)))
  | .of ix .idle => m (.of ix .idle)
  | .of ix .ready => m (.of ix .ready)
  | .of ix .busy => m (.of ix .busy)
  | .of ix .finished => m (.of ix .finished)
  | .of ix (.queue i) => m (.of ix (.queue i))
  | .of ix (.stop i) => m (.of ix (.stop i))
  | .of ix .record => m (.of ix .record)
  | .of ix .store => m (.of ix .store)
  | .of ix .inbox => m (.of ix .inbox)
  | .of ix .finishedOut => m (.of ix .finishedOut)
  | .of ix .readyOut => m (.of ix .readyOut)
  | .of ix .saveOut => m (.of ix .saveOut)

theorem settle_shared (m : Mem) {x : Var} {l : Lock} (h : guard x = .inl l) : settle kinds m x = m x := by
  cases x with
  | master => cases h
  | of ix x => cases x <;> first | rfl | cases h

theorem settle_master (m : Mem) : settle kinds m .master = settleMaster (m .master) := rfl

theorem settle_worker (m : Mem) (ix : Nat) : settle kinds m (.of ix .worker) = settleWorker kinds ix (m (.of ix .worker)) := rfl

theorem settle_phase (m : Mem) (ix i : Nat) :
    settle kinds m (.of ix (.phase i)) = settlePhase (pending kinds m ix) i (m (.of ix (.phase i))) := rfl

/-- Memories are equal if shared and private variables are. -/
theorem mem_ext {m n : Mem} (hs : ∀ x l, guard x = .inl l → m x = n x) (hm : m .master = n .master)
    (hw : ∀ ix, m (.of ix .worker) = n (.of ix .worker)) (hp : ∀ ix i, m (.of ix (.phase i)) = n (.of ix (.phase i))) :
    m = n := by
  funext x
  cases hx : guard x with
  | inl l => exact hs x l hx
  | inr a =>
    cases x with
    | master => exact hm
    | of ix x => cases x <;> first | exact hw _ | exact hp _ _ | cases hx

theorem settlePhase_none (i : Nat) (f : Run.Phase) : settlePhase none i f = f := if_neg (by simp)

theorem settlePhase_ne {o : Option Nat} {i : Nat} {f : Run.Phase} (h : f ≠ .sleep) : settlePhase o i f = f :=
  if_neg fun h' => h h'.2

theorem pending_zero {m : Mem} (h : ∀ i b, (m .master : MasterData).pc ≠ .notify i b) : pending kinds m 0 = none := by
  show (match (m .master : MasterData).pc with | .notify i _ => some i | _ => none) = none
  split
  · next i b hp => exact absurd hp (h i b)
  · rfl

theorem settleMaster_eq {d : MasterData} (h : ∀ i b, d.pc ≠ .notify i b) : settleMaster d = d := by
  unfold settleMaster
  split
  · next i b hp => exact absurd hp (h i b)
  · rfl

theorem settleMaster_notify {d : MasterData} {i : Nat} {b : Block} (h : d.pc = .notify i b) :
    settleMaster d = { d with pc := .insert 0 b } := by
  unfold settleMaster
  rw [h]

/-- The main thread of a worker is not in front of a notification. -/
def Free (kinds : List (List Bool)) (ix : Nat) (d : WorkerData) : Prop :=
  ¬ (0 < ix ∧ ix < kinds.length ∧ d.hand = .none ∧ ∃ i, d.pc = .notify i)

theorem settleWorker_eq {ix : Nat} {d : WorkerData} (h : Free kinds ix d) : settleWorker kinds ix d = d := by
  unfold settleWorker
  split
  · next hx =>
    split
    · next h1 h2 => exact absurd ⟨hx.1, hx.2, h1, _, h2⟩ h
    · rfl
  · rfl

theorem settleWorker_notify {ix i : Nat} {d : WorkerData} (h0 : 0 < ix) (hx : ix < kinds.length) (hh : d.hand = .none)
    (hp : d.pc = .notify i) : settleWorker kinds ix d = { d with pc := .probe } := by
  unfold settleWorker
  rw [if_pos ⟨h0, hx⟩]
  simp only [hh, hp]

theorem pending_none {m : Mem} {ix : Nat} (h0 : 0 < ix) (h : Free kinds ix (m (.of ix .worker))) : pending kinds m ix = none := by
  obtain ⟨k, rfl⟩ := Nat.exists_eq_succ_of_ne_zero (Nat.ne_of_gt h0)
  show (if k + 1 < kinds.length then _ else _) = _
  split
  · next hx =>
    split
    · next h1 h2 => exact absurd ⟨h0, hx, h1, _, h2⟩ h
    · rfl
  · rfl

theorem pending_notify {m : Mem} {ix i : Nat} (h0 : 0 < ix) (hx : ix < kinds.length)
    (hh : (m (.of ix .worker) : WorkerData).hand = .none) (hp : (m (.of ix .worker) : WorkerData).pc = .notify i) :
    pending kinds m ix = some i := by
  obtain ⟨k, rfl⟩ := Nat.exists_eq_succ_of_ne_zero (Nat.ne_of_gt h0)
  show (if k + 1 < kinds.length then _ else _) = _
  rw [if_pos hx]
  simp only [hh, hp]

theorem pending_congr {m n : Mem} {ix : Nat} (h : ix = 0 → m .master = n .master)
    (hw : 0 < ix → m (.of ix .worker) = n (.of ix .worker)) : pending kinds m ix = pending kinds n ix := by
  cases ix with
  | zero => simp only [pending, h rfl]
  | succ k => simp only [pending, hw (Nat.succ_pos k)]

theorem wakeMem_at (m : Mem) (ix i : Nat) : wakeMem m ix i (.of ix (.phase i)) =
    if (m (.of ix (.phase i)) : Run.Phase) = .sleep then Run.Phase.check else m (.of ix (.phase i)) := by
  unfold wakeMem
  split
  · exact Function.update_self ..
  · rfl

theorem wakeMem_ne (m : Mem) {ix i jx j : Nat} (h : ¬ (jx = ix ∧ j = i)) :
    wakeMem m ix i (.of jx (.phase j)) = m (.of jx (.phase j)) := by
  unfold wakeMem
  split
  · exact Function.update_of_ne (by simpa using h) _ _
  · rfl

theorem goto_worker (m : Mem) (pc : Mpi.Pc) (ix : Nat) : goto m pc (.of ix .worker) = m (.of ix .worker) :=
  Function.update_of_ne (by simp) _ _

theorem goto_phase (m : Mem) (pc : Mpi.Pc) (ix i : Nat) : goto m pc (.of ix (.phase i)) = m (.of ix (.phase i)) :=
  Function.update_of_ne (by simp) _ _

theorem gotoWorker_master (m : Mem) (k : Nat) (pc : Mpi.WorkerPc) : gotoWorker m k pc .master = m .master :=
  Function.update_of_ne (by simp) _ _

theorem gotoWorker_ne (m : Mem) {k ix : Nat} (h : ix ≠ k) (pc : Mpi.WorkerPc) :
    gotoWorker m k pc (.of ix .worker) = m (.of ix .worker) :=
  Function.update_of_ne (by simpa using h) _ _

theorem gotoWorker_phase (m : Mem) (k : Nat) (pc : Mpi.WorkerPc) (ix i : Nat) :
    gotoWorker m k pc (.of ix (.phase i)) = m (.of ix (.phase i)) :=
  Function.update_of_ne (by simp) _ _

theorem wakeMem_worker (m : Mem) (ix i k : Nat) : wakeMem m ix i (.of k .worker) = m (.of k .worker) :=
  wakeMem_main m ix i (k := k) rfl

/-- The master has notified. -/
theorem settle_notify {m : Mem} {i : Nat} {b : Block} (hp : (m .master : MasterData).pc = .notify i b) :
    settle kinds (goto (wakeMem m 0 i) (.insert 0 b)) = settle kinds m := by
  have hd : goto (wakeMem m 0 i) (.insert 0 b) .master = { (m .master : MasterData) with pc := .insert 0 b } := by
    rw [goto_master, wakeMem_master]
  refine mem_ext (fun x l hx => ?_) ?_ (fun ix => ?_) fun ix j => ?_
  · rw [settle_shared _ hx, settle_shared _ hx, goto_shared _ _ hx, wakeMem_shared _ _ _ hx]
  · rw [settle_master, settle_master, hd, settleMaster_eq (by simp)]
    unfold settleMaster
    rw [hp]
  · rw [settle_worker, settle_worker, goto_worker, wakeMem_worker]
  · rw [settle_phase, settle_phase, goto_phase]
    by_cases h0 : ix = 0
    · subst h0
      rw [pending_zero (by rw [hd]; simp), settlePhase_none]
      have : pending kinds m 0 = some i := by
        unfold pending
        rw [hp]
      rw [this]
      by_cases hj : j = i
      · subst hj
        rw [wakeMem_at]
        unfold settlePhase
        simp
      · rw [wakeMem_ne _ (by simp [hj])]
        unfold settlePhase
        rw [if_neg (by simp [Ne.symm hj])]
    · rw [wakeMem_ne _ (by simp [h0]), pending_congr (fun h => absurd h h0) fun _ => by rw [goto_worker, wakeMem_worker]]

/-- A worker has notified. -/
theorem settle_notifyWorker {m : Mem} {k i : Nat} (h0 : 0 < k) (hk : k < kinds.length)
    (hh : (m (.of k .worker) : WorkerData).hand = .none) (hp : (m (.of k .worker) : WorkerData).pc = .notify i) :
    settle kinds (gotoWorker (wakeMem m k i) k .probe) = settle kinds m := by
  have hd : gotoWorker (wakeMem m k i) k .probe (.of k .worker) = { (m (.of k .worker) : WorkerData) with pc := .probe } := by
    rw [gotoWorker_worker, wakeMem_worker]
  have hfree : Free kinds k (gotoWorker (wakeMem m k i) k .probe (.of k .worker)) := by
    rw [hd]
    rintro ⟨_, _, _, i, hi⟩
    cases hi
  refine mem_ext (fun x l hx => ?_) ?_ (fun ix => ?_) fun ix j => ?_
  · rw [settle_shared _ hx, settle_shared _ hx, gotoWorker_shared _ _ _ hx, wakeMem_shared _ _ _ hx]
  · rw [settle_master, settle_master, gotoWorker_master, wakeMem_master]
  · rw [settle_worker, settle_worker]
    by_cases hx : ix = k
    · subst hx
      rw [settleWorker_eq hfree, hd, settleWorker_notify h0 hk hh hp]
    · rw [gotoWorker_ne _ hx, wakeMem_worker]
  · rw [settle_phase, settle_phase, gotoWorker_phase]
    by_cases hx : ix = k
    · subst hx
      rw [pending_none h0 hfree, settlePhase_none, pending_notify h0 hk hh hp]
      by_cases hj : j = i
      · subst hj
        rw [wakeMem_at]
        unfold settlePhase
        simp
      · rw [wakeMem_ne _ (by simp [hj])]
        unfold settlePhase
        rw [if_neg (by simp [Ne.symm hj])]
    · rw [wakeMem_ne _ (by simp [hx]), pending_congr (fun _ => by rw [gotoWorker_master, wakeMem_master])
        fun _ => by rw [gotoWorker_ne _ hx, wakeMem_worker]]

theorem wakeMem_eq {m : Mem} {ix i : Nat} (h : (m (.of ix (.phase i)) : Run.Phase) ≠ .sleep) : wakeMem m ix i = m := if_neg h

/-- A wake-up is the same before and after notifications, or it is not needed any more. -/
theorem settle_wake (m : Mem) (ix i : Nat) : settle kinds (wakeMem m ix i) = wakeMem (settle kinds m) ix i ∧
    ((pending kinds m ix = some i ∧ settle kinds (wakeMem m ix i) = settle kinds m) ∨
      settle kinds m (.of ix (.phase i)) = m (.of ix (.phase i))) := by
  have hpend : ∀ k, pending kinds (wakeMem m ix i) k = pending kinds m k := fun k =>
    pending_congr (fun _ => wakeMem_master ..) fun _ => wakeMem_worker ..
  have h1 : settle kinds (wakeMem m ix i) = wakeMem (settle kinds m) ix i := by
    refine mem_ext (fun x l hx => ?_) ?_ (fun k => ?_) fun k j => ?_
    · rw [settle_shared _ hx, wakeMem_shared _ _ _ hx, wakeMem_shared _ _ _ hx, settle_shared _ hx]
    · rw [settle_master, wakeMem_master, wakeMem_master, settle_master]
    · rw [settle_worker, wakeMem_worker, wakeMem_worker, settle_worker]
    · rw [settle_phase, hpend]
      by_cases hx : k = ix ∧ j = i
      · obtain ⟨rfl, rfl⟩ := hx
        rw [wakeMem_at, wakeMem_at, settle_phase]
        unfold settlePhase
        split_ifs <;> simp_all
      · rw [wakeMem_ne _ hx, wakeMem_ne _ hx, settle_phase]
  refine ⟨h1, ?_⟩
  by_cases hp : pending kinds m ix = some i
  · left
    refine ⟨hp, ?_⟩
    rw [h1]
    refine wakeMem_eq ?_
    rw [settle_phase, hp]
    unfold settlePhase
    split_ifs <;> simp_all
  · right
    rw [settle_phase]
    exact if_neg fun h => hp h.1

/-- The master moves, not to or from a notification. -/
theorem settle_goto {m : Mem} {pc : Mpi.Pc} (h : ∀ i b, (m .master : MasterData).pc ≠ .notify i b) (h' : ∀ i b, pc ≠ .notify i b) :
    settle kinds (goto m pc) = goto (settle kinds m) pc := by
  refine mem_ext (fun x l hx => ?_) ?_ (fun ix => ?_) fun ix j => ?_
  · rw [settle_shared _ hx, goto_shared _ _ hx, goto_shared _ _ hx, settle_shared _ hx]
  · rw [settle_master, goto_master, goto_master, settle_master, settleMaster_eq h, settleMaster_eq h']
  · rw [settle_worker, goto_worker, goto_worker, settle_worker]
  · rw [settle_phase, goto_phase, goto_phase, settle_phase]
    by_cases h0 : ix = 0
    · subst h0
      rw [pending_zero h, pending_zero (by rw [goto_master]; exact h')]
    · rw [pending_congr (n := m) (fun h => absurd h h0) fun _ => goto_worker ..]

/-- A worker moves, not to or from a notification. -/
theorem settle_gotoWorker {m : Mem} {k : Nat} {pc : Mpi.WorkerPc} (h0 : 0 < k) (h : ∀ i, (m (.of k .worker) : WorkerData).pc ≠ .notify i)
    (h' : ∀ i, pc ≠ .notify i) : settle kinds (gotoWorker m k pc) = gotoWorker (settle kinds m) k pc := by
  have hf : Free kinds k (m (.of k .worker)) := fun ⟨_, _, _, i, hi⟩ => h i hi
  have hf' : Free kinds k (gotoWorker m k pc (.of k .worker)) := by
    rw [gotoWorker_worker]
    exact fun ⟨_, _, _, i, hi⟩ => h' i hi
  refine mem_ext (fun x l hx => ?_) ?_ (fun ix => ?_) fun ix j => ?_
  · rw [settle_shared _ hx, gotoWorker_shared _ _ _ hx, gotoWorker_shared _ _ _ hx, settle_shared _ hx]
  · rw [settle_master, gotoWorker_master, gotoWorker_master, settle_master]
  · by_cases hx : ix = k
    · subst hx
      rw [settle_worker, settleWorker_eq hf', gotoWorker_worker, gotoWorker_worker, settle_worker, settleWorker_eq hf]
    · rw [settle_worker, gotoWorker_ne _ hx, gotoWorker_ne _ hx, settle_worker]
  · rw [settle_phase, gotoWorker_phase, gotoWorker_phase, settle_phase]
    by_cases hx : ix = k
    · subst hx
      rw [pending_none h0 hf, pending_none h0 hf']
    · rw [pending_congr (n := m) (fun _ => gotoWorker_master ..) fun _ => gotoWorker_ne _ hx _]

theorem one_sync {a : Agent} {m n : Mem} (h : Sync kinds env a m n) : Syncs (system kinds env) m n := .step a .refl h

theorem settles (kinds : List (List Bool)) (env : Env) : Settles (system kinds env) (settle kinds) where
  shared m x l h := settle_shared m h
  free a m := by
    cases a with
    | main ix =>
      cases ix with
      | zero =>
        show masterHeld (settleMaster (m .master)) = []
        by_cases h : ∃ i b, (m .master : MasterData).pc = .notify i b
        · obtain ⟨i, b, h⟩ := h
          rw [settleMaster_notify h]
          rfl
        · rw [settleMaster_eq fun i b h' => h ⟨i, b, h'⟩]
          unfold masterHeld
          split
          · next i b h' => exact absurd ⟨i, b, h'⟩ h
          · rfl
      | succ k =>
        show (if k + 1 < kinds.length then workerHeld (k + 1) (settleWorker kinds (k + 1) (m (.of (k + 1) .worker))) else []) = []
        split
        · next hk =>
          unfold settleWorker workerHeld
          rw [if_pos ⟨Nat.succ_pos k, hk⟩]
          split
          · next i h1 h2 =>
            split at h2
            · cases h2
            · next h => exact absurd h2 (h i (by
                split at h1 <;> assumption))
          · rfl
        · rfl
    | thread ix i => rfl
  same a m hr x hx := by
    cases a with
    | main ix =>
      cases ix with
      | zero =>
        have hp : ∀ i b, (m .master : MasterData).pc ≠ .notify i b := fun i b h => hr (by
          show masterRests (m .master)
          unfold masterRests
          rw [h]
          trivial)
        cases x with
        | master => rw [settle_master, settleMaster_eq hp]
        | of k x =>
          obtain ⟨rfl, rfl⟩ := guard_main hx
          rw [settle_worker, settleWorker_eq (fun h => absurd h.1 (Nat.lt_irrefl 0))]
      | succ k =>
        obtain rfl := (guard_worker (Nat.succ_pos k) x).1 hx
        rw [settle_worker, settleWorker_eq]
        rintro ⟨_, _, h1, i, h2⟩
        refine hr (Or.inr ?_)
        unfold workerRests
        simp only [h1, h2]
    | thread ix i =>
      obtain rfl := (guard_thread ix i x).1 hx
      rw [settle_phase, settlePhase_ne fun h => hr (Or.inr (Or.inl h))]
  act a ch m s t hr ha hu h1 h2 h3 := by
    have hsame : ∀ x b, guard x = .inr b → b ≠ a → s x = m x := hu
    have h1 : ∀ x, guard x = .inr a → t x = s x := h1
    have h2 : ∀ x l, guard x = .inl l → t x = s x := h2
    have h3 : ∀ x b, guard x = .inr b → b ≠ a → t x = settle kinds m x := h3
    cases a with
    | thread ix i =>
      have hm : s .master = m .master := hsame _ (.main 0) rfl (by simp)
      have hw : ∀ k, s (.of k .worker) = m (.of k .worker) := fun k => hsame _ (.main k) rfl (by simp)
      have hpend : ∀ k, pending kinds s k = pending kinds m k := fun k => pending_congr (fun _ => hm) fun _ => hw k
      have key : settle kinds s = if pending kinds m ix = some i then wakeMem t ix i else t := by
        have hwake : ∀ x, (∀ j, x ≠ .of ix (.phase j)) → (if pending kinds m ix = some i then wakeMem t ix i else t) x = t x := by
          intro x hx
          split
          · unfold wakeMem
            split
            · exact Function.update_of_ne (hx i) _ _
            · rfl
          · rfl
        refine mem_ext (fun x l hx => ?_) ?_ (fun k => ?_) fun k j => ?_
        · rw [hwake x (by rintro j rfl; cases hx), settle_shared _ hx, h2 x l hx]
        · rw [hwake _ (by simp), h3 .master (.main 0) rfl (by simp), settle_master, settle_master, hm]
        · rw [hwake _ (by simp), h3 (.of k .worker) (.main k) rfl (by simp), settle_worker, settle_worker, hw]
        · rw [settle_phase, hpend]
          by_cases hx : k = ix ∧ j = i
          · obtain ⟨rfl, rfl⟩ := hx
            have := h1 (.of k (.phase j)) rfl
            unfold settlePhase
            by_cases hp : pending kinds m k = some j
            · simp only [hp, true_and, if_true]
              rw [wakeMem_at, this]
            · rw [if_neg (fun h => hp h.1), if_neg hp, this]
          · have e : (if pending kinds m ix = some i then wakeMem t ix i else t) (.of k (.phase j)) = t (.of k (.phase j)) := by
              split
              · exact wakeMem_ne _ hx
              · rfl
            have hne : Agent.thread k j ≠ .thread ix i := by simpa using hx
            rw [e, h3 (.of k (.phase j)) (.thread k j) rfl hne, hsame (.of k (.phase j)) (.thread k j) rfl hne, settle_phase]
      rw [key]
      split
      · by_cases hsl : (t (.of ix (.phase i)) : Run.Phase) = .sleep
        · refine one_sync (sync_thread_iff.2 ⟨?_, rfl⟩)
          have hr' : ¬ (¬ (ix < kinds.length ∧ i < size kinds ix) ∨ _) := hr
          rw [not_or, not_not] at hr'
          exact ⟨hr'.1.1, hr'.1.2, hsl⟩
        · rw [wakeMem_eq hsl]
          exact .refl
      · exact .refl
    | main k =>
      have hph : ∀ ix i, s (.of ix (.phase i)) = m (.of ix (.phase i)) := fun ix i => hsame _ (.thread ix i) rfl (by simp)
      have tph : ∀ ix i, t (.of ix (.phase i)) = settle kinds m (.of ix (.phase i)) := fun ix i =>
        h3 _ (.thread ix i) rfl (by simp)
      have hwk : ∀ ix, ix ≠ k → s (.of ix .worker) = m (.of ix .worker) := fun ix hx => hsame _ (.main ix) rfl (by simpa using hx)
      have twk : ∀ ix, ix ≠ k → t (.of ix .worker) = settle kinds m (.of ix .worker) := fun ix hx =>
        h3 _ (.main ix) rfl (by simpa using hx)
      have tk : t (.of k .worker) = s (.of k .worker) := h1 _ rfl
      by_cases hk0 : k = 0
      · subst hk0
        have hpm : ∀ i b, (m .master : MasterData).pc ≠ .notify i b := fun i b h => hr (by
          show masterRests (m .master)
          unfold masterRests
          rw [h]
          trivial)
        have tm : t .master = s .master := h1 _ rfl
        have phase0 : ∀ i, t (.of 0 (.phase i)) = s (.of 0 (.phase i)) := fun i => by
          rw [tph, settle_phase, pending_zero hpm, settlePhase_none, hph]
        have hpend : ∀ ix, ix ≠ 0 → pending kinds s ix = pending kinds m ix := fun ix hx =>
          pending_congr (fun h => absurd h hx) fun _ => hwk ix hx
        have worker : ∀ ix, settle kinds s (.of ix .worker) = t (.of ix .worker) := fun ix => by
          rw [settle_worker]
          by_cases hx : ix = 0
          · subst hx
            rw [tk, settleWorker_eq (fun h => absurd h.1 (Nat.lt_irrefl 0))]
          · rw [twk ix hx, settle_worker, hwk ix hx]
        by_cases hn : ∃ i b, (s .master : MasterData).pc = .notify i b
        · obtain ⟨i, b, hp⟩ := hn
          have key : settle kinds s = goto (wakeMem t 0 i) (.insert 0 b) := by
            refine mem_ext (fun x l hx => ?_) ?_ (fun ix => ?_) fun ix j => ?_
            · rw [settle_shared _ hx, goto_shared _ _ hx, wakeMem_shared _ _ _ hx, h2 x l hx]
            · rw [settle_master, settleMaster_notify hp, goto_master, wakeMem_master, tm]
            · rw [goto_worker, wakeMem_worker, worker]
            · rw [settle_phase, goto_phase]
              by_cases hx : ix = 0
              · subst hx
                have : pending kinds s 0 = some i := by
                  simp only [pending, hp]
                rw [this]
                by_cases hj : j = i
                · subst hj
                  rw [wakeMem_at, phase0]
                  unfold settlePhase
                  simp
                · rw [wakeMem_ne _ (by simp [hj]), phase0]
                  exact if_neg (by simp [Ne.symm hj])
              · rw [wakeMem_ne _ (by simp [hx]), tph, settle_phase, hpend ix hx, hph]
          rw [key]
          exact one_sync (sync_master_iff.2 (Or.inl ⟨i, b, by rw [tm]; exact hp, rfl⟩))
        · have hps : ∀ i b, (s .master : MasterData).pc ≠ .notify i b := fun i b h => hn ⟨i, b, h⟩
          have key : settle kinds s = t := by
            refine mem_ext (fun x l hx => ?_) ?_ worker fun ix j => ?_
            · rw [settle_shared _ hx, h2 x l hx]
            · rw [settle_master, settleMaster_eq hps, tm]
            · rw [settle_phase]
              by_cases hx : ix = 0
              · subst hx
                rw [pending_zero hps, settlePhase_none, phase0]
              · rw [tph, settle_phase, hpend ix hx, hph]
          rw [key]
          exact .refl
      · have h0 : 0 < k := Nat.pos_of_ne_zero hk0
        have hrest : ¬ (¬ k < kinds.length ∨ workerRests (m (.of k .worker))) := by
          obtain ⟨j, rfl⟩ := Nat.exists_eq_succ_of_ne_zero hk0
          exact hr
        rw [not_or, not_not] at hrest
        obtain ⟨hk, hrest⟩ := hrest
        have hfm : Free kinds k (m (.of k .worker)) := by
          rintro ⟨_, _, h1, i, h2⟩
          refine hrest ?_
          unfold workerRests
          simp only [h1, h2]
        have hmm : s .master = m .master := hsame _ (.main 0) rfl (by simpa using Ne.symm hk0)
        have tm : t .master = settle kinds m .master := h3 _ (.main 0) rfl (by simpa using Ne.symm hk0)
        have phasek : ∀ i, t (.of k (.phase i)) = s (.of k (.phase i)) := fun i => by
          rw [tph, settle_phase, pending_none h0 hfm, settlePhase_none, hph]
        have hpend : ∀ ix, ix ≠ k → pending kinds s ix = pending kinds m ix := fun ix hx =>
          pending_congr (fun _ => hmm) fun _ => hwk ix hx
        by_cases hf : Free kinds k (s (.of k .worker))
        · have key : settle kinds s = t := by
            refine mem_ext (fun x l hx => ?_) ?_ (fun ix => ?_) fun ix j => ?_
            · rw [settle_shared _ hx, h2 x l hx]
            · rw [tm, settle_master, settle_master, hmm]
            · rw [settle_worker]
              by_cases hx : ix = k
              · subst hx
                rw [settleWorker_eq hf, tk]
              · rw [twk ix hx, settle_worker, hwk ix hx]
            · rw [settle_phase]
              by_cases hx : ix = k
              · subst hx
                rw [pending_none h0 hf, settlePhase_none, phasek]
              · rw [tph, settle_phase, hpend ix hx, hph]
          rw [key]
          exact .refl
        · unfold Free at hf
          rw [not_not] at hf
          obtain ⟨_, _, hh, i, hp⟩ := hf
          have key : settle kinds s = gotoWorker (wakeMem t k i) k .probe := by
            refine mem_ext (fun x l hx => ?_) ?_ (fun ix => ?_) fun ix j => ?_
            · rw [settle_shared _ hx, gotoWorker_shared _ _ _ hx, wakeMem_shared _ _ _ hx, h2 x l hx]
            · rw [gotoWorker_master, wakeMem_master, tm, settle_master, settle_master, hmm]
            · rw [settle_worker]
              by_cases hx : ix = k
              · subst hx
                rw [settleWorker_notify h0 hk hh hp, gotoWorker_worker, wakeMem_worker, tk]
              · rw [gotoWorker_ne _ hx, wakeMem_worker, twk ix hx, settle_worker, hwk ix hx]
            · rw [settle_phase, gotoWorker_phase]
              by_cases hx : ix = k
              · subst hx
                rw [pending_notify h0 hk hh hp]
                by_cases hj : j = i
                · subst hj
                  rw [wakeMem_at, phasek]
                  unfold settlePhase
                  simp
                · rw [wakeMem_ne _ (by simp [hj]), phasek]
                  exact if_neg (by simp [Ne.symm hj])
              · rw [wakeMem_ne _ (by simp [hx]), tph, settle_phase, hpend ix hx, hph]
          rw [key]
          exact one_sync ((sync_worker_iff h0).2 ⟨hk, by rw [tk]; exact hh, Or.inl ⟨i, by rw [tk]; exact hp, rfl⟩⟩)
  sync a m s hs := by
    have hs : Sync kinds env a m s := hs
    cases a with
    | thread ix i =>
      obtain ⟨⟨hx, hi, hsl⟩, rfl⟩ := sync_thread_iff.1 hs
      obtain ⟨h1, ⟨_, h2⟩ | h2⟩ := settle_wake (kinds := kinds) m ix i
      · rw [h2]
        exact .refl
      · rw [h1]
        exact one_sync (sync_thread_iff.2 ⟨⟨hx, hi, h2.trans hsl⟩, rfl⟩)
    | main k =>
      by_cases hk0 : k = 0
      · subst hk0
        rcases sync_master_iff.1 hs with ⟨i, b, hp, rfl⟩ | ⟨i, hp, rfl⟩ | ⟨i, hp, hd, rfl⟩
        · rw [settle_notify hp]
          exact .refl
        · have hm : settle kinds m .master = m .master := by
            rw [settle_master, settleMaster_eq (by rw [hp]; simp)]
          rw [settle_goto (by rw [wakeMem_master, hp]; simp) (by simp), (settle_wake m 0 i).1]
          exact one_sync (sync_master_iff.2 (Or.inr (Or.inl ⟨i, by rw [hm]; exact hp, rfl⟩)))
        · have hm : settle kinds m .master = m .master := by
            rw [settle_master, settleMaster_eq (by rw [hp]; simp)]
          rw [settle_goto (by rw [hp]; simp) (by simp)]
          refine one_sync (sync_master_iff.2 (Or.inr (Or.inr ⟨i, by rw [hm]; exact hp, ?_, rfl⟩)))
          rw [settle_phase, settlePhase_ne (by rw [hd]; simp)]
          exact hd
      · have h0 : 0 < k := Nat.pos_of_ne_zero hk0
        obtain ⟨hk, hh, ⟨i, hp, rfl⟩ | ⟨i, hp, rfl⟩ | ⟨i, hp, hd, rfl⟩⟩ := (sync_worker_iff h0).1 hs
        · rw [settle_notifyWorker h0 hk hh hp]
          exact .refl
        · have hm : settle kinds m (.of k .worker) = m (.of k .worker) := by
            rw [settle_worker, settleWorker_eq]
            rintro ⟨_, _, _, i, hi⟩
            rw [hp] at hi
            cases hi
          rw [settle_gotoWorker h0 (by rw [wakeMem_worker, hp]; simp) (by simp), (settle_wake m k i).1]
          exact one_sync ((sync_worker_iff h0).2 ⟨hk, by rw [hm]; exact hh, Or.inr (Or.inl ⟨i, by rw [hm]; exact hp, rfl⟩)⟩)
        · have hm : settle kinds m (.of k .worker) = m (.of k .worker) := by
            rw [settle_worker, settleWorker_eq]
            rintro ⟨_, _, _, i, hi⟩
            rw [hp] at hi
            cases hi
          rw [settle_gotoWorker h0 (by rw [hp]; simp) (by simp)]
          refine one_sync ((sync_worker_iff h0).2 ⟨hk, by rw [hm]; exact hh, Or.inr (Or.inr ⟨i, by rw [hm]; exact hp, ?_, rfl⟩)⟩)
          rw [settle_phase, settlePhase_ne (by rw [hd]; simp)]
          exact hd

end MpiLocks
end Hycu
