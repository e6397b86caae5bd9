import Verif.Lemmas.MpiLocks

/-!
What the sections of the master of `hycu-mpi` depend on and what they change.
-/

namespace Hycu
namespace MpiLocks

open Mpi (Proc)
open Locks (reads)

/-! ### The master -/

/-- The processes with given variables. -/
def procsOf (kinds : List (List Bool)) (m : Mem) (ix : Nat) : Proc :=
  toProc (size kinds ix) (fun i => (kinds[ix]?.getD [])[i]?.getD false) fun x => m (.of ix x)

/-- What the main threads have got. -/
def handOf (m : Mem) (ix : Nat) : Hand := (m (.of ix .worker) : WorkerData).hand

/-- The state with given processes and given variables of the master. -/
def stateOf (kinds : List (List Bool)) (procs : Nat → Proc) (d : MasterData) : Mpi.State where
  nprocs := kinds.length
  procs := procs
  fs := d.fs
  cpuQueue := d.cpuQueue
  openclQueue := d.openclQueue
  assigned := d.assigned
  fileStore := d.fileStore
  pc := d.pc
  todo := d.todo

theorem toState_eq (kinds : List (List Bool)) (m : Mem) :
    toState kinds m = ⟨stateOf kinds (procsOf kinds m) (m .master), handOf m⟩ := rfl

theorem ofProc_procsOf (kinds : List (List Bool)) (m : Mem) (ix : Nat) (x : Local) :
    ofProc (procsOf kinds m ix) (handOf m ix) x = m (.of ix x) :=
  congrFun (ofProc_toProc (size kinds ix) (fun i => (kinds[ix]?.getD [])[i]?.getD false) fun x => m (.of ix x)) x

/-- `Fit` for steps of the master. -/
inductive MFit (T : List Var) (m n : Mem) : Res (Option Mpi.State) → Res (Option Mpi.State) → Prop
  | none : MFit T m n (.ok none) (.ok none)
  | some (u v : Mpi.State) (h1 : ∀ x, guard x = .inr (.main 0) ∨ x ∈ T → ofState ⟨v, handOf n⟩ x = ofState ⟨u, handOf m⟩ x)
      (h2 : ∀ x, guard x ≠ .inr (.main 0) → x ∉ T → ofState ⟨v, handOf n⟩ x = n x) : MFit T m n (.ok (some u)) (.ok (some v))
  | ub : MFit T m n .ub .ub
  | abort : MFit T m n .abort .abort
  | diverge : MFit T m n .diverge .diverge

theorem guard_main {ix : Nat} {x : Local} (h : guard (.of ix x) = .inr (.main 0)) : ix = 0 ∧ x = .worker := by
  cases x <;> simp [guard] at h
  exact ⟨h, rfl⟩

variable {kinds : List (List Bool)} {m n : Mem}

/-- No process is changed. -/
theorem mfit_zero {T : List Var} (d : MasterData) (h0 : m (.of 0 .worker) = n (.of 0 .worker)) (hT : ∀ y ∈ T, m y = n y) :
    MFit T m n (.ok (some (stateOf kinds (procsOf kinds m) d))) (.ok (some (stateOf kinds (procsOf kinds n) d))) := by
  refine .some _ _ (fun y hy => ?_) fun y hy hy' => ?_
  · cases y with
    | master => rfl
    | of ix x =>
      refine (ofProc_procsOf kinds n ix x).trans (Eq.trans ?_ (ofProc_procsOf kinds m ix x).symm)
      rcases hy with hy | hy
      · obtain ⟨rfl, rfl⟩ := guard_main hy
        exact h0.symm
      · exact (hT _ hy).symm
  · cases y with
    | master => exact absurd rfl hy
    | of ix x => exact ofProc_procsOf kinds n ix x

/-- One process is changed. -/
theorem mfit_one {T : List Local} (k : Nat) (p q : Proc) (d : MasterData) (h0 : m (.of 0 .worker) = n (.of 0 .worker))
    (h1 : ∀ x, (k = 0 ∧ x = .worker) ∨ x ∈ T → ofProc q (handOf n k) x = ofProc p (handOf m k) x)
    (h2 : ∀ x, ¬ (k = 0 ∧ x = .worker) → x ∉ T → ofProc q (handOf n k) x = n (.of k x)) :
    MFit (T.map (.of k)) m n (.ok (some (stateOf kinds (Function.update (procsOf kinds m) k p) d)))
      (.ok (some (stateOf kinds (Function.update (procsOf kinds n) k q) d))) := by
  have hk : ∀ (m : Mem) (p : Proc) x, ofState ⟨stateOf kinds (Function.update (procsOf kinds m) k p) d, handOf m⟩ (.of k x) =
      ofProc p (handOf m k) x := by
    intro m p x
    show ofProc (Function.update (procsOf kinds m) k p k) _ x = _
    rw [Function.update_self]
  have hne : ∀ (m : Mem) (p : Proc) ix, ix ≠ k → ∀ x,
      ofState ⟨stateOf kinds (Function.update (procsOf kinds m) k p) d, handOf m⟩ (.of ix x) = m (.of ix x) := by
    intro m p ix hix x
    show ofProc (Function.update (procsOf kinds m) k p ix) _ x = _
    rw [Function.update_of_ne hix]
    exact ofProc_procsOf kinds m ix x
  refine .some _ _ (fun y hy => ?_) fun y hy hy' => ?_
  · cases y with
    | master => rfl
    | of ix x =>
      by_cases hix : ix = k
      · subst hix
        rw [hk, hk]
        refine h1 x (hy.imp (fun h => guard_main h) fun h => ?_)
        simpa using h
      · rw [hne _ _ _ hix, hne _ _ _ hix]
        rcases hy with hy | hy
        · obtain ⟨rfl, rfl⟩ := guard_main hy
          exact h0.symm
        · simp only [List.mem_map, Var.of.injEq] at hy
          obtain ⟨_, _, h, _⟩ := hy
          exact absurd h.symm hix
  · cases y with
    | master => exact absurd rfl hy
    | of ix x =>
      by_cases hix : ix = k
      · subst hix
        rw [hk]
        refine h2 x (fun h => hy ?_) fun h => hy' ?_
        · obtain ⟨rfl, rfl⟩ := h
          rfl
        · simpa using h
      · rw [hne _ _ _ hix]

/-- The process of the master is changed. -/
theorem mfit_own {T : List Local} (p q : Proc) (d : MasterData) (h0 : m (.of 0 .worker) = n (.of 0 .worker))
    (h1 : ∀ h x, x = .worker ∨ x ∈ T → ofProc q h x = ofProc p h x)
    (h2 : ∀ x, x ≠ .worker → x ∉ T → ofProc q (handOf n 0) x = n (.of 0 x)) :
    MFit (T.map (.of 0)) m n (.ok (some (stateOf kinds (Function.update (procsOf kinds m) 0 p) d)))
      (.ok (some (stateOf kinds (Function.update (procsOf kinds n) 0 q) d))) := by
  have hh : handOf m 0 = handOf n 0 := by
    unfold handOf
    rw [h0]
  refine mfit_one 0 p q d h0 (fun x hx => ?_) fun x hx hx' => h2 x (fun h => hx ⟨rfl, h⟩) hx'
  rw [hh]
  exact h1 _ x (hx.imp_left fun h => h.2)

/-- One variable of a process is changed. -/
theorem mfit_var (k : Nat) (y : Local) (p q : Proc) (z : LocalVal y) (d : MasterData)
    (h0 : m (.of 0 .worker) = n (.of 0 .worker)) (hy : y ≠ .worker)
    (hp : ofProc p (handOf m k) = Function.update (fun x => m (.of k x)) y z)
    (hq : ofProc q (handOf n k) = Function.update (fun x => n (.of k x)) y z) :
    MFit [.of k y] m n (.ok (some (stateOf kinds (Function.update (procsOf kinds m) k p) d)))
      (.ok (some (stateOf kinds (Function.update (procsOf kinds n) k q) d))) := by
  refine mfit_one (T := [y]) k _ _ d h0 (fun x hx => ?_) fun x _ hx => ?_
  · rw [hp, hq]
    rw [List.mem_singleton] at hx
    rcases hx with ⟨rfl, rfl⟩ | rfl
    · rw [Function.update_of_ne hy.symm, Function.update_of_ne hy.symm]
      exact h0.symm
    · rw [Function.update_self, Function.update_self]
  · rw [hq, Function.update_of_ne (by simpa using hx)]

/-- A message is sent. -/
theorem mfit_send (k : Nat) (msg : Mpi.Msg) (d : MasterData) (h0 : m (.of 0 .worker) = n (.of 0 .worker))
    (hi : m (.of k .inbox) = n (.of k .inbox)) :
    MFit [.of k .inbox] m n
      (.ok (some (stateOf kinds (Function.update (procsOf kinds m) k ((procsOf kinds m k).send msg)) d)))
      (.ok (some (stateOf kinds (Function.update (procsOf kinds n) k ((procsOf kinds n k).send msg)) d))) := by
  have key : ∀ (m : Mem), ofProc ((procsOf kinds m k).send msg) (handOf m k) =
      Function.update (fun x => m (.of k x)) .inbox (m (.of k .inbox) ++ [msg]) := by
    intro m
    funext x
    cases x <;> first | (rw [Function.update_self]; rfl) | (rw [Function.update_of_ne (by simp)]; rfl)
  refine mfit_var k .inbox _ _ _ d h0 (by simp) (key m) ?_
  rw [hi]
  exact key n

/-- A reply is received. -/
theorem ofProc_finishedOut (m : Mem) (k : Nat) (l : List (List Block)) :
    ofProc { procsOf kinds m k with finishedOut := l } (handOf m k) =
      Function.update (fun x => m (.of k x)) .finishedOut l := by
  funext x
  cases x <;> first | (rw [Function.update_self]; rfl) | (rw [Function.update_of_ne (by simp)]; rfl)

@[inherit_doc ofProc_finishedOut]
theorem ofProc_readyOut (m : Mem) (k : Nat) (l : List (Nat × Nat)) :
    ofProc { procsOf kinds m k with readyOut := l } (handOf m k) = Function.update (fun x => m (.of k x)) .readyOut l := by
  funext x
  cases x <;> first | (rw [Function.update_self]; rfl) | (rw [Function.update_of_ne (by simp)]; rfl)

@[inherit_doc ofProc_finishedOut]
theorem ofProc_saveOut (m : Mem) (k : Nat) (l : List (List Char × List Char)) :
    ofProc { procsOf kinds m k with saveOut := l } (handOf m k) = Function.update (fun x => m (.of k x)) .saveOut l := by
  funext x
  cases x <;> first | (rw [Function.update_self]; rfl) | (rw [Function.update_of_ne (by simp)]; rfl)

/-- A step of the master. -/
def masterStep (st : Mpi.State) (ch : Run.Choice) : Res (Option Mpi.State) :=
  if Waits st then .ok (some st) else Mpi.masterStep st ch

theorem not_waits {st : Mpi.State} {ch : Run.Choice} (h : ¬ Waits st) : masterStep st ch = Mpi.masterStep st ch := if_neg h

theorem waits {st : Mpi.State} {ch : Run.Choice} (h : Waits st) : masterStep st ch = .ok (some st) := if_pos h

/-- The processes with given variables, where those of the main thread of process 0 are given separately. -/
theorem procsOf_build (m : Mem) (w : WorkerData) (h : m (.of 0 .worker) = w) : procsOf kinds m 0 =
    build (size kinds 0) (fun i => (kinds[0]?.getD [])[i]?.getD false) w fun x => m (.of 0 x) := toProc_build h

local macro "mfit" : tactic =>
  `(tactic| (refine mfit_own _ _ ⟨_, _, _, _, _, _, _⟩ (by assumption) ?_ ?_ <;> [intro _ x; intro x] <;> cases x <;>
      first | (intro hx; exfalso; simp at hx; done)
            | (intro _ hx; exfalso; simp at hx; done)
            | (intros; rfl)))

theorem master_fit (d : MasterData) (m n : Mem) (ch : Run.Choice) (hn : ¬ masterRests d)
    (h0 : m (.of 0 .worker) = n (.of 0 .worker))
    (hr : ∀ x ∈ reads (masterPlan kinds.length (size kinds 0) d (m (.of 0 .idle))), m x = n x) :
    MFit (reads (masterPlan kinds.length (size kinds 0) d (m (.of 0 .idle))) ++ masterExtra (size kinds 0) d) m n
      (masterStep (stateOf kinds (procsOf kinds m) d) ch) (masterStep (stateOf kinds (procsOf kinds n) d) ch) := by
  obtain ⟨fs, cpu, ocl, assigned, fileStore, pc, todo⟩ := d
  have hno : ∀ T : List Var, T = [] → ∀ d, MFit T m n (.ok (some (stateOf kinds (procsOf kinds m) d)))
      (.ok (some (stateOf kinds (procsOf kinds n) d))) := by
    rintro _ rfl d
    exact mfit_zero d h0 (fun y hy => absurd hy (by simp))
  have hsend : ∀ (k : Nat) (T : List Var), T = [.of k .inbox] → (∀ x ∈ T, m x = n x) → ∀ d msg, MFit T m n
      (.ok (some (stateOf kinds (Function.update (procsOf kinds m) k ((procsOf kinds m k).send msg)) d)))
      (.ok (some (stateOf kinds (Function.update (procsOf kinds n) k ((procsOf kinds n k).send msg)) d))) := by
    rintro k _ rfl hT d msg
    exact mfit_send k msg d h0 (hT _ (by simp))
  cases pc with
  | main =>
    rw [not_waits (by intro h; exact h), not_waits (by intro h; exact h)]
    simp only [Mpi.masterStep, stateOf, Mpi.mainStep]
    cases todo with
    | nil => exact hno _ rfl ⟨_, _, _, _, _, _, _⟩
    | cons c rest =>
      cases c with
      | config c =>
        simp only
        cases c.verify fs (.ok ch.create) with
        | ok p => exact hno _ rfl ⟨_, _, _, _, _, _, _⟩
        | ub => exact .ub
        | abort => exact .abort
        | diverge => exact .diverge
      | assign b => exact hno _ rfl ⟨_, _, _, _, _, _, _⟩
  | flush c =>
    have e : m (.of 0 .finished) = n (.of 0 .finished) := hr _ (by simp [masterPlan, reads])
    rw [not_waits (by intro h; exact h), not_waits (by intro h; exact h)]
    simp only [Mpi.masterStep, stateOf, Mpi.flushStep, Mpi.finishedBlocks, Mpi.State.setProc]
    rw [procsOf_build m _ h0, procsOf_build n _ rfl]
    simp only [Proc.flushFinished, build]
    rw [e]
    cases Run.eraseFinished (n (.of 0 .finished)) (assigned 0) with
    | ok a =>
      show MFit ([Local.finished].map (.of 0)) m n _ _
      mfit
    | ub => exact .ub
    | abort => exact .abort
    | diverge => exact .diverge
  | flushSend ix c =>
    rw [not_waits (by intro h; exact h), not_waits (by intro h; exact h)]
    simp only [Mpi.masterStep]
    show MFit _ m n (if ix < kinds.length then _ else _) (if ix < kinds.length then _ else _)
    by_cases hi : ix < kinds.length
    · rw [if_pos hi, if_pos hi]
      exact hsend ix _ (by simp [masterPlan, masterExtra, hi, sendPlan, reads])
        (fun x hx => hr x (by simpa [masterExtra] using hx)) ⟨_, _, _, _, _, _, _⟩ _
    · rw [if_neg hi, if_neg hi]
      exact hno _ (by simp [masterPlan, masterExtra, hi, reads]) ⟨_, _, _, _, _, _, _⟩
  | flushRecv ix c =>
    have e : m (.of ix .finishedOut) = n (.of ix .finishedOut) := hr _ (by simp [masterPlan, reads])
    have em : (procsOf kinds m ix).finishedOut = n (.of ix .finishedOut) := e
    have en : (procsOf kinds n ix).finishedOut = n (.of ix .finishedOut) := rfl
    show MFit [.of ix .finishedOut] m n _ _
    cases hl : n (.of ix .finishedOut) with
    | nil =>
      have wm : Waits (stateOf kinds (procsOf kinds m) ⟨fs, cpu, ocl, assigned, fileStore, .flushRecv ix c, todo⟩) := em.trans hl
      have wn : Waits (stateOf kinds (procsOf kinds n) ⟨fs, cpu, ocl, assigned, fileStore, .flushRecv ix c, todo⟩) := en.trans hl
      rw [waits wm, waits wn]
      refine mfit_zero _ h0 fun y hy => ?_
      rw [List.mem_singleton] at hy
      subst hy
      exact e
    | cons bs rest =>
      have wm : ¬ Waits (stateOf kinds (procsOf kinds m) ⟨fs, cpu, ocl, assigned, fileStore, .flushRecv ix c, todo⟩) := by
        intro h
        change (procsOf kinds m ix).finishedOut = [] at h
        rw [em, hl] at h
        cases h
      have wn : ¬ Waits (stateOf kinds (procsOf kinds n) ⟨fs, cpu, ocl, assigned, fileStore, .flushRecv ix c, todo⟩) := by
        intro h
        change (procsOf kinds n ix).finishedOut = [] at h
        rw [en, hl] at h
        cases h
      rw [not_waits wm, not_waits wn]
      simp only [Mpi.masterStep, Mpi.flushRecvStep, stateOf]
      rw [em, en, hl]
      simp only [Mpi.finishedBlocks, Mpi.State.setProc]
      cases Run.eraseFinished bs (assigned ix) with
      | ok a => exact mfit_var ix .finishedOut _ _ rest ⟨_, _, _, _, _, _, _⟩ h0 (by simp) (ofProc_finishedOut m ix rest) (ofProc_finishedOut n ix rest)
      | ub => exact .ub
      | abort => exact .abort
      | diverge => exact .diverge
  | waited k =>
    rw [not_waits (by intro h; exact h), not_waits (by intro h; exact h)]
    exact hno _ rfl ⟨_, _, _, _, _, _, _⟩
  | ready =>
    have e1 : m (.of 0 .ready) = n (.of 0 .ready) := hr _ (by simp [masterPlan, reads])
    have e2 : m (.of 0 .idle) = n (.of 0 .idle) := hr _ (by simp [masterPlan, reads])
    rw [not_waits (by intro h; exact h), not_waits (by intro h; exact h)]
    simp only [Mpi.masterStep, stateOf, Mpi.readyStep, Mpi.pushIdle, Mpi.State.setProc]
    rw [procsOf_build m _ h0, procsOf_build n _ rfl]
    simp only [Proc.flushReady, build]
    rw [e1, e2]
    simp only [Run.ThreadPool.flushReady]
    show MFit ([Local.ready, Local.idle].map (.of 0)) m n _ _
    mfit
  | readySend ix =>
    rw [not_waits (by intro h; exact h), not_waits (by intro h; exact h)]
    simp only [Mpi.masterStep]
    show MFit _ m n (if ix < kinds.length then _ else _) (if ix < kinds.length then _ else _)
    by_cases hi : ix < kinds.length
    · rw [if_pos hi, if_pos hi]
      exact hsend ix _ (by simp [masterPlan, masterExtra, hi, sendPlan, reads])
        (fun x hx => hr x (by simpa [masterExtra] using hx)) ⟨_, _, _, _, _, _, _⟩ _
    · rw [if_neg hi, if_neg hi]
      exact hno _ (by simp [masterPlan, masterExtra, hi, reads]) ⟨_, _, _, _, _, _, _⟩
  | readyRecv ix =>
    have e : m (.of ix .readyOut) = n (.of ix .readyOut) := hr _ (by simp [masterPlan, reads])
    have em : (procsOf kinds m ix).readyOut = n (.of ix .readyOut) := e
    have en : (procsOf kinds n ix).readyOut = n (.of ix .readyOut) := rfl
    show MFit [.of ix .readyOut] m n _ _
    cases hl : n (.of ix .readyOut) with
    | nil =>
      have wm : Waits (stateOf kinds (procsOf kinds m) ⟨fs, cpu, ocl, assigned, fileStore, .readyRecv ix, todo⟩) := em.trans hl
      have wn : Waits (stateOf kinds (procsOf kinds n) ⟨fs, cpu, ocl, assigned, fileStore, .readyRecv ix, todo⟩) := en.trans hl
      rw [waits wm, waits wn]
      refine mfit_zero _ h0 fun y hy => ?_
      rw [List.mem_singleton] at hy
      subst hy
      exact e
    | cons bs rest =>
      have wm : ¬ Waits (stateOf kinds (procsOf kinds m) ⟨fs, cpu, ocl, assigned, fileStore, .readyRecv ix, todo⟩) := by
        intro h
        change (procsOf kinds m ix).readyOut = [] at h
        rw [em, hl] at h
        cases h
      have wn : ¬ Waits (stateOf kinds (procsOf kinds n) ⟨fs, cpu, ocl, assigned, fileStore, .readyRecv ix, todo⟩) := by
        intro h
        change (procsOf kinds n ix).readyOut = [] at h
        rw [en, hl] at h
        cases h
      rw [not_waits wm, not_waits wn]
      simp only [Mpi.masterStep, Mpi.readyRecvStep, stateOf]
      rw [em, en, hl]
      simp only [Mpi.pushIdle, Mpi.State.setProc]
      exact mfit_var ix .readyOut _ _ rest ⟨_, _, _, _, _, _, _⟩ h0 (by simp) (ofProc_readyOut m ix rest) (ofProc_readyOut n ix rest)
  | filled =>
    rw [not_waits (by intro h; exact h), not_waits (by intro h; exact h)]
    exact hno _ rfl ⟨_, _, _, _, _, _, _⟩
  | save k =>
    rw [not_waits (by intro h; exact h), not_waits (by intro h; exact h)]
    simp only [Mpi.masterStep, stateOf, Mpi.saveStep]
    cases fileStore with
    | none => exact hno _ rfl ⟨_, _, _, _, _, _, _⟩
    | some f =>
      have e1 : m (.of 0 .record) = n (.of 0 .record) := hr _ (by simp [masterPlan, reads])
      have e2 : m (.of 0 .store) = n (.of 0 .store) := hr _ (by simp [masterPlan, reads])
      simp only [Mpi.fileSave, Mpi.State.setProc]
      rw [procsOf_build m _ h0, procsOf_build n _ rfl]
      simp only [Proc.flushStatic, build]
      rw [e1, e2]
      show MFit ([Local.record, Local.store].map (.of 0)) m n _ _
      split
      · cases fs f.config.resultPath with
        | none => mfit
        | some d =>
          simp only
          split
          · mfit
          · exact .none
      · mfit
  | saveSend ix k =>
    rw [not_waits (by intro h; exact h), not_waits (by intro h; exact h)]
    simp only [Mpi.masterStep]
    show MFit _ m n (if ix < kinds.length then _ else _) (if ix < kinds.length then _ else _)
    by_cases hi : ix < kinds.length
    · rw [if_pos hi, if_pos hi]
      exact hsend ix _ (by simp [masterPlan, masterExtra, hi, sendPlan, reads])
        (fun x hx => hr x (by simpa [masterExtra] using hx)) ⟨_, _, _, _, _, _, _⟩ _
    · rw [if_neg hi, if_neg hi]
      exact hno _ (by simp [masterPlan, masterExtra, hi, reads]) ⟨_, _, _, _, _, _, _⟩
  | saveRecv ix k =>
    have e : m (.of ix .saveOut) = n (.of ix .saveOut) := hr _ (by simp [masterPlan, reads])
    have em : (procsOf kinds m ix).saveOut = n (.of ix .saveOut) := e
    have en : (procsOf kinds n ix).saveOut = n (.of ix .saveOut) := rfl
    show MFit [.of ix .saveOut] m n _ _
    cases hl : n (.of ix .saveOut) with
    | nil =>
      have wm : Waits (stateOf kinds (procsOf kinds m) ⟨fs, cpu, ocl, assigned, fileStore, .saveRecv ix k, todo⟩) := em.trans hl
      have wn : Waits (stateOf kinds (procsOf kinds n) ⟨fs, cpu, ocl, assigned, fileStore, .saveRecv ix k, todo⟩) := en.trans hl
      rw [waits wm, waits wn]
      refine mfit_zero _ h0 fun y hy => ?_
      rw [List.mem_singleton] at hy
      subst hy
      exact e
    | cons bs rest =>
      have wm : ¬ Waits (stateOf kinds (procsOf kinds m) ⟨fs, cpu, ocl, assigned, fileStore, .saveRecv ix k, todo⟩) := by
        intro h
        change (procsOf kinds m ix).saveOut = [] at h
        rw [em, hl] at h
        cases h
      have wn : ¬ Waits (stateOf kinds (procsOf kinds n) ⟨fs, cpu, ocl, assigned, fileStore, .saveRecv ix k, todo⟩) := by
        intro h
        change (procsOf kinds n ix).saveOut = [] at h
        rw [en, hl] at h
        cases h
      rw [not_waits wm, not_waits wn]
      simp only [Mpi.masterStep, Mpi.saveRecvStep, stateOf]
      rw [em, en, hl]
      have hv : ∀ d, MFit [.of ix .saveOut] m n
          (.ok (some (stateOf kinds (Function.update (procsOf kinds m) ix { procsOf kinds m ix with saveOut := rest }) d)))
          (.ok (some (stateOf kinds (Function.update (procsOf kinds n) ix { procsOf kinds n ix with saveOut := rest }) d))) :=
        fun d => mfit_var ix .saveOut _ _ rest d h0 (by simp) (ofProc_saveOut m ix rest) (ofProc_saveOut n ix rest)
      cases fileStore with
      | none => exact .ub
      | some f =>
        simp only [Mpi.fileSave, Mpi.State.setProc]
        split
        · cases fs f.config.resultPath with
          | none => exact hv ⟨_, _, _, _, _, _, _⟩
          | some d =>
            simp only
            split
            · exact hv ⟨_, _, _, _, _, _, _⟩
            · exact .none
        · exact hv ⟨_, _, _, _, _, _, _⟩
  | write ws ix k =>
    rw [not_waits (by intro h; exact h), not_waits (by intro h; exact h)]
    cases ws with
    | nil => exact hno _ rfl ⟨_, _, _, _, _, _, _⟩
    | cons w ws =>
      obtain ⟨a, c⟩ := w
      simp only [Mpi.masterStep, stateOf, Mpi.writeStep]
      cases fileStore with
      | none => exact hno _ rfl ⟨_, _, _, _, _, _, _⟩
      | some f =>
        simp only
        cases fs f.config.resultPath with
        | none => exact hno _ rfl ⟨_, _, _, _, _, _, _⟩
        | some d => exact hno _ rfl ⟨_, _, _, _, _, _, _⟩
  | newStore =>
    rw [not_waits (by intro h; exact h), not_waits (by intro h; exact h)]
    simp only [Mpi.masterStep, stateOf]
    cases todo with
    | nil => exact .none
    | cons c rest =>
      cases c with
      | config c =>
        simp only [Mpi.newStoreStep]
        cases fs c.resultPath with
        | none => exact hno _ rfl ⟨_, _, _, _, _, _, _⟩
        | some d =>
          simp only
          cases FileStore.initialRecord d with
          | ok r => exact hno _ rfl ⟨_, _, _, _, _, _, _⟩
          | ub => exact .ub
          | abort => exact .abort
          | diverge => exact .diverge
      | assign b => exact .none
  | update =>
    rw [not_waits (by intro h; exact h), not_waits (by intro h; exact h)]
    simp only [Mpi.masterStep, stateOf]
    cases todo with
    | nil => exact .none
    | cons c rest =>
      cases c with
      | config c =>
        simp only [Mpi.State.setProc]
        rw [procsOf_build m _ h0, procsOf_build n _ rfl]
        simp only [Proc.update, build]
        show MFit (([] : List Local).map (.of 0)) m n _ _
        mfit
      | assign b => exact .none
  | configSend ix =>
    rw [not_waits (by intro h; exact h), not_waits (by intro h; exact h)]
    simp only [Mpi.masterStep]
    cases todo with
    | nil => exact absurd (by simp [masterRests]) hn
    | cons c rest =>
      cases c with
      | assign b => exact absurd (by simp [masterRests]) hn
      | config c =>
        show MFit _ m n (if ix < kinds.length then _ else _) (if ix < kinds.length then _ else _)
        by_cases hi : ix < kinds.length
        · rw [if_pos hi, if_pos hi]
          exact hsend ix _ (by simp [masterPlan, masterExtra, hi, sendPlan, reads])
            (fun x hx => hr x (by simpa [masterExtra] using hx)) ⟨_, _, _, _, _, _, _⟩ _
        · rw [if_neg hi, if_neg hi]
          exact hno _ (by simp [masterPlan, masterExtra, hi, reads]) ⟨_, _, _, _, _, _, _⟩
  | contains =>
    rw [not_waits (by intro h; exact h), not_waits (by intro h; exact h)]
    simp only [Mpi.masterStep, stateOf]
    cases todo with
    | nil => exact .none
    | cons c rest =>
      cases c with
      | config c => exact .none
      | assign b =>
        simp only [Mpi.containsStep]
        cases fileStore with
        | none => exact .ub
        | some f =>
          simp only
          split
          · exact hno _ rfl ⟨_, _, _, _, _, _, _⟩
          · split
            · exact hno _ rfl ⟨_, _, _, _, _, _, _⟩
            · exact hno _ rfl ⟨_, _, _, _, _, _, _⟩
  | take =>
    rw [not_waits (by intro h; exact h), not_waits (by intro h; exact h)]
    simp only [Mpi.masterStep, stateOf]
    cases todo with
    | nil => exact absurd (by simp [masterRests]) hn
    | cons c rest =>
      cases c with
      | config c => exact absurd (by simp [masterRests]) hn
      | assign b =>
        have hpass : ∀ (o : Bool) (T : List Var), T = reads (assignPlan 0 o (m (.of 0 .idle))) → (∀ x ∈ T, m x = n x) →
            ∀ (fs cpu ocl assigned fileStore todo) (pc : Nat → Mpi.Pc),
            MFit T m n
              ((procsOf kinds m 0).assign b o >>= fun r => .ok (some (stateOf kinds (Function.update (procsOf kinds m) 0 r.1)
                ⟨fs, cpu, ocl, assigned, fileStore, pc r.2, todo⟩)))
              ((procsOf kinds n 0).assign b o >>= fun r => .ok (some (stateOf kinds (Function.update (procsOf kinds n) 0 r.1)
                ⟨fs, cpu, ocl, assigned, fileStore, pc r.2, todo⟩))) := by
          intro o T hT hT' fs cpu ocl assigned fileStore todo pc
          have hmap : T = (assignReads o (m (.of 0 .idle))).map (.of 0) := by
            rw [hT]
            unfold assignPlan assignReads chosen
            cases (if o = true then (m (.of 0 .idle)).head? else (m (.of 0 .idle)).getLast?) <;> simp [reads]
          have h := assign_fit (sz := size kinds 0) (oc := fun i => (kinds[0]?.getD [])[i]?.getD false) b o
            (fun x => m (.of 0 x)) (fun x => n (.of 0 x)) h0 (fun x hx => hT' _ (by
              rw [hmap]
              exact List.mem_map_of_mem hx))
          rw [hmap]
          change AFit _ _ _ ((procsOf kinds m 0).assign b o) ((procsOf kinds n 0).assign b o) at h
          generalize (procsOf kinds m 0).assign b o = r at h
          generalize (procsOf kinds n 0).assign b o = r' at h
          have hw : Local.worker ∉ assignReads o (m (.of 0 .idle)) := by
            intro hx
            unfold assignReads at hx
            cases hc : chosen o (m (.of 0 .idle)) <;> simp [hc] at hx
          cases h with
          | ub => exact .ub
          | abort => exact .abort
          | ok u v t hu hu0 hu1 hu2 =>
            refine mfit_own u v _ h0 (fun h x hx => ?_) fun x hx hx' => hu2 x hx'
            rcases hx with rfl | hx
            · have h3 := hu2 .worker hw
              have h4 : ∀ h h', ofProc v h .worker = { (ofProc v h' .worker : WorkerData) with hand := h } := fun _ _ => rfl
              rw [hu0 h, h4 h (n (.of 0 .worker) : WorkerData).hand, h3]
              simp only
              rw [h0]
            · exact hu1 h x hx
        simp only [Mpi.takeStep, Mpi.passBlock]
        cases ocl with
        | cons ix q =>
          simp only
          by_cases hix : ix = 0
          · subst hix
            rw [if_pos rfl, if_pos rfl]
            have h := hpass true (reads (masterPlan kinds.length (size kinds 0)
              ⟨fs, cpu, 0 :: q, assigned, fileStore, .take, .assign b :: rest⟩ (m (.of 0 .idle))) ++
              masterExtra (size kinds 0) ⟨fs, cpu, 0 :: q, assigned, fileStore, .take, .assign b :: rest⟩)
              (by simp [masterPlan, masterExtra])
              (fun x hx => hr x (by simpa [masterExtra] using hx)) fs cpu q assigned fileStore rest (fun t => .notify t b)
            refine cast ?_ h
            congr 1
            all_goals
              generalize Proc.assign _ _ _ = r
              cases r <;> rfl
          · rw [if_neg hix, if_neg hix]
            exact hsend ix _ (by simp [masterPlan, masterExtra, hix, sendPlan, reads])
              (fun x hx => hr x (by simpa [masterExtra] using hx)) ⟨_, _, _, _, _, _, _⟩ _
        | nil =>
          cases cpu with
          | nil => exact .ub
          | cons ix q =>
            simp only
            by_cases hix : ix = 0
            · subst hix
              rw [if_pos rfl, if_pos rfl]
              have h := hpass false (reads (masterPlan kinds.length (size kinds 0)
                ⟨fs, 0 :: q, [], assigned, fileStore, .take, .assign b :: rest⟩ (m (.of 0 .idle))) ++
                masterExtra (size kinds 0) ⟨fs, 0 :: q, [], assigned, fileStore, .take, .assign b :: rest⟩)
                (by simp [masterPlan, masterExtra])
                (fun x hx => hr x (by simpa [masterExtra] using hx)) fs q [] assigned fileStore rest (fun t => .notify t b)
              refine cast ?_ h
              congr 1
              all_goals
                generalize Proc.assign _ _ _ = r
                cases r <;> rfl
            · rw [if_neg hix, if_neg hix]
              exact hsend ix _ (by simp [masterPlan, masterExtra, hix, sendPlan, reads])
                (fun x hx => hr x (by simpa [masterExtra] using hx)) ⟨_, _, _, _, _, _, _⟩ _
  | notify i b => exact absurd trivial hn
  | insert ix b =>
    rw [not_waits (by intro h; exact h), not_waits (by intro h; exact h)]
    exact hno _ rfl ⟨_, _, _, _, _, _, _⟩
  | stopSend ix =>
    rw [not_waits (by intro h; exact h), not_waits (by intro h; exact h)]
    simp only [Mpi.masterStep]
    show MFit _ m n (if ix < kinds.length then _ else _) (if ix < kinds.length then _ else _)
    by_cases hi : ix < kinds.length
    · rw [if_pos hi, if_pos hi]
      exact hsend ix _ (by simp [masterPlan, masterExtra, hi, sendPlan, reads])
        (fun x hx => hr x (by simpa [masterExtra] using hx)) ⟨_, _, _, _, _, _, _⟩ _
    · rw [if_neg hi, if_neg hi]
      exact hno _ (by simp [masterPlan, masterExtra, hi, reads]) ⟨_, _, _, _, _, _, _⟩
  | shutdown i =>
    rw [not_waits (by intro h; exact h), not_waits (by intro h; exact h)]
    simp only [Mpi.masterStep]
    show MFit _ m n (if i < size kinds 0 then _ else _) (if i < size kinds 0 then _ else _)
    by_cases hi : i < size kinds 0
    · rw [if_pos hi, if_pos hi]
      have hT : reads (masterPlan kinds.length (size kinds 0) ⟨fs, cpu, ocl, assigned, fileStore, .shutdown i, todo⟩
        (m (.of 0 .idle))) ++ masterExtra (size kinds 0) ⟨fs, cpu, ocl, assigned, fileStore, .shutdown i, todo⟩ =
          [.of 0 (.stop i)] := by simp [masterPlan, reads, masterExtra, hi]
      rw [hT]
      have key : ∀ m : Mem, ofProc ((procsOf kinds m 0).stop i) (handOf m 0) =
          Function.update (fun x => m (.of 0 x)) (.stop i) true := by
        intro m
        rw [ofProc_stop]
        congr 1
        funext x
        exact ofProc_procsOf kinds m 0 x
      exact mfit_var 0 (.stop i) _ _ true ⟨_, _, _, _, _, _, _⟩ h0 (by simp) (key m) (key n)
    · rw [if_neg hi, if_neg hi]
      exact hno _ (by simp [masterPlan, masterExtra, hi, reads]) ⟨_, _, _, _, _, _, _⟩
  | shutNotify i => exact absurd trivial hn
  | join i => exact absurd trivial hn
  | finished => exact absurd trivial hn

end MpiLocks
end Hycu
