import Verif.Lemmas.MpiLocksMaster
import Verif.Lemmas.PoolDone

/-!
The threads of `hycu-mpi` obey the laws.
-/

namespace Hycu
namespace MpiLocks

open Locks (Instr System Config reads locks Laws)
open Mpi (Proc)

variable {kinds : List (List Bool)} {env : Run.Env}

/-! ### What a section depends on and what it changes -/

/-- A process has made a step. -/
def put (kinds : List (List Bool)) (m : Mem) (ix : Nat) (r : Proc × Hand) : State :=
  ⟨(toState kinds m).base.setProc ix r.1, Function.update (toState kinds m).hand ix r.2⟩

theorem put_same (m : Mem) (ix : Nat) (r : Proc × Hand) (x : Local) : ofState (put kinds m ix r) (.of ix x) = ofProc r.1 r.2 x := by
  show ofProc (Function.update (procsOf kinds m) ix r.1 ix) (Function.update (handOf m) ix r.2 ix) x = _
  rw [Function.update_self, Function.update_self]

theorem put_other (m : Mem) (ix : Nat) (r : Proc × Hand) {k : Nat} (h : k ≠ ix) (x : Local) :
    ofState (put kinds m ix r) (.of k x) = m (.of k x) := by
  show ofProc (Function.update (procsOf kinds m) ix r.1 k) (Function.update (handOf m) ix r.2 k) x = _
  rw [Function.update_of_ne h, Function.update_of_ne h]
  exact ofProc_procsOf kinds m k x

theorem LFit.lift {a : Agent} {ix : Nat} {w : Local} {T : List Local} {m n : Mem} {r r' : Res (Option (Proc × Hand))}
    (h : LFit w T (fun x => n (.of ix x)) r r') (ha : ∀ y, guard y = .inr a ↔ y = .of ix w) :
    Fit a (T.map (.of ix)) n (r.bind fun o => .ok (o.map (put kinds m ix))) (r'.bind fun o => .ok (o.map (put kinds n ix))) := by
  cases h with
  | none => exact .none
  | ub => exact .ub
  | abort => exact .abort
  | diverge => exact .diverge
  | some u v h1 h2 =>
    refine .some _ _ (fun y hy => ?_) fun y hy hy' => ?_
    · have hx : ∃ x, y = .of ix x ∧ (x = w ∨ x ∈ T) := by
        rcases hy with hy | hy
        · exact ⟨w, (ha y).1 hy, Or.inl rfl⟩
        · obtain ⟨x, hx, rfl⟩ := List.mem_map.1 hy
          exact ⟨x, rfl, Or.inr hx⟩
      obtain ⟨x, rfl, hx⟩ := hx
      rw [put_same, put_same]
      exact h1 x hx
    · cases y with
      | master => rfl
      | of k x =>
        by_cases hk : k = ix
        · subst hk
          rw [put_same]
          refine h2 x (fun h => hy ((ha _).2 (by rw [h]))) fun h => hy' (List.mem_map_of_mem h)
        · exact put_other n ix v hk x

theorem MFit.lift {T : List Var} {m n : Mem} {r r' : Res (Option Mpi.State)} (h : MFit T m n r r') :
    Fit (.main 0) T n (r.bind fun o => .ok (o.map fun b => ⟨b, handOf m⟩)) (r'.bind fun o => .ok (o.map fun b => ⟨b, handOf n⟩)) := by
  cases h with
  | none => exact .none
  | ub => exact .ub
  | abort => exact .abort
  | diverge => exact .diverge
  | some u v h1 h2 => exact .some _ _ h1 h2

theorem step_master (m : Mem) (ch : Run.Choice) : step env (toState kinds m) (.master ch) =
    (masterStep (stateOf kinds (procsOf kinds m) (m .master)) ch).bind fun o => .ok (o.map fun b => ⟨b, handOf m⟩) := by
  unfold step masterStep
  rw [toState_eq]
  simp only
  split
  · rfl
  · rfl

theorem step_worker (m : Mem) {ix : Nat} (h0 : 0 < ix) (h : ix < kinds.length) : step env (toState kinds m) (.worker ix) =
    (workerStep (procsOf kinds m ix) (handOf m ix)).bind fun o => .ok (o.map (put kinds m ix)) := if_pos ⟨h0, h⟩

theorem step_thread (m : Mem) {ix i : Nat} (h : ix < kinds.length) (hi : i < size kinds ix) :
    step env (toState kinds m) (.thread ix i) =
    ((procsOf kinds m ix).threadStep env i |>.bind fun o => .ok (o.map fun p => (p, handOf m ix))).bind fun o =>
      .ok (o.map (put kinds m ix)) := by
  have hput : ∀ p, put kinds m ix (p, handOf m ix) = ⟨(toState kinds m).base.setProc ix p, handOf m⟩ := by
    intro p
    unfold put
    congr 1
    exact Function.update_eq_self ..
  show ((if ix < kinds.length ∧ i < size kinds ix then _ else _) >>= _) = _
  rw [if_pos ⟨h, hi⟩]
  show (((procsOf kinds m ix).threadStep env i >>= _) >>= _) = _
  cases hp : (procsOf kinds m ix).threadStep env i with
  | ok o =>
    cases o with
    | none => rfl
    | some p =>
      show Res.ok (some _) = Res.ok (some (put kinds m ix (p, handOf m ix)))
      rw [hput]
      rfl
  | _ => rfl

theorem reads_worker (ix sz : Nat) (d : WorkerData) (idle : List Nat) :
    reads (workerPlan ix sz d idle) = (workerReads d idle).map (.of ix) := by
  obtain ⟨hand, pc, serial, current, tables⟩ := d
  cases hand with
  | none => 
    cases pc <;> try rfl
    simp only [workerPlan, workerReads]
    split <;> rfl
  | got x =>
    cases x with
    | assign o b =>
      simp only [workerPlan, workerReads, assignPlan, assignReads, chosen]
      cases (if o = true then idle.head? else idle.getLast?) <;> rfl
    | _ => rfl
  | _ => rfl

theorem extra_worker (ix sz : Nat) (d : WorkerData) : workerExtra ix sz d = (workerSets sz d).map (.of ix) := by
  obtain ⟨hand, pc, serial, current, tables⟩ := d
  cases hand with
  | none =>
    cases pc <;> try rfl
    simp only [workerExtra, workerSets]
    split <;> rfl
  | _ => rfl

theorem reads_thread (ix i : Nat) (f : Run.Phase) : reads (threadPlan ix i f) = (threadReads i f).map (.of ix) := by
  cases f <;> rfl

theorem guard_worker {ix : Nat} (h : 0 < ix) (y : Var) : guard y = .inr (.main ix) ↔ y = .of ix .worker := by
  constructor
  · intro hy
    cases y with
    | master =>
      cases hy
      exact absurd h (by simp)
    | of k x =>
      cases x <;> simp [guard] at hy
      rw [hy]
  · rintro rfl
    rfl

theorem guard_thread (ix i : Nat) (y : Var) : guard y = .inr (.thread ix i) ↔ y = .of ix (.phase i) := by
  constructor
  · intro hy
    cases y with
    | master => cases hy
    | of k x =>
      cases x <;> simp [guard] at hy
      rw [hy.1, hy.2]
  · rintro rfl
    rfl

theorem act_fit (a : Agent) (ch : Run.Choice) (m n : Mem) (hn : ¬ (system kinds env).rest a m)
    (hs : (system kinds env).Same a m n) (hr : ∀ x ∈ reads ((system kinds env).plan a m), m x = n x) :
    Fit a ((system kinds env).touched a m) n (step env (toState kinds m) (label ch a)) (step env (toState kinds n) (label ch a)) := by
  match a with
  | .main 0 =>
    have e : m .master = n .master := hs .master rfl
    have h0 : m (.of 0 .worker) = n (.of 0 .worker) := hs (.of 0 .worker) rfl
    have h := (master_fit (kinds := kinds) (m .master) m n ch hn h0 hr).lift
    show Fit (.main 0) _ n (step env (toState kinds m) (.master ch)) (step env (toState kinds n) (.master ch))
    rw [step_master, step_master, ← e]
    exact h
  | .main (k + 1) =>
    have e : m (.of (k + 1) .worker) = n (.of (k + 1) .worker) := hs (.of (k + 1) .worker) rfl
    have hk : k + 1 < kinds.length := by
      by_contra hc
      exact hn (Or.inl hc)
    have hn' : ¬ workerRests (m (.of (k + 1) .worker)) := fun h => hn (Or.inr h)
    show Fit (.main (k + 1)) (reads (workerPlan _ _ _ _) ++ workerExtra _ _ _) n
      (step env (toState kinds m) (.worker (k + 1))) (step env (toState kinds n) (.worker (k + 1)))
    have hr' : ∀ x ∈ reads (workerPlan (k + 1) (size kinds (k + 1)) (m (.of (k + 1) .worker)) (m (.of (k + 1) .idle))), m x = n x := hr
    rw [step_worker m (by simp) hk, step_worker n (by simp) hk, reads_worker, extra_worker, ← List.map_append]
    refine LFit.lift ?_ (guard_worker (by simp))
    have hh : handOf n (k + 1) = (m (.of (k + 1) .worker) : WorkerData).hand := by
      unfold handOf
      rw [e]
    rw [hh]
    exact worker_lfit (m (.of (k + 1) .worker)) (fun x => m (.of (k + 1) x)) (fun x => n (.of (k + 1) x)) rfl e.symm hn' fun x hx =>
      hr' _ (by
        rw [reads_worker]
        exact List.mem_map_of_mem hx)
  | .thread ix i =>
    have e : m (.of ix (.phase i)) = n (.of ix (.phase i)) := hs (.of ix (.phase i)) rfl
    have hi : ix < kinds.length ∧ i < size kinds ix := by
      by_contra hc
      exact hn (Or.inl hc)
    have hr' : ∀ x ∈ reads (threadPlan ix i (m (.of ix (.phase i)))), m x = n x := hr
    show Fit (.thread ix i) (reads (threadPlan _ _ _) ++ []) n
      (step env (toState kinds m) (.thread ix i)) (step env (toState kinds n) (.thread ix i))
    rw [step_thread m hi.1 hi.2, step_thread n hi.1 hi.2, reads_thread, List.append_nil]
    refine LFit.lift ?_ (guard_thread ix i)
    exact thread_lfit env i (fun x => m (.of ix x)) (fun x => n (.of ix x)) e fun x hx => hr' _ (by
      rw [reads_thread]
      exact List.mem_map_of_mem hx)

theorem fit_act {a : Agent} {T : List Var} {n : Mem} {r r' : Res (Option State)} (h : Fit a T n r r') :
    (∀ s, (r.bind fun o => .ok (o.map ofState)) = .ok (some s) →
      ∃ t, (r'.bind fun o => .ok (o.map ofState)) = .ok (some t) ∧ (∀ x, guard x = .inr a → t x = s x) ∧
        (∀ x ∈ T, t x = s x) ∧ ∀ x, guard x ≠ .inr a → x ∉ T → t x = n x) ∧
    ((∀ o, (r.bind fun o => .ok (o.map ofState)) ≠ .ok o) → ∀ o, (r'.bind fun o => .ok (o.map ofState)) ≠ .ok o) := by
  cases h with
  | none => exact ⟨fun s h => (by cases h), fun h => absurd rfl (h _)⟩
  | some u v h1 h2 =>
    refine ⟨fun s h => ?_, fun h => absurd rfl (h _)⟩
    cases h
    exact ⟨_, rfl, fun x hx => h1 x (Or.inl hx), fun x hx => h1 x (Or.inr hx), h2⟩
  | _ => exact ⟨fun s h => (by cases h), fun _ o h => (by cases h)⟩

theorem act_none {r : Res (Option State)} (h : (r.bind fun o => .ok (o.map ofState)) = Res.ok none) : r = .ok none := by
  cases r with
  | ok o =>
    cases o with
    | none => rfl
    | some s => cases h
  | _ => cases h

/-! ### Plans -/

/-- The order in which mutexes are acquired. -/
def rank : Lock → Nat
  | .data _ _ => 1
  | _ => 0

/-- What is demanded of a list of instructions: variables are read while their mutexes are held, mutexes are acquired
in order; `ls` are held before. -/
def Ordered (ls : List Lock) : List (Instr Lock Var) → Prop
  | [] => True
  | .acquire l :: is => (∀ l' ∈ ls, rank l' < rank l) ∧ Ordered (ls ++ [l]) is
  | .read x :: is => (∃ l, guard x = .inl l ∧ l ∈ ls) ∧ Ordered ls is

theorem Ordered.get {is : List (Instr Lock Var)} : ∀ {ls : List Lock} {k : Nat}, Ordered ls is →
    (∀ x, is[k]? = some (.read x) → ∃ l, guard x = .inl l ∧ l ∈ ls ++ locks (is.take k)) ∧
    (∀ l, is[k]? = some (.acquire l) → ∀ l' ∈ ls ++ locks (is.take k), rank l' < rank l) := by
  induction is with
  | nil => intro ls k _; simp
  | cons i is ih =>
    intro ls k h
    cases k with
    | zero =>
      cases i with
      | acquire l =>
        refine ⟨fun x hx => by simp at hx, fun l' hl' => ?_⟩
        simp at hl'
        subst hl'
        simpa [locks] using h.1
      | read x =>
        refine ⟨fun y hy => ?_, fun l hl => by simp at hl⟩
        simp at hy
        subst hy
        simpa [locks] using h.1
    | succ k =>
      cases i with
      | acquire l =>
        have := ih (k := k) h.2
        have hl : ls ++ locks ((Instr.acquire l :: is).take (k + 1)) = ls ++ [l] ++ locks (is.take k) := by
          simp [locks]
        rw [hl]
        simpa using this
      | read x =>
        have := ih (k := k) h.2
        have hl : ls ++ locks ((Instr.read x :: is).take (k + 1)) = ls ++ locks (is.take k) := by
          simp [locks]
        rw [hl]
        simpa using this

theorem ordered_assign (ix : Nat) (o : Bool) (idle : List Nat) : Ordered [] (assignPlan ix o idle) := by
  unfold assignPlan
  cases (if o = true then idle.head? else idle.getLast?) <;> simp [Ordered, guard, rank]

theorem ordered_send (ix : Nat) : Ordered [] (sendPlan ix) := by simp [sendPlan, Ordered, guard]

theorem ordered_master (nprocs sz : Nat) (d : MasterData) (idle : List Nat) :
    Ordered (masterHeld d) (masterPlan nprocs sz d idle) := by
  obtain ⟨fs, cpu, ocl, assigned, fileStore, pc, todo⟩ := d
  cases pc with
  | take =>
    cases ocl with
    | cons ix q =>
      by_cases h : ix = 0
      · simpa [masterHeld, masterPlan, h] using ordered_assign _ _ _
      · simpa [masterHeld, masterPlan, h] using ordered_send _
    | nil =>
      cases cpu with
      | nil => simp [masterHeld, masterPlan, Ordered]
      | cons ix q =>
        by_cases h : ix = 0
        · simpa [masterHeld, masterPlan, h] using ordered_assign _ _ _
        · simpa [masterHeld, masterPlan, h] using ordered_send _
  | save k => cases fileStore <;> simp [masterHeld, masterPlan, Ordered, guard]
  | flushSend ix c => by_cases h : ix < nprocs <;> simp [masterHeld, masterPlan, h, sendPlan, Ordered, guard]
  | readySend ix => by_cases h : ix < nprocs <;> simp [masterHeld, masterPlan, h, sendPlan, Ordered, guard]
  | saveSend ix c => by_cases h : ix < nprocs <;> simp [masterHeld, masterPlan, h, sendPlan, Ordered, guard]
  | configSend ix => by_cases h : ix < nprocs <;> simp [masterHeld, masterPlan, h, sendPlan, Ordered, guard]
  | stopSend ix => by_cases h : ix < nprocs <;> simp [masterHeld, masterPlan, h, sendPlan, Ordered, guard]
  | shutdown i => by_cases h : i < sz <;> simp [masterHeld, masterPlan, h, Ordered]
  | _ => simp [masterHeld, masterPlan, Ordered, guard]

theorem ordered_worker (ix sz : Nat) (d : WorkerData) (idle : List Nat) :
    Ordered (workerHeld ix d) (workerPlan ix sz d idle) := by
  obtain ⟨hand, pc, serial, current, tables⟩ := d
  cases hand with
  | none =>
    cases pc with
    | shutdown i => by_cases h : i < sz <;> simp [workerHeld, workerPlan, h, Ordered]
    | _ => simp [workerHeld, workerPlan, Ordered, guard]
  | got x =>
    cases x with
    | assign o b => simpa [workerHeld, workerPlan] using ordered_assign _ _ _
    | _ => simp [workerHeld, workerPlan, Ordered, guard]
  | _ => simp [workerHeld, workerPlan, Ordered, guard]

theorem ordered_plan (a : Agent) (m : Mem) : Ordered ((system kinds env).held a m) ((system kinds env).plan a m) := by
  match a with
  | .main 0 => exact ordered_master _ _ _ _
  | .main (k + 1) =>
    show Ordered (if k + 1 < kinds.length then workerHeld (k + 1) (m (.of (k + 1) .worker)) else [])
      (workerPlan (k + 1) (size kinds (k + 1)) (m (.of (k + 1) .worker)) (m (.of (k + 1) .idle)))
    have h := ordered_worker (k + 1) (size kinds (k + 1)) (m (.of (k + 1) .worker)) (m (.of (k + 1) .idle))
    split
    · exact h
    · unfold workerHeld at h
      split at h
      · next e1 e2 => 
        unfold workerPlan
        rw [e1, e2]
        trivial
      · exact h
  | .thread ix i =>
    show Ordered [] (threadPlan ix i (m (.of ix (.phase i))))
    cases m (.of ix (.phase i)) <;> simp [threadPlan, Ordered, guard]

theorem assign_dep (ix : Nat) (o : Bool) (k : Nat) (m n : Mem)
    (hr : ∀ x ∈ reads ((assignPlan ix o (m (.of ix .idle))).take k), m x = n x) :
    (assignPlan ix o (m (.of ix .idle))).take (k + 1) = (assignPlan ix o (n (.of ix .idle))).take (k + 1) := by
  match k with
  | 0 => rfl
  | 1 => rfl
  | k + 2 => rw [hr (.of ix .idle) (by simp [assignPlan, reads])]

theorem reads_assign_nodup (ix : Nat) (o : Bool) (idle : List Nat) : (reads (assignPlan ix o idle)).Nodup := by
  unfold assignPlan
  cases (if o = true then idle.head? else idle.getLast?) <;> simp [reads]

/-! ### Notifications and joins -/

/-- A thread is woken up. -/
def wakeMem (m : Mem) (ix i : Nat) : Mem :=
  if (m (.of ix (.phase i)) : Run.Phase) = .sleep then Function.update m (.of ix (.phase i)) Run.Phase.check else m

/-- The master moves on. -/
def goto (m : Mem) (pc : Mpi.Pc) : Mem := Function.update m .master { (m .master : MasterData) with pc := pc }

/-- The main thread of a worker moves on. -/
def gotoWorker (m : Mem) (ix : Nat) (pc : Mpi.WorkerPc) : Mem :=
  Function.update m (.of ix .worker) { (m (.of ix .worker) : WorkerData) with pc := pc }

theorem wakeMem_shared (m : Mem) (ix i : Nat) {x : Var} {l : Lock} (h : guard x = .inl l) : wakeMem m ix i x = m x := by
  unfold wakeMem
  split
  · exact Function.update_of_ne (by rintro rfl; cases h) _ _
  · rfl

theorem goto_shared (m : Mem) (pc : Mpi.Pc) {x : Var} {l : Lock} (h : guard x = .inl l) : goto m pc x = m x :=
  Function.update_of_ne (by rintro rfl; cases h) _ _

theorem gotoWorker_shared (m : Mem) (ix : Nat) (pc : Mpi.WorkerPc) {x : Var} {l : Lock} (h : guard x = .inl l) :
    gotoWorker m ix pc x = m x :=
  Function.update_of_ne (by rintro rfl; cases h) _ _

theorem wakeMem_main (m : Mem) (ix i : Nat) {x : Var} {k : Nat} (h : guard x = .inr (.main k)) : wakeMem m ix i x = m x := by
  unfold wakeMem
  split
  · exact Function.update_of_ne (by rintro rfl; cases h) _ _
  · rfl

theorem goto_other (m : Mem) (pc : Mpi.Pc) {x : Var} {a : Agent} (h : guard x = .inr a) (ha : a ≠ .main 0) :
    goto m pc x = m x :=
  Function.update_of_ne (by rintro rfl; cases h; exact ha rfl) _ _

theorem gotoWorker_other (m : Mem) (ix : Nat) (pc : Mpi.WorkerPc) {x : Var} {a : Agent} (h : guard x = .inr a)
    (ha : a ≠ .main ix) : gotoWorker m ix pc x = m x :=
  Function.update_of_ne (by rintro rfl; cases h; exact ha rfl) _ _

theorem goto_master (m : Mem) (pc : Mpi.Pc) : goto m pc .master = { (m .master : MasterData) with pc := pc } :=
  Function.update_self ..

theorem gotoWorker_worker (m : Mem) (ix : Nat) (pc : Mpi.WorkerPc) :
    gotoWorker m ix pc (.of ix .worker) = { (m (.of ix .worker) : WorkerData) with pc := pc } :=
  Function.update_self ..

theorem wakeMem_phase (m : Mem) (ix i jx j : Nat) : wakeMem m ix i (.of jx (.phase j)) = m (.of jx (.phase j)) ∨
    (m (.of jx (.phase j)) : Run.Phase) = .sleep := by
  unfold wakeMem
  split
  · next h =>
    by_cases e : jx = ix ∧ j = i
    · obtain ⟨rfl, rfl⟩ := e
      exact Or.inr h
    · exact Or.inl (Function.update_of_ne (by simpa using e) _ _)
  · exact Or.inl rfl

/-- Private variables agree. -/
def Private (m n : Mem) : Prop := ∀ x b, guard x = .inr b → m x = n x

theorem Private.wake {m n : Mem} (h : Private m n) (ix i : Nat) : Private (wakeMem m ix i) (wakeMem n ix i) := by
  intro x b hx
  have e := h (.of ix (.phase i)) (.thread ix i) rfl
  unfold wakeMem
  rw [e]
  split
  · by_cases hi : x = .of ix (.phase i)
    · subst hi
      rw [Function.update_self, Function.update_self]
    · rw [Function.update_of_ne hi, Function.update_of_ne hi]
      exact h x b hx
  · exact h x b hx

theorem Private.goto {m n : Mem} (h : Private m n) (pc : Mpi.Pc) : Private (goto m pc) (goto n pc) := by
  intro x b hx
  by_cases hi : x = .master
  · subst hi
    rw [goto_master, goto_master, h .master (.main 0) rfl]
  · unfold MpiLocks.goto
    rw [Function.update_of_ne hi, Function.update_of_ne hi]
    exact h x b hx

theorem Private.gotoWorker {m n : Mem} (h : Private m n) (ix : Nat) (pc : Mpi.WorkerPc) :
    Private (gotoWorker m ix pc) (gotoWorker n ix pc) := by
  intro x b hx
  by_cases hi : x = .of ix .worker
  · subst hi
    rw [gotoWorker_worker, gotoWorker_worker, h (.of ix .worker) (.main ix) rfl]
  · unfold MpiLocks.gotoWorker
    rw [Function.update_of_ne hi, Function.update_of_ne hi]
    exact h x b hx

theorem Private.eq {t u n : Mem} (h : Private t u) (ht : ∀ x l, guard x = .inl l → t x = n x)
    (hu : ∀ x l, guard x = .inl l → u x = n x) : t = u := by
  funext x
  cases hx : guard x with
  | inl l => rw [ht x l hx, hu x l hx]
  | inr b => exact h x b hx

theorem ofProc_wake (kinds : List (List Bool)) (m : Mem) (ix i : Nat) (x : Local) :
    ofProc ((procsOf kinds m ix).wake i) (handOf m ix) x = wakeMem m ix i (.of ix x) := by
  unfold Proc.wake wakeMem
  show ofProc (if (m (.of ix (.phase i)) : Run.Phase) = .sleep then _ else _) _ _ = _
  split
  · rw [ofProc_phase]
    by_cases h : x = .phase i
    · subst h
      rw [Function.update_self, Function.update_self]
    · rw [Function.update_of_ne h, Function.update_of_ne (by simpa using h)]
      exact ofProc_procsOf kinds m ix x
  · exact ofProc_procsOf kinds m ix x

theorem wakeMem_proc (m : Mem) (ix i : Nat) {k : Nat} (h : k ≠ ix) (x : Local) : wakeMem m ix i (.of k x) = m (.of k x) := by
  unfold wakeMem
  split
  · exact Function.update_of_ne (by simp [h]) _ _
  · rfl

theorem wakeMem_master (m : Mem) (ix i : Nat) : wakeMem m ix i .master = m .master := wakeMem_main m ix i (k := 0) rfl

/-- The master has notified a thread. -/
theorem ofState_notify (m : Mem) (i : Nat) (pc : Mpi.Pc) :
    ofState ⟨{ (toState kinds m).base.setProc 0 ((procsOf kinds m 0).wake i) with pc := pc }, handOf m⟩ =
      goto (wakeMem m 0 i) pc := by
  funext y
  unfold goto
  cases y with
  | master =>
    rw [Function.update_self, wakeMem_master]
    rfl
  | of k x =>
    rw [Function.update_of_ne (by simp)]
    show ofProc (Function.update (procsOf kinds m) 0 ((procsOf kinds m 0).wake i) k) (handOf m k) x = _
    by_cases hk : k = 0
    · subst hk
      rw [Function.update_self, ofProc_wake]
    · rw [Function.update_of_ne hk, wakeMem_proc m 0 i hk]
      exact ofProc_procsOf kinds m k x

theorem ofState_goto (m : Mem) (pc : Mpi.Pc) : ofState ⟨{ (toState kinds m).base with pc := pc }, handOf m⟩ = goto m pc := by
  funext y
  unfold goto
  cases y with
  | master => rw [Function.update_self]; rfl
  | of k x =>
    rw [Function.update_of_ne (by simp)]
    exact ofProc_procsOf kinds m k x

/-- A worker has notified a thread. -/
theorem ofState_put_wake (m : Mem) (ix i : Nat) (pc : Mpi.WorkerPc) :
    ofState (put kinds m ix ({ (procsOf kinds m ix).wake i with pc := pc }, handOf m ix)) =
      gotoWorker (wakeMem m ix i) ix pc := by
  funext y
  unfold gotoWorker
  cases y with
  | master =>
    rw [Function.update_of_ne (by simp), wakeMem_master]
    rfl
  | of k x =>
    by_cases hk : k = ix
    · subst hk
      rw [put_same]
      by_cases hx : x = .worker
      · subst hx
        rw [Function.update_self, ← ofProc_wake kinds]
        rfl
      · rw [Function.update_of_ne (by simpa using hx), ← ofProc_wake kinds]
        cases x <;> first | rfl | exact absurd rfl hx
    · rw [put_other _ _ _ hk, Function.update_of_ne (by simp [hk]), wakeMem_proc _ _ _ hk]

theorem ofState_put_goto (m : Mem) (ix : Nat) (pc : Mpi.WorkerPc) :
    ofState (put kinds m ix ({ procsOf kinds m ix with pc := pc }, handOf m ix)) = gotoWorker m ix pc := by
  funext y
  unfold gotoWorker
  cases y with
  | master =>
    rw [Function.update_of_ne (by simp)]
    rfl
  | of k x =>
    by_cases hk : k = ix
    · subst hk
      rw [put_same]
      by_cases hx : x = .worker
      · subst hx
        rw [Function.update_self, ← ofProc_procsOf kinds m]
        rfl
      · rw [Function.update_of_ne (by simpa using hx), ← ofProc_procsOf kinds m]
        cases x <;> first | rfl | exact absurd rfl hx
    · rw [put_other _ _ _ hk, Function.update_of_ne (by simp [hk])]

/-- Notifications and joins of the master. -/
theorem sync_master_iff {m s : Mem} : Sync kinds env (.main 0) m s ↔
    (∃ i b, (m .master : MasterData).pc = .notify i b ∧ s = goto (wakeMem m 0 i) (.insert 0 b)) ∨
    (∃ i, (m .master : MasterData).pc = .shutNotify i ∧ s = goto (wakeMem m 0 i) (.join i)) ∨
    (∃ i, (m .master : MasterData).pc = .join i ∧ (m (.of 0 (.phase i)) : Run.Phase) = .done ∧ s = goto m (.shutdown (i + 1))) := by
  have hstep : ∀ ch, step env (toState kinds m) (.master ch) =
    (masterStep (stateOf kinds (procsOf kinds m) (m .master)) ch).bind fun o => .ok (o.map fun b => ⟨b, handOf m⟩) :=
      fun ch => step_master m ch
  have hno : ∀ i b, (m .master : MasterData).pc = .notify i b → ∀ ch, step env (toState kinds m) (.master ch) =
      .ok (some ⟨{ (toState kinds m).base.setProc 0 ((procsOf kinds m 0).wake i) with pc := .insert 0 b }, handOf m⟩) := by
    intro i b h ch
    have h' : (stateOf kinds (procsOf kinds m) (m .master)).pc = .notify i b := h
    rw [hstep, not_waits (by unfold Waits; rw [h']; exact id)]
    unfold Mpi.masterStep
    rw [h']
    rfl
  have hsh : ∀ i, (m .master : MasterData).pc = .shutNotify i → ∀ ch, step env (toState kinds m) (.master ch) =
      .ok (some ⟨{ (toState kinds m).base.setProc 0 ((procsOf kinds m 0).wake i) with pc := .join i }, handOf m⟩) := by
    intro i h ch
    have h' : (stateOf kinds (procsOf kinds m) (m .master)).pc = .shutNotify i := h
    rw [hstep, not_waits (by unfold Waits; rw [h']; exact id)]
    unfold Mpi.masterStep
    rw [h']
    rfl
  have hjo : ∀ i, (m .master : MasterData).pc = .join i → ∀ ch, step env (toState kinds m) (.master ch) =
      if (m (.of 0 (.phase i)) : Run.Phase) = .done then
        .ok (some ⟨{ (toState kinds m).base with pc := .shutdown (i + 1) }, handOf m⟩) else .ok none := by
    intro i h ch
    have h' : (stateOf kinds (procsOf kinds m) (m .master)).pc = .join i := h
    rw [hstep, not_waits (by unfold Waits; rw [h']; exact id)]
    unfold Mpi.masterStep
    rw [h']
    show Res.bind (if (m (.of 0 (.phase i)) : Run.Phase) = .done then _ else _) _ = _
    split <;> rfl
  constructor
  · intro h
    cases h with
    | master _ ch st h hs =>
      obtain ⟨i, b, h | h | h⟩ := h
      · left
        rw [hno i b h] at hs
        cases hs
        exact ⟨i, b, h, ofState_notify m i _⟩
      · right; left
        rw [hsh i h] at hs
        cases hs
        exact ⟨i, h, ofState_notify m i _⟩
      · right; right
        rw [hjo i h] at hs
        split at hs
        · next hd =>
          cases hs
          exact ⟨i, h, hd, ofState_goto m _⟩
        · cases hs
    | worker _ _ st hh h hs => cases hs
  · have ch : Run.Choice := ⟨false, false, 0⟩
    rintro (⟨i, b, hp, rfl⟩ | ⟨i, hp, rfl⟩ | ⟨i, hp, hd, rfl⟩)
    · rw [← ofState_notify (kinds := kinds)]
      exact .master m ch _ ⟨i, b, Or.inl hp⟩ (hno i b hp ch)
    · rw [← ofState_notify (kinds := kinds)]
      exact .master m ch _ ⟨i, default, Or.inr (Or.inl hp)⟩ (hsh i hp ch)
    · rw [← ofState_goto (kinds := kinds)]
      exact .master m ch _ ⟨i, default, Or.inr (Or.inr hp)⟩ ((hjo i hp ch).trans (if_pos hd))

/-- Notifications and joins of a worker. -/
theorem sync_worker_iff {m s : Mem} {ix : Nat} (h0 : 0 < ix) : Sync kinds env (.main ix) m s ↔
    ix < kinds.length ∧ (m (.of ix .worker) : WorkerData).hand = .none ∧
    ((∃ i, (m (.of ix .worker) : WorkerData).pc = .notify i ∧ s = gotoWorker (wakeMem m ix i) ix .probe) ∨
    (∃ i, (m (.of ix .worker) : WorkerData).pc = .shutNotify i ∧ s = gotoWorker (wakeMem m ix i) ix (.join i)) ∨
    (∃ i, (m (.of ix .worker) : WorkerData).pc = .join i ∧ (m (.of ix (.phase i)) : Run.Phase) = .done ∧
      s = gotoWorker m ix (.shutdown (i + 1)))) := by
  have hno : ix < kinds.length → handOf m ix = .none → ∀ i, (m (.of ix .worker) : WorkerData).pc = .notify i →
      step env (toState kinds m) (.worker ix) =
      .ok (some (put kinds m ix ({ (procsOf kinds m ix).wake i with pc := .probe }, handOf m ix))) := by
    intro hx hh i h
    have h' : (procsOf kinds m ix).pc = .notify i := h
    rw [step_worker m h0 hx, hh]
    unfold workerStep Proc.workerStep
    simp only [h']
    rfl
  have hsh : ix < kinds.length → handOf m ix = .none → ∀ i, (m (.of ix .worker) : WorkerData).pc = .shutNotify i →
      step env (toState kinds m) (.worker ix) =
      .ok (some (put kinds m ix ({ (procsOf kinds m ix).wake i with pc := .join i }, handOf m ix))) := by
    intro hx hh i h
    have h' : (procsOf kinds m ix).pc = .shutNotify i := h
    rw [step_worker m h0 hx, hh]
    unfold workerStep Proc.workerStep
    simp only [h']
    rfl
  have hjo : ix < kinds.length → handOf m ix = .none → ∀ i, (m (.of ix .worker) : WorkerData).pc = .join i →
      step env (toState kinds m) (.worker ix) = if (m (.of ix (.phase i)) : Run.Phase) = .done then
      .ok (some (put kinds m ix ({ procsOf kinds m ix with pc := .shutdown (i + 1) }, handOf m ix))) else .ok none := by
    intro hx hh i h
    have h' : (procsOf kinds m ix).pc = .join i := h
    rw [step_worker m h0 hx, hh]
    unfold workerStep Proc.workerStep
    simp only [h']
    show Res.bind (Res.bind (if (m (.of ix (.phase i)) : Run.Phase) = .done then _ else _) _) _ = _
    split <;> rfl
  constructor
  · intro h
    cases h with
    | master _ ch st h hs => exact absurd h0 (by simp)
    | worker _ _ st hh h hs =>
      have hx : ix < kinds.length := by
        by_contra hc
        have : step env (toState kinds m) (.worker ix) = .ok none := if_neg fun h => hc h.2
        rw [this] at hs
        cases hs
      refine ⟨hx, hh, ?_⟩
      obtain ⟨i, h | h | h⟩ := h
      · left
        rw [hno hx hh i h] at hs
        cases hs
        exact ⟨i, h, ofState_put_wake m ix i _⟩
      · right; left
        rw [hsh hx hh i h] at hs
        cases hs
        exact ⟨i, h, ofState_put_wake m ix i _⟩
      · right; right
        rw [hjo hx hh i h] at hs
        split at hs
        · next hd =>
          cases hs
          exact ⟨i, h, hd, ofState_put_goto m ix _⟩
        · cases hs
  · rintro ⟨hx, hh, ⟨i, hp, rfl⟩ | ⟨i, hp, rfl⟩ | ⟨i, hp, hd, rfl⟩⟩
    · rw [← ofState_put_wake (kinds := kinds)]
      exact .worker ix m _ hh ⟨i, Or.inl hp⟩ (hno hx hh i hp)
    · rw [← ofState_put_wake (kinds := kinds)]
      exact .worker ix m _ hh ⟨i, Or.inr (Or.inl hp)⟩ (hsh hx hh i hp)
    · rw [← ofState_put_goto (kinds := kinds)]
      exact .worker ix m _ hh ⟨i, Or.inr (Or.inr hp)⟩ ((hjo hx hh i hp).trans (if_pos hd))

theorem sync_thread_iff {m s : Mem} {ix i : Nat} : Sync kinds env (.thread ix i) m s ↔
    (ix < kinds.length ∧ i < size kinds ix ∧ (m (.of ix (.phase i)) : Run.Phase) = .sleep) ∧ s = wakeMem m ix i := by
  have hst : ∀ (r : Mpi.State), r = (toState kinds m).base.setProc ix ((procsOf kinds m ix).wake i) →
      ofState ⟨r, handOf m⟩ = wakeMem m ix i := by
    rintro _ rfl
    funext y
    cases y with
    | master => rw [wakeMem_master]; rfl
    | of k x =>
      show ofProc (Function.update (procsOf kinds m) ix ((procsOf kinds m ix).wake i) k) (handOf m k) x = _
      by_cases hk : k = ix
      · subst hk
        rw [Function.update_self, ofProc_wake]
      · rw [Function.update_of_ne hk, wakeMem_proc m ix i hk]
        exact ofProc_procsOf kinds m k x
  have hs : step env (toState kinds m) (.spurious ix i) =
      if ix < kinds.length ∧ i < size kinds ix ∧ (m (.of ix (.phase i)) : Run.Phase) = .sleep then
        .ok (some ⟨(toState kinds m).base.setProc ix ((procsOf kinds m ix).wake i), handOf m⟩) else .ok none := by
    show Res.bind (if ix < kinds.length ∧ i < size kinds ix ∧ (m (.of ix (.phase i)) : Run.Phase) = .sleep then _ else _) _ = _
    split <;> rfl
  constructor
  · intro h
    cases h with
    | spurious _ _ _ st h =>
      rw [hs] at h
      split at h
      · next hc =>
        cases h
        exact ⟨hc, hst _ rfl⟩
      · cases h
  · rintro ⟨h, rfl⟩
    rw [← hst _ rfl]
    refine .spurious m ix i _ ?_
    rw [hs, if_pos h]

/-! ### The laws -/

/-- Only `ThreadPool::assign` keeps a mutex. -/
theorem notify_from {st st' : Mpi.State} {ch : Run.Choice} (h : masterStep st ch = .ok (some st')) {i : Nat}
    {b : Block} (hp : st'.pc = .notify i b) :
    st.pc = .take ∧ ((∃ q, st.openclQueue = 0 :: q) ∨ st.openclQueue = [] ∧ ∃ q, st.cpuQueue = 0 :: q) := by
  by_cases hw : Waits st
  · rw [waits hw] at h
    cases h
    unfold Waits at hw
    rw [hp] at hw
    exact hw.elim
  rw [not_waits hw] at h
  have after : ∀ k, Mpi.afterSave k ≠ .notify i b := fun k => by cases k <;> simp [Mpi.afterSave]
  have after' : ∀ k, Mpi.afterFlush k ≠ .notify i b := fun k => by cases k <;> simp [Mpi.afterFlush]
  have hsave : ∀ st f id s ix k, Mpi.fileSave st f id s ix k = some st' → False := by
    intro st f id s ix k h
    unfold Mpi.fileSave at h
    split at h
    · split at h
      · cases h
        cases hp
      · split at h
        · cases h
          cases hp
        · cases h
    · cases h
      cases hp
  have hpass : ∀ st ix b' o, Mpi.passBlock st ix b' o = .ok st' → ix = 0 := by
    intro st ix b' o h
    unfold Mpi.passBlock at h
    split at h
    · assumption
    · cases h
      cases hp
  unfold Mpi.masterStep at h
  split at h
  · have hs := Run.some_map_ok h
    unfold Mpi.mainStep at hs
    split at hs
    · cases hs
      cases hp
    · obtain ⟨v, -, hv⟩ := Res.bind_eq_ok.1 hs
      cases hv
      simp only at hp
      split at hp <;> cases hp
    · cases hs
      simp only at hp
      split at hp <;> cases hp
  · obtain ⟨s, -, hs⟩ := Res.bind_eq_ok.1 (Run.some_map_ok h)
    cases hs
    cases hp
  · split at h
    · cases h
      cases hp
    · cases h
      exact absurd hp (after' _)
  · unfold Mpi.flushRecvStep at h
    split at h
    · cases h
    · obtain ⟨s, -, hs⟩ := Res.bind_eq_ok.1 h
      cases hs
      cases hp
  · cases h
    unfold Mpi.waitedStep at hp
    simp only at hp
    split at hp <;> cases hp
  · cases h
    cases hp
  · split at h <;> cases h <;> cases hp
  · have h' := Res.ok.inj h
    unfold Mpi.readyRecvStep at h'
    split at h'
    · cases h'
    · cases h'
      cases hp
  · cases h
    simp only at hp
    split at hp <;> cases hp
  · have h' := Res.ok.inj h
    unfold Mpi.saveStep at h'
    split at h'
    · cases h'
      exact absurd hp (after _)
    · exact (hsave _ _ _ _ _ _ h').elim
  · split at h
    · cases h
      cases hp
    · cases h
      exact absurd hp (after _)
  · unfold Mpi.saveRecvStep at h
    split at h
    · cases h
    · split at h
      · cases h
      · exact (hsave _ _ _ _ _ _ (Res.ok.inj h)).elim
  · cases h
    cases hp
  · cases h
    unfold Mpi.writeStep at hp
    split at hp
    · cases hp
    · split at hp <;> cases hp
  · split at h
    · have hs := Run.some_map_ok h
      unfold Mpi.newStoreStep at hs
      split at hs
      · cases hs
        cases hp
      · obtain ⟨v, -, hv⟩ := Res.bind_eq_ok.1 hs
        cases hv
        cases hp
    · cases h
  · split at h
    · cases h
      cases hp
    · cases h
  · split at h
    · split at h <;> cases h <;> cases hp
    · cases h
  · split at h
    · have hs := Run.some_map_ok h
      unfold Mpi.containsStep at hs
      split at hs
      · cases hs
      · split at hs
        · cases hs
          cases hp
        · split at hs <;> cases hs <;> cases hp
    · cases h
  · next hpc =>
    refine ⟨hpc, ?_⟩
    split at h
    · have hs := Run.some_map_ok h
      unfold Mpi.takeStep at hs
      split at hs
      · next ix q ho =>
        have := hpass _ _ _ _ hs
        subst this
        exact Or.inl ⟨q, ho⟩
      · next ho =>
        split at hs
        · next ix q hc =>
          have := hpass _ _ _ _ hs
          subst this
          exact Or.inr ⟨ho, q, hc⟩
        · cases hs
    · cases h
  · cases h
    cases hp
  · cases h
    cases hp
  · split at h <;> cases h <;> cases hp
  · split at h <;> cases h <;> cases hp
  · cases h
    cases hp
  · split at h
    · cases h
      cases hp
    · cases h
  · cases h

theorem worker_notify_from {p p' : Proc} {h : Hand} (hs : workerStep p h = .ok (some (p', .none))) {i : Nat}
    (hp : p'.pc = .notify i) : ∃ o b, h = .got (.assign o b) := by
  cases h with
  | none =>
    unfold workerStep at hs
    simp only at hs
    split at hs
    · next h =>
      split at hs
      · cases hs
        rw [h] at hp
        cases hp
      · cases hs
    · obtain ⟨o, ho, hs⟩ := Res.bind_eq_ok.1 hs
      cases o with
      | none => cases hs
      | some q =>
        cases hs
        unfold Proc.workerStep at ho
        split at ho
        · next h1 _ h2 => exact absurd h2 h1
        · cases ho
          cases hp
        · split at ho <;> cases ho <;> cases hp
        · cases ho
          cases hp
        · split at ho
          · cases ho
            cases hp
          · cases ho
        · cases ho
  | got x =>
    cases x with
    | assign o b => exact ⟨o, b, rfl⟩
    | config c =>
      cases hs
      cases hp
    | shutdown =>
      cases hs
      cases hp
    | _ => cases hs
  | _ =>
    cases hs
    cases hp

/-- The master can do something unless it rests. -/
theorem master_awake (st : Mpi.State) (d : MasterData) (hd : d.pc = st.pc) (ht : d.todo = st.todo) (h : ¬ masterRests d) :
    ∃ ch, ch.create = true ∧ masterStep st ch ≠ .ok none := by
  obtain ⟨id, hid⟩ : ∃ id, ∀ f, st.fileStore = some f → ∀ dir, st.fs f.config.resultPath = some dir →
      FileStore.fresh dir id = true := by
    by_cases hf : ∃ f dir, st.fileStore = some f ∧ st.fs f.config.resultPath = some dir
    · obtain ⟨f, dir, h1, h2⟩ := hf
      obtain ⟨id, hid⟩ := Run.exists_fresh dir
      refine ⟨id, fun f' h1' dir' h2' => ?_⟩
      rw [h1] at h1'
      cases h1'
      rw [h2] at h2'
      cases h2'
      exact hid
    · exact ⟨0, fun f h1 dir h2 => absurd ⟨f, dir, h1, h2⟩ hf⟩
  refine ⟨⟨false, true, id⟩, rfl, fun hs => ?_⟩
  by_cases hw : Waits st
  · rw [waits hw] at hs
    cases hs
  rw [not_waits hw] at hs
  have hsave : ∀ (st' : Mpi.State) f s ix k, st'.fs = st.fs → st.fileStore = some f →
      Mpi.fileSave st' f id s ix k = none → False := by
    intro st' f s ix k h1 h2 h
    unfold Mpi.fileSave at h
    rw [h1] at h
    split at h
    · split at h
      · cases h
      · next dir hdir =>
        rw [if_pos (hid f h2 dir hdir)] at h
        cases h
    · cases h
  unfold Waits at hw
  unfold masterRests at h
  rw [hd, ht] at h
  unfold Mpi.masterStep at hs
  split at hs
  · exact Run.some_map_ne hs
  · exact Run.some_map_ne hs
  · split at hs <;> cases hs
  · next hpc =>
    rw [hpc] at hw
    unfold Mpi.flushRecvStep at hs
    split at hs
    · exact hw ‹_›
    · obtain ⟨_, _, hs⟩ := Res.bind_eq_ok.1 hs
      cases hs
  · cases hs
  · cases hs
  · split at hs <;> cases hs
  · next hpc =>
    rw [hpc] at hw
    have hs := Res.ok.inj hs
    unfold Mpi.readyRecvStep at hs
    split at hs
    · exact hw ‹_›
    · cases hs
  · cases hs
  · have hs := Res.ok.inj hs
    unfold Mpi.saveStep at hs
    split at hs
    · cases hs
    · next f hf => exact hsave _ f _ _ _ (by rfl) hf hs
  · split at hs <;> cases hs
  · next hpc =>
    rw [hpc] at hw
    unfold Mpi.saveRecvStep at hs
    split at hs
    · exact hw ‹_›
    · split at hs
      · cases hs
      · next f hf => exact hsave _ f _ _ _ (by rfl) hf (Res.ok.inj hs)
  · cases hs
  · cases hs
  · next hpc =>
    rw [hpc] at h
    simp only [not_not] at h
    obtain ⟨c, rest, ht⟩ := h
    rw [ht] at hs
    exact Run.some_map_ne hs
  · next hpc =>
    rw [hpc] at h
    simp only [not_not] at h
    obtain ⟨c, rest, ht⟩ := h
    rw [ht] at hs
    cases hs
  · next hpc =>
    rw [hpc] at h
    simp only [not_not] at h
    obtain ⟨c, rest, ht⟩ := h
    rw [ht] at hs
    simp only at hs
    split at hs <;> cases hs
  · next hpc =>
    rw [hpc] at h
    simp only [not_not] at h
    obtain ⟨c, rest, ht⟩ := h
    rw [ht] at hs
    exact Run.some_map_ne hs
  · next hpc =>
    rw [hpc] at h
    simp only [not_not] at h
    obtain ⟨c, rest, ht⟩ := h
    rw [ht] at hs
    exact Run.some_map_ne hs
  · next hpc => rw [hpc] at h; exact h trivial
  · cases hs
  · split at hs <;> cases hs
  · split at hs <;> cases hs
  · next hpc => rw [hpc] at h; exact h trivial
  · next hpc => rw [hpc] at h; exact h trivial
  · next hpc => rw [hpc] at h; exact h trivial

/-- The main thread of a worker can do something unless it rests. -/
theorem worker_awake (p : Proc) (d : WorkerData) (hd : d.pc = p.pc) (h : ¬ workerRests d) :
    workerStep p d.hand ≠ .ok none := by
  intro hs
  unfold workerRests at h
  cases hh : d.hand with
  | none =>
    rw [hh, hd] at h
    rw [hh] at hs
    unfold workerStep at hs
    simp only at hs
    split at hs
    · split at hs <;> cases hs
    · next hne =>
      obtain ⟨o, ho, hs⟩ := Res.bind_eq_ok.1 hs
      cases o with
      | some q => cases hs
      | none =>
        unfold Proc.workerStep at ho
        split at ho
        · next h2 => exact hne h2
        · cases ho
        · split at ho <;> cases ho
        · cases ho
        · next hpc => rw [hpc] at h; exact h trivial
        · next hpc => rw [hpc] at h; exact h trivial
  | got x =>
    rw [hh] at hs
    cases x with
    | assign o b =>
      obtain ⟨_, _, hs⟩ := Res.bind_eq_ok.1 hs
      cases hs
    | _ => cases hs
  | _ =>
    rw [hh] at hs
    cases hs

/-- A thread can do something unless it waits or has ended. -/
theorem thread_awake (p : Proc) (i : Nat) (h1 : (p.thr i).phase ≠ .sleep) (h2 : (p.thr i).phase ≠ .done) :
    p.threadStep env i ≠ .ok none := by
  intro hs
  unfold Proc.threadStep at hs
  simp only at hs
  split at hs
  · split at hs
    · cases hs
    · split at hs <;> cases hs
  · cases hs
  · next h => exact h1 h
  · split at hs <;> cases hs
  · split at hs
    · cases hs
    · obtain ⟨_, _, hs⟩ := Res.bind_eq_ok.1 hs
      obtain ⟨_, _, hs⟩ := Res.bind_eq_ok.1 hs
      cases hs
  · obtain ⟨_, _, hs⟩ := Res.bind_eq_ok.1 hs
    cases hs
  · next h => exact h2 h

theorem same_master {m n : Mem} (h : (system kinds env).Same (.main 0) m n) : m .master = n .master := h .master rfl

theorem same_worker {m n : Mem} {ix : Nat} (h : (system kinds env).Same (.main ix) m n) :
    m (.of ix .worker) = n (.of ix .worker) := h (.of ix .worker) rfl

theorem same_thread {m n : Mem} {ix i : Nat} (h : (system kinds env).Same (.thread ix i) m n) :
    m (.of ix (.phase i)) = n (.of ix (.phase i)) := h (.of ix (.phase i)) rfl

theorem master_dep (nprocs sz : Nat) (d : MasterData) (k : Nat) (m n : Mem)
    (hr : ∀ x ∈ reads ((masterPlan nprocs sz d (m (.of 0 .idle))).take k), m x = n x) :
    (masterPlan nprocs sz d (m (.of 0 .idle))).take (k + 1) = (masterPlan nprocs sz d (n (.of 0 .idle))).take (k + 1) := by
  obtain ⟨fs, cpu, ocl, assigned, fileStore, pc, todo⟩ := d
  cases pc with
  | take =>
    cases ocl with
    | cons ix q =>
      by_cases h : ix = 0
      · simp only [masterPlan, if_pos h] at hr ⊢
        exact assign_dep _ _ _ _ _ hr
      · simp only [masterPlan, if_neg h]
    | nil =>
      cases cpu with
      | nil => rfl
      | cons ix q =>
        by_cases h : ix = 0
        · simp only [masterPlan, if_pos h] at hr ⊢
          exact assign_dep _ _ _ _ _ hr
        · simp only [masterPlan, if_neg h]
  | _ => rfl

theorem worker_dep (ix sz : Nat) (d : WorkerData) (k : Nat) (m n : Mem)
    (hr : ∀ x ∈ reads ((workerPlan ix sz d (m (.of ix .idle))).take k), m x = n x) :
    (workerPlan ix sz d (m (.of ix .idle))).take (k + 1) = (workerPlan ix sz d (n (.of ix .idle))).take (k + 1) := by
  obtain ⟨hand, pc, serial, current, tables⟩ := d
  cases hand with
  | got x =>
    cases x with
    | assign o b => exact assign_dep _ _ _ _ _ hr
    | _ => rfl
  | _ => rfl

theorem master_nodup (nprocs sz : Nat) (d : MasterData) (idle : List Nat) : (reads (masterPlan nprocs sz d idle)).Nodup := by
  have hs : ∀ ix, (reads (sendPlan ix)).Nodup := fun ix => by simp [sendPlan, reads]
  obtain ⟨fs, cpu, ocl, assigned, fileStore, pc, todo⟩ := d
  cases pc with
  | take =>
    cases ocl with
    | cons ix q =>
      simp only [masterPlan]
      split
      · exact reads_assign_nodup _ _ _
      · exact hs _
    | nil =>
      cases cpu with
      | nil => simp [masterPlan, reads]
      | cons ix q =>
        simp only [masterPlan]
        split
        · exact reads_assign_nodup _ _ _
        · exact hs _
  | save k => cases fileStore <;> simp [masterPlan, reads]
  | flushSend ix c => by_cases h : ix < nprocs <;> simp [masterPlan, h, sendPlan, reads]
  | readySend ix => by_cases h : ix < nprocs <;> simp [masterPlan, h, sendPlan, reads]
  | saveSend ix c => by_cases h : ix < nprocs <;> simp [masterPlan, h, sendPlan, reads]
  | configSend ix => by_cases h : ix < nprocs <;> simp [masterPlan, h, sendPlan, reads]
  | stopSend ix => by_cases h : ix < nprocs <;> simp [masterPlan, h, sendPlan, reads]
  | shutdown i => by_cases h : i < sz <;> simp [masterPlan, h, reads]
  | _ => simp [masterPlan, reads]

theorem worker_nodup (ix sz : Nat) (d : WorkerData) (idle : List Nat) : (reads (workerPlan ix sz d idle)).Nodup := by
  obtain ⟨hand, pc, serial, current, tables⟩ := d
  cases hand with
  | none =>
    cases pc with
    | shutdown i => by_cases h : i < sz <;> simp [workerPlan, h, reads]
    | _ => simp [workerPlan, reads]
  | got x =>
    cases x with
    | assign o b => exact reads_assign_nodup _ _ _
    | _ => simp [workerPlan, reads]
  | _ => simp [workerPlan, reads]

/-- A thread that does not rest can do something; directories can be created. -/
theorem awake_create (kinds : List (List Bool)) (env : Run.Env) (a : Agent) (m : Mem) (h : ¬ (system kinds env).rest a m) :
    ∃ ch : Run.Choice, ch.create = true ∧ (system kinds env).act a ch m ≠ .ok none := by
  match a with
  | .main 0 =>
    obtain ⟨ch, hx, hc⟩ := master_awake (stateOf kinds (procsOf kinds m) (m .master)) (m .master) rfl rfl h
    refine ⟨ch, hx, fun e => hc ?_⟩
    have e' : step env (toState kinds m) (.master ch) = .ok none := act_none e
    rw [step_master] at e'
    obtain ⟨b, h3, h4⟩ := Res.bind_eq_ok.1 e'
    cases b with
    | none => exact h3
    | some st => cases h4
  | .main (j + 1) =>
    have h' : ¬ (¬ j + 1 < kinds.length ∨ workerRests (m (.of (j + 1) .worker))) := h
    simp only [not_or, not_not] at h'
    refine ⟨⟨false, true, 0⟩, rfl, fun e => ?_⟩
    have e' : step env (toState kinds m) (.worker (j + 1)) = .ok none := act_none e
    rw [step_worker m (by simp) h'.1] at e'
    obtain ⟨b, h3, h4⟩ := Res.bind_eq_ok.1 e'
    cases b with
    | none => exact worker_awake (procsOf kinds m (j + 1)) (m (.of (j + 1) .worker)) rfl h'.2 h3
    | some st => cases h4
  | .thread ix i =>
    have h' : ¬ (¬ (ix < kinds.length ∧ i < size kinds ix) ∨ (m (.of ix (.phase i)) : Run.Phase) = .sleep ∨
      (m (.of ix (.phase i)) : Run.Phase) = .done) := h
    simp only [not_or, not_not] at h'
    refine ⟨⟨false, true, 0⟩, rfl, fun e => ?_⟩
    have e' : step env (toState kinds m) (.thread ix i) = .ok none := act_none e
    rw [step_thread m h'.1.1 h'.1.2] at e'
    obtain ⟨b, h3, h4⟩ := Res.bind_eq_ok.1 e'
    obtain ⟨c, h5, h6⟩ := Res.bind_eq_ok.1 h3
    cases c with
    | none => exact thread_awake (procsOf kinds m ix) i h'.2.1 h'.2.2 h5
    | some p =>
      cases h6
      cases h4

theorem laws (kinds : List (List Bool)) (env : Run.Env) : Laws (system kinds env) rank 1 where
  plan_dep a k m n hs hr := by
    match a with
    | .main 0 =>
      show (masterPlan kinds.length (size kinds 0) (m .master) (m (.of 0 .idle))).take (k + 1) =
        (masterPlan kinds.length (size kinds 0) (n .master) (n (.of 0 .idle))).take (k + 1)
      rw [← same_master hs]
      exact master_dep _ _ _ _ _ _ hr
    | .main (j + 1) =>
      show (workerPlan (j + 1) (size kinds (j + 1)) (m (.of (j + 1) .worker)) (m (.of (j + 1) .idle))).take (k + 1) =
        (workerPlan (j + 1) (size kinds (j + 1)) (n (.of (j + 1) .worker)) (n (.of (j + 1) .idle))).take (k + 1)
      rw [← same_worker hs]
      exact worker_dep _ _ _ _ _ _ hr
    | .thread ix i =>
      show (threadPlan ix i (m (.of ix (.phase i)))).take (k + 1) = (threadPlan ix i (n (.of ix (.phase i)))).take (k + 1)
      rw [same_thread hs]
  reads_nodup a m := by
    match a with
    | .main 0 => exact master_nodup _ _ _ _
    | .main (j + 1) => exact worker_nodup _ _ _ _
    | .thread ix i =>
      show (reads (threadPlan ix i (m (.of ix (.phase i))))).Nodup
      cases m (.of ix (.phase i)) <;> simp [threadPlan, reads]
  read_guard a m k := (ordered_plan a m).get.1
  extra_guard a m x hx := by
    match a with
    | .main 0 =>
      change x ∈ masterExtra (size kinds 0) (m .master) at hx
      unfold masterExtra at hx
      split at hx
      · next i hp =>
        split at hx
        · next hi =>
          rw [List.mem_singleton] at hx
          subst hx
          refine ⟨.data 0 i, rfl, List.mem_append_right _ ?_⟩
          show .data 0 i ∈ locks (masterPlan kinds.length (size kinds 0) (m .master) (m (.of 0 .idle)))
          unfold masterPlan
          rw [hp]
          simp [hi, locks]
        · cases hx
      · cases hx
    | .main (j + 1) =>
      change x ∈ workerExtra (j + 1) (size kinds (j + 1)) (m (.of (j + 1) .worker)) at hx
      unfold workerExtra at hx
      split at hx
      · next i hh hp =>
        split at hx
        · next hi =>
          rw [List.mem_singleton] at hx
          subst hx
          refine ⟨.data (j + 1) i, rfl, List.mem_append_right _ ?_⟩
          show .data (j + 1) i ∈ locks (workerPlan (j + 1) (size kinds (j + 1)) (m (.of (j + 1) .worker)) (m (.of (j + 1) .idle)))
          unfold workerPlan
          rw [hh, hp]
          simp [hi, locks]
        · cases hx
      · cases hx
    | .thread ix i => cases hx
  rank_lt a m k := (ordered_plan a m).get.2
  rank_le l := by cases l <;> simp [rank]
  held_dep a m n hs := by
    match a with
    | .main 0 =>
      show masterHeld (m .master) = masterHeld (n .master)
      rw [same_master hs]
    | .main (j + 1) =>
      show (if j + 1 < kinds.length then workerHeld (j + 1) (m (.of (j + 1) .worker)) else []) =
        (if j + 1 < kinds.length then workerHeld (j + 1) (n (.of (j + 1) .worker)) else [])
      rw [same_worker hs]
    | .thread ix i => rfl
  held_nodup a m := by
    match a with
    | .main 0 =>
      show (masterHeld (m .master)).Nodup
      unfold masterHeld
      split <;> simp
    | .main (j + 1) =>
      show (if j + 1 < kinds.length then workerHeld (j + 1) (m (.of (j + 1) .worker)) else []).Nodup
      unfold workerHeld
      split
      · split <;> simp
      · simp
    | .thread ix i => exact List.nodup_nil
  rest_dep a m n hs h := by
    match a with
    | .main 0 =>
      show masterRests (n .master)
      rw [← same_master hs]
      exact h
    | .main (j + 1) =>
      show ¬ j + 1 < kinds.length ∨ workerRests (n (.of (j + 1) .worker))
      rw [← same_worker hs]
      exact h
    | .thread ix i =>
      show ¬ (ix < kinds.length ∧ i < size kinds ix) ∨ (n (.of ix (.phase i)) : Run.Phase) = .sleep ∨
        (n (.of ix (.phase i)) : Run.Phase) = .done
      rw [← same_thread hs]
      exact h
  act_frame a ch m n s hn hs hr h := by
    obtain ⟨t, h1, h2, h3, h4⟩ := (fit_act (act_fit a ch m n hn hs hr)).1 s h
    exact ⟨t, h1, h2, h3, h4⟩
  act_fails a ch m n hn hs hr h := (fit_act (act_fit a ch m n hn hs hr)).2 h
  act_held a ch m s h l hl := by
    match a with
    | .main 0 =>
      change l ∈ masterHeld (s .master) at hl
      unfold masterHeld at hl
      split at hl
      · next i b hp =>
        rw [List.mem_singleton] at hl
        subst hl
        change (step env (toState kinds m) (.master ch)).bind _ = _ at h
        rw [step_master] at h
        obtain ⟨o, h1, h2⟩ := Res.bind_eq_ok.1 h
        obtain ⟨b, h3, h4⟩ := Res.bind_eq_ok.1 h1
        cases b with
        | none =>
          cases h4
          cases h2
        | some st =>
          cases h4
          cases h2
          obtain ⟨h5, h6⟩ := notify_from h3 hp
          refine List.mem_append_right _ ?_
          show .pool 0 ∈ locks (masterPlan kinds.length (size kinds 0) (m .master) (m (.of 0 .idle)))
          unfold masterPlan
          rw [show (m .master : MasterData).pc = .take from h5]
          rcases h6 with ⟨q, h6⟩ | ⟨h6, q, h7⟩
          · rw [show (m .master : MasterData).openclQueue = 0 :: q from h6]
            simp [locks, assignPlan]
          · rw [show (m .master : MasterData).openclQueue = [] from h6, show (m .master : MasterData).cpuQueue = 0 :: q from h7]
            simp [locks, assignPlan]
      · cases hl
    | .main (j + 1) =>
      change l ∈ (if j + 1 < kinds.length then workerHeld (j + 1) (s (.of (j + 1) .worker)) else []) at hl
      split at hl
      · next hj =>
        unfold workerHeld at hl
        split at hl
        · next i hh hp =>
          rw [List.mem_singleton] at hl
          subst hl
          change (step env (toState kinds m) (.worker (j + 1))).bind _ = _ at h
          rw [step_worker m (by simp) hj] at h
          obtain ⟨o, h1, h2⟩ := Res.bind_eq_ok.1 h
          obtain ⟨b, h3, h4⟩ := Res.bind_eq_ok.1 h1
          cases b with
          | none =>
            cases h4
            cases h2
          | some r =>
            cases h4
            cases h2
            obtain ⟨p', h'⟩ := r
            rw [put_same] at hh hp
            have e : h' = .none := hh
            subst e
            obtain ⟨o, b, h5⟩ := worker_notify_from h3 hp
            refine List.mem_append_right _ ?_
            show .pool (j + 1) ∈ locks (workerPlan (j + 1) (size kinds (j + 1)) (m (.of (j + 1) .worker)) (m (.of (j + 1) .idle)))
            unfold workerPlan
            rw [show (m (.of (j + 1) .worker) : WorkerData).hand = .got (.assign o b) from h5]
            simp [locks, assignPlan]
        · cases hl
      · cases hl
    | .thread ix i => cases hl
  sync_frame a m n s t h hm ht hn := by
    have hm' : Private m n := hm
    have ht' : Private t s := ht
    match a with
    | .main 0 =>
      have e : m .master = n .master := hm .master (.main 0) rfl
      refine sync_master_iff.2 ?_
      obtain ⟨i, b, hp, rfl⟩ | ⟨i, hp, rfl⟩ | ⟨i, hp, hd, rfl⟩ := sync_master_iff.1 h
      · refine Or.inl ⟨i, b, by rw [← e]; exact hp, ?_⟩
        refine Private.eq (fun x b hx => (ht' x b hx).trans ((hm'.wake 0 i).goto _ x b hx)) hn fun x l hx => ?_
        rw [goto_shared _ _ hx, wakeMem_shared _ _ _ hx]
      · refine Or.inr (Or.inl ⟨i, by rw [← e]; exact hp, ?_⟩)
        refine Private.eq (fun x b hx => (ht' x b hx).trans ((hm'.wake 0 i).goto _ x b hx)) hn fun x l hx => ?_
        rw [goto_shared _ _ hx, wakeMem_shared _ _ _ hx]
      · refine Or.inr (Or.inr ⟨i, by rw [← e]; exact hp, by rw [← hm' (.of 0 (.phase i)) (.thread 0 i) rfl]; exact hd, ?_⟩)
        refine Private.eq (fun x b hx => (ht' x b hx).trans (hm'.goto _ x b hx)) hn fun x l hx => ?_
        rw [goto_shared _ _ hx]
    | .main (j + 1) =>
      have e : m (.of (j + 1) .worker) = n (.of (j + 1) .worker) := hm (.of (j + 1) .worker) (.main (j + 1)) rfl
      refine (sync_worker_iff (by simp)).2 ?_
      obtain ⟨hj, hh, h⟩ := (sync_worker_iff (by simp)).1 h
      refine ⟨hj, by rw [← e]; exact hh, ?_⟩
      obtain ⟨i, hp, rfl⟩ | ⟨i, hp, rfl⟩ | ⟨i, hp, hd, rfl⟩ := h
      · refine Or.inl ⟨i, by rw [← e]; exact hp, ?_⟩
        refine Private.eq (fun x b hx => (ht' x b hx).trans ((hm'.wake (j + 1) i).gotoWorker _ _ x b hx)) hn fun x l hx => ?_
        rw [gotoWorker_shared _ _ _ hx, wakeMem_shared _ _ _ hx]
      · refine Or.inr (Or.inl ⟨i, by rw [← e]; exact hp, ?_⟩)
        refine Private.eq (fun x b hx => (ht' x b hx).trans ((hm'.wake (j + 1) i).gotoWorker _ _ x b hx)) hn fun x l hx => ?_
        rw [gotoWorker_shared _ _ _ hx, wakeMem_shared _ _ _ hx]
      · refine Or.inr (Or.inr ⟨i, by rw [← e]; exact hp,
          by rw [← hm' (.of (j + 1) (.phase i)) (.thread (j + 1) i) rfl]; exact hd, ?_⟩)
        refine Private.eq (fun x b hx => (ht' x b hx).trans (hm'.gotoWorker _ _ x b hx)) hn fun x l hx => ?_
        rw [gotoWorker_shared _ _ _ hx]
    | .thread ix i =>
      obtain ⟨⟨h1, h2, h3⟩, rfl⟩ := sync_thread_iff.1 h
      refine sync_thread_iff.2 ⟨⟨h1, h2, by rw [← hm' (.of ix (.phase i)) (.thread ix i) rfl]; exact h3⟩, ?_⟩
      refine Private.eq (fun x b hx => (ht' x b hx).trans (hm'.wake ix i x b hx)) hn fun x l hx => ?_
      rw [wakeMem_shared _ _ _ hx]
  sync_shared a m s h x l hx := by
    match a with
    | .main 0 =>
      obtain ⟨i, b, hp, rfl⟩ | ⟨i, hp, rfl⟩ | ⟨i, hp, hd, rfl⟩ := sync_master_iff.1 h
      · rw [goto_shared _ _ hx, wakeMem_shared _ _ _ hx]
      · rw [goto_shared _ _ hx, wakeMem_shared _ _ _ hx]
      · rw [goto_shared _ _ hx]
    | .main (j + 1) =>
      obtain ⟨-, -, ⟨i, hp, rfl⟩ | ⟨i, hp, rfl⟩ | ⟨i, hp, hd, rfl⟩⟩ := (sync_worker_iff (by simp)).1 h
      · rw [gotoWorker_shared _ _ _ hx, wakeMem_shared _ _ _ hx]
      · rw [gotoWorker_shared _ _ _ hx, wakeMem_shared _ _ _ hx]
      · rw [gotoWorker_shared _ _ _ hx]
    | .thread ix i =>
      obtain ⟨-, rfl⟩ := sync_thread_iff.1 h
      exact wakeMem_shared _ _ _ hx
  sync_other a m s h b hb := by
    have key : ∀ ix i (s : Mem), (∀ x, guard x = .inr b → s x = wakeMem m ix i x) →
        (system kinds env).Same b s m ∨ ((system kinds env).rest b m ∧ (system kinds env).held b s = (system kinds env).held b m) := by
      intro ix i s hs
      cases b with
      | main k =>
        left
        intro x hx
        rw [hs x hx, wakeMem_main _ _ _ hx]
      | thread jx j =>
        rcases wakeMem_phase m ix i jx j with h | h
        · left
          intro x hx
          have := (guard_thread jx j x).1 hx
          subst this
          rw [hs (.of jx (.phase j)) rfl, h]
        · exact Or.inr ⟨Or.inr (Or.inl h), rfl⟩
    match a with
    | .main 0 =>
      obtain ⟨i, b, hp, rfl⟩ | ⟨i, hp, rfl⟩ | ⟨i, hp, hd, rfl⟩ := sync_master_iff.1 h
      · exact key 0 i _ fun x hx => goto_other _ _ hx hb
      · exact key 0 i _ fun x hx => goto_other _ _ hx hb
      · exact Or.inl fun x hx => goto_other _ _ hx hb
    | .main (j + 1) =>
      obtain ⟨-, -, ⟨i, hp, rfl⟩ | ⟨i, hp, rfl⟩ | ⟨i, hp, hd, rfl⟩⟩ := (sync_worker_iff (by simp)).1 h
      · exact key (j + 1) i _ fun x hx => gotoWorker_other _ _ _ hx hb
      · exact key (j + 1) i _ fun x hx => gotoWorker_other _ _ _ hx hb
      · exact Or.inl fun x hx => gotoWorker_other _ _ _ hx hb
    | .thread ix i =>
      obtain ⟨-, rfl⟩ := sync_thread_iff.1 h
      exact key ix i _ fun x _ => rfl
  sync_held a m s h l hl := by
    match a with
    | .main 0 =>
      change l ∈ masterHeld (s .master) at hl
      obtain ⟨i, b, hp, rfl⟩ | ⟨i, hp, rfl⟩ | ⟨i, hp, hd, rfl⟩ := sync_master_iff.1 h <;>
      · rw [goto_master] at hl
        cases hl
    | .main (j + 1) =>
      change l ∈ (if j + 1 < kinds.length then workerHeld (j + 1) (s (.of (j + 1) .worker)) else []) at hl
      split at hl
      · have hno : ∀ (d : WorkerData) pc, (∀ i, pc ≠ .notify i) → l ∈ workerHeld (j + 1) { d with pc := pc } → False := by
          intro d pc hp hl
          unfold workerHeld at hl
          split at hl
          · next h => exact hp _ h
          · cases hl
        obtain ⟨-, -, ⟨i, hp, rfl⟩ | ⟨i, hp, rfl⟩ | ⟨i, hp, hd, rfl⟩⟩ := (sync_worker_iff (by simp)).1 h <;>
        · rw [gotoWorker_worker] at hl
          exact (hno _ _ (by simp) hl).elim
      · cases hl
    | .thread ix i => cases hl
  awake a m h := by
    obtain ⟨ch, _, hc⟩ := awake_create kinds env a m h
    exact ⟨ch, hc⟩
  busy a m h hr := by
    match a with
    | .main 0 =>
      change masterHeld (m .master) ≠ [] at h
      unfold masterHeld at h
      split at h
      · next i b hp => exact ⟨_, sync_master_iff.2 (Or.inl ⟨i, b, hp, rfl⟩)⟩
      · exact absurd rfl h
    | .main (j + 1) =>
      change (if j + 1 < kinds.length then workerHeld (j + 1) (m (.of (j + 1) .worker)) else []) ≠ [] at h
      split at h
      · next hj =>
        unfold workerHeld at h
        split at h
        · next i hh hp => exact ⟨_, (sync_worker_iff (by simp)).2 ⟨hj, hh, Or.inl ⟨i, hp, rfl⟩⟩⟩
        · exact absurd rfl h
      · exact absurd rfl h
    | .thread ix i => exact absurd rfl h

end MpiLocks
end Hycu
