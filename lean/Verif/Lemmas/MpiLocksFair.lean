import Verif.Lemmas.LocksFair
import Verif.Lemmas.MpiLocksFollow
import Verif.Lemmas.MpiWeak

/-!
Fair executions of the threads of `hycu-mpi` in small steps are executions of the machine in `Verif.Model.Mpi`, in which all
threads are scheduled again and again.
-/

namespace Hycu
namespace MpiLocks

open Mpi (Proc Msg Turn)
open Run (Env Choice)
open Locks (Config Inv Sane Sleepers Computes Signals Acts abs abs_private)

variable {env : Env} {kinds : List (List Bool)} {fs : FileSystem} {todo : List Run.Cmd}

/-! ### Receive, handle, reply -/

theorem coarse_none {st : State} (h : Clean st) {l : Mpi.Label} (hs : step env st l = .ok none) :
    Mpi.step env (flat st) l = .ok none := by
  have hf := step_flat env h l
  rw [hs] at hf
  cases hf with
  | move _ hr => exact hr

theorem coarse_some {st st' : State} (h : Clean st) {l : Mpi.Label} (hs : step env st l = .ok (some st')) :
    Mpi.step env (flat st) l = .ok (some (flat st')) ∨ (flat st' = flat st ∧
      ((∃ ch, l = .master ch ∧ Waits st.base ∧ st' = st) ∨
        ∃ ix, l = .worker ix ∧ ((st'.hand ix).level < (st.hand ix).level ∨ Mpi.step env (flat st) l = .ok none))) := by
  have hf := step_flat env h l
  rw [hs] at hf
  cases hf with
  | stutter _ h1 h2 => exact Or.inr ⟨h1, h2⟩
  | move _ hr => exact Or.inl hr

theorem coarse_ok {st : State} (h : Clean st) {l : Mpi.Label} (ho : ∃ o, Mpi.step env (flat st) l = .ok o) :
    ∃ o, step env st l = .ok o := by
  obtain ⟨o, ho⟩ := ho
  have hs := step_flat env h l
  generalize step env st l = r at hs
  cases hs with
  | stutter st' _ _ => exact ⟨_, rfl⟩
  | move _ hr =>
    rw [ho] at hr
    cases r with
    | ok o' => exact ⟨o', rfl⟩
    | _ => cases hr

/-- What the main thread of a worker has got is changed by itself only. -/
theorem step_hand {st st' : State} {l : Mpi.Label} (hs : step env st l = .ok (some st')) {ix : Nat} (hl : l ≠ .worker ix) :
    st'.hand ix = st.hand ix := by
  have rest : ∀ {r : Res (Option Mpi.State)}, (r.bind fun o => .ok (o.map fun b => ({ st with base := b } : State))) =
      .ok (some st') → st'.hand ix = st.hand ix := by
    intro r h
    obtain ⟨o, _, h2⟩ := Res.bind_eq_ok.1 h
    cases o with
    | none => cases h2
    | some b => cases h2; rfl
  cases l with
  | master ch =>
    change (if Waits st.base then _ else _) = _ at hs
    split at hs
    · cases hs; rfl
    · exact rest hs
  | worker jx =>
    change (if 0 < jx ∧ jx < st.base.nprocs then Res.bind _ _ else _) = _ at hs
    split at hs
    · obtain ⟨o, _, h2⟩ := Res.bind_eq_ok.1 hs
      cases o with
      | none => cases h2
      | some r =>
        cases h2
        exact Function.update_of_ne (fun h => hl (by rw [h])) _ _
    · cases hs
  | thread jx i => exact rest hs
  | spurious jx i => exact rest hs

theorem hand_lt {st : State} (h : Reach env (start kinds fs todo) st) {ix : Nat} (hh : st.hand ix ≠ .none) :
    ix < kinds.length := by
  induction h with
  | refl => exact absurd rfl hh
  | @step st st' l hr hs ih =>
    by_cases hl : l = .worker ix
    · subst hl
      change (if 0 < ix ∧ ix < st.base.nprocs then _ else _) = _ at hs
      split at hs
      · next hx => rw [← (fixed_reach hr).1]; exact hx.2
      · cases hs
    · rw [step_hand hs hl] at hh
      exact ih hh

/-- A reply can be sent. -/
theorem reply_some {st : State} {ix : Nat} (h0 : 0 < ix) (hx : ix < st.base.nprocs) (hh : (st.hand ix).level = 2) :
    step env st (.worker ix) ≠ .ok none := by
  intro hs
  change (if 0 < ix ∧ ix < st.base.nprocs then Res.bind (workerStep (st.base.procs ix) (st.hand ix)) _ else _) = _ at hs
  rw [if_pos ⟨h0, hx⟩] at hs
  unfold workerStep at hs
  cases hh' : st.hand ix <;> rw [hh'] at hs hh <;> cases hh <;> cases hs

theorem reply_sent {st st' : State} {ix : Nat} (hs : step env st (.worker ix) = .ok (some st'))
    (hh : (st.hand ix).level = 2) : (st'.hand ix).level = 1 := by
  change (if 0 < ix ∧ ix < st.base.nprocs then Res.bind (workerStep (st.base.procs ix) (st.hand ix)) _ else _) = _ at hs
  split at hs
  · unfold workerStep at hs
    cases hh' : st.hand ix <;> rw [hh'] at hs hh <;> cases hh <;> cases hs <;>
      (show (Function.update st.hand ix Hand.none ix).level = 1) <;> rw [Function.update_self] <;> rfl
  · cases hs

/-- If the master waits although there is a reply, then the main thread of the worker has got it. -/
theorem waits_reply {st : State} {ch : Choice} (hw : Waits st.base) (hn : Mpi.masterStep (flat st) ch ≠ .ok none) :
    ∃ ix, (st.hand ix).level = 2 ∧ ((∃ c, st.base.pc = .flushRecv ix c) ∨ st.base.pc = .readyRecv ix ∨
      ∃ k, st.base.pc = .saveRecv ix k) := by
  unfold Waits at hw
  split at hw
  · next ix c hpc =>
    refine ⟨ix, ?_, Or.inl ⟨c, hpc⟩⟩
    by_contra hl
    refine hn ?_
    have hpc' : (flat st).pc = .flushRecv ix c := hpc
    have ho : ((flat st).procs ix).finishedOut = [] := by
      show (st.base.procs ix).finishedOut ++ (st.hand ix).finisheds = []
      rw [hw]
      cases hh : st.hand ix <;> rw [hh] at hl <;> first | rfl | exact absurd rfl hl
    unfold Mpi.masterStep
    rw [hpc']
    unfold Mpi.flushRecvStep
    simp only [ho]
  · next ix hpc =>
    refine ⟨ix, ?_, Or.inr (Or.inl hpc)⟩
    by_contra hl
    refine hn ?_
    have hpc' : (flat st).pc = .readyRecv ix := hpc
    have ho : ((flat st).procs ix).readyOut = [] := by
      show (st.base.procs ix).readyOut ++ (st.hand ix).readys = []
      rw [hw]
      cases hh : st.hand ix <;> rw [hh] at hl <;> first | rfl | exact absurd rfl hl
    unfold Mpi.masterStep
    rw [hpc']
    unfold Mpi.readyRecvStep
    simp only [ho]
  · next ix k hpc =>
    refine ⟨ix, ?_, Or.inr (Or.inr ⟨k, hpc⟩)⟩
    by_contra hl
    refine hn ?_
    have hpc' : (flat st).pc = .saveRecv ix k := hpc
    have ho : ((flat st).procs ix).saveOut = [] := by
      show (st.base.procs ix).saveOut ++ (st.hand ix).saveds = []
      rw [hw]
      cases hh : st.hand ix <;> rw [hh] at hl <;> first | rfl | exact absurd rfl hl
    unfold Mpi.masterStep
    rw [hpc']
    unfold Mpi.saveRecvStep
    simp only [ho]
  · exact hw.elim

/-- Replies that are there stay there until the master receives them. -/
structure Kept (b b' : Mpi.State) : Prop where
  pc : b'.pc = b.pc
  finished : ∀ ix, (b'.procs ix).finishedOut = [] → (b.procs ix).finishedOut = []
  ready : ∀ ix, (b'.procs ix).readyOut = [] → (b.procs ix).readyOut = []
  saved : ∀ ix, (b'.procs ix).saveOut = [] → (b.procs ix).saveOut = []

theorem Kept.waits {b b' : Mpi.State} (h : Kept b b') (hw : Waits b') : Waits b := by
  unfold Waits at hw ⊢
  rw [h.pc] at hw
  split at hw
  · exact h.finished _ hw
  · exact h.ready _ hw
  · exact h.saved _ hw
  · exact hw.elim

theorem Kept.proc {b : Mpi.State} {ix : Nat} {p : Proc} (h1 : p.finishedOut = [] → (b.procs ix).finishedOut = [])
    (h2 : p.readyOut = [] → (b.procs ix).readyOut = []) (h3 : p.saveOut = [] → (b.procs ix).saveOut = []) :
    Kept b (b.setProc ix p) := by
  have key : ∀ q, (b.setProc ix p).procs q = if q = ix then p else b.procs q := fun q => by
    show Function.update b.procs ix p q = _
    by_cases hq : q = ix
    · subst hq; rw [Function.update_self, if_pos rfl]
    · rw [Function.update_of_ne hq, if_neg hq]
  refine ⟨rfl, fun q hq => ?_, fun q hq => ?_, fun q hq => ?_⟩ <;> rw [key] at hq <;> split at hq
  · next h => subst h; exact h1 hq
  · exact hq
  · next h => subst h; exact h2 hq
  · exact hq
  · next h => subst h; exact h3 hq
  · exact hq

/-- The queues of replies of a process. -/
def outs (p : Proc) : List (List Block) × List (Nat × Nat) × List (List Char × List Char) := (p.finishedOut, p.readyOut, p.saveOut)

theorem Kept.same {b : Mpi.State} {ix : Nat} {p : Proc} (h : outs p = outs (b.procs ix)) : Kept b (b.setProc ix p) := by
  unfold outs at h
  rw [Prod.mk.injEq, Prod.mk.injEq] at h
  exact .proc (fun h' => h.1 ▸ h') (fun h' => h.2.1 ▸ h') fun h' => h.2.2 ▸ h'

theorem handle_outs {p p' : Proc} {m : Msg} (h : p.handle m = .ok p') (hm : ¬ ∃ r : Mpi.Req, m = r.msg) :
    outs p' = outs p := by
  cases m with
  | config c => cases h; rfl
  | assign o b =>
    unfold Proc.handle at h
    obtain ⟨r, hr, h⟩ := Res.bind_eq_ok.1 h
    cases h
    unfold Proc.assign at hr
    obtain ⟨r', _, hr⟩ := Res.bind_eq_ok.1 hr
    cases hr
    rfl
  | readyThreads => exact absurd ⟨.ready, rfl⟩ hm
  | save => exact absurd ⟨.save, rfl⟩ hm
  | finishedBlocks => exact absurd ⟨.finished, rfl⟩ hm
  | shutdown => cases h; rfl

theorem worker_kept {b : Mpi.State} {ix : Nat} {h : Hand} {r : Proc × Hand}
    (hs : workerStep (b.procs ix) h = .ok (some r)) : Kept b (b.setProc ix r.1) := by
  have wake : ∀ i, outs ((b.procs ix).wake i) = outs (b.procs ix) := fun i => by
    unfold Proc.wake
    split <;> rfl
  have hand : ∀ m, (¬ ∃ r : Mpi.Req, m = r.msg) → (some <$> ({ b.procs ix with pc := .probe } : Proc).handle m).bind
      (fun o => .ok (o.map fun p' => (p', Hand.none))) = .ok (some r) → Kept b (b.setProc ix r.1) := by
    intro m hm hs
    obtain ⟨o, h1, h2⟩ := Res.bind_eq_ok.1 hs
    cases o with
    | none => cases h2
    | some p =>
      cases h2
      have := handle_outs (Run.some_map_ok h1) hm
      exact .same this
  unfold workerStep at hs
  cases h with
  | none =>
    simp only at hs
    split at hs
    · split at hs <;> cases hs <;> exact .same rfl
    · obtain ⟨o, h1, h2⟩ := Res.bind_eq_ok.1 hs
      cases o with
      | none => cases h2
      | some p =>
        cases h2
        next hpc =>
        cases Mpi.workerStep_move h1 with
        | notify i h => exact .same (wake i)
        | shutNotify i h => exact .same (wake i)
        | stop i h hi => exact .same rfl
        | stopEnd i h hi => exact .same rfl
        | join i h hd => exact .same rfl
        | config h => exact absurd h hpc
        | assign h => exact absurd h hpc
        | request h => exact absurd h hpc
        | shutdown h => exact absurd h hpc
  | got m =>
    cases m with
    | readyThreads => cases hs; exact .same rfl
    | save => cases hs; exact .same rfl
    | finishedBlocks => cases hs; exact .same rfl
    | config c => exact hand (.config c) (by rintro ⟨r, hr⟩; cases r <;> cases hr) hs
    | assign o b => exact hand (.assign o b) (by rintro ⟨r, hr⟩; cases r <;> cases hr) (by
        simp only at hs
        obtain ⟨p, h1, h2⟩ := Res.bind_eq_ok.1 hs
        cases h2
        rw [h1]
        rfl)
    | shutdown => exact hand .shutdown (by rintro ⟨r, hr⟩; cases r <;> cases hr) hs
  | ready n => cases hs; exact .proc id (fun h => (List.append_eq_nil_iff.1 h).1) id
  | saved n => cases hs; exact .proc id id (fun h => (List.append_eq_nil_iff.1 h).1)
  | finished n => cases hs; exact .proc (fun h => (List.append_eq_nil_iff.1 h).1) id id

theorem step_kept {st st' : State} {l : Mpi.Label} (hs : step env st l = .ok (some st')) (hl : ∀ ch, l ≠ .master ch) :
    Kept st.base st'.base := by
  cases l with
  | master ch => exact absurd rfl (hl ch)
  | worker ix =>
    change (if 0 < ix ∧ ix < st.base.nprocs then Res.bind _ _ else _) = _ at hs
    split at hs
    · obtain ⟨o, h1, h2⟩ := Res.bind_eq_ok.1 hs
      cases o with
      | none => cases h2
      | some r =>
        cases h2
        exact worker_kept h1
    · cases hs
  | thread ix i =>
    obtain ⟨o, h1, h2⟩ := Res.bind_eq_ok.1 (show (Mpi.step env st.base (.thread ix i)).bind _ = .ok (some st') from hs)
    cases o with
    | none => cases h2
    | some b =>
      cases h2
      cases Mpi.step_move h1 with
      | thread _ _ hx hi p h hp => cases h <;> exact .same rfl
  | spurious ix i =>
    obtain ⟨o, h1, h2⟩ := Res.bind_eq_ok.1 (show (Mpi.step env st.base (.spurious ix i)).bind _ = .ok (some st') from hs)
    cases o with
    | none => cases h2
    | some b =>
      cases h2
      cases Mpi.step_move h1 with
      | spurious _ _ hx hi hp => exact .same rfl

/-! ### Executions -/

theorem sleepers (kinds : List (List Bool)) (env : Env) : Sleepers (system kinds env) sleeper where
  held a m h := by
    cases a with
    | main ix => exact h.elim
    | thread ix i => rfl
  rests a m s h := by
    match a with
    | .main 0 =>
      show masterRests (m .master)
      unfold masterRests
      obtain ⟨i, b, hp, -⟩ | ⟨i, hp, -⟩ | ⟨i, hp, -⟩ := sync_master_iff.1 h <;> rw [hp] <;> trivial
    | .main (j + 1) =>
      refine Or.inr ?_
      unfold workerRests
      obtain ⟨-, hh, ⟨i, hp, -⟩ | ⟨i, hp, -⟩ | ⟨i, hp, -⟩⟩ := (sync_worker_iff (by simp)).1 h <;> rw [hp, hh] <;> trivial
    | .thread ix i =>
      obtain ⟨⟨-, -, hp⟩, -⟩ := sync_thread_iff.1 h
      exact Or.inr (Or.inl hp)

/-- A step with this label is made by this thread. -/
def Belongs (a : Agent) (l : Mpi.Label) : Prop := (∃ ch, l = label ch a) ∨ ∃ ix i, a = .thread ix i ∧ l = .spurious ix i

/-- An execution of the machine with large steps that corresponds to an execution in small steps. -/
structure View (env : Env) (kinds : List (List Bool)) (fs : FileSystem) (todo : List Run.Cmd)
    (σ : Nat → Config Agent Lock Var Val) (who : Nat → Option Agent) (v : Nat → State) (lab : Nat → Option Mpi.Label) :
    Prop where
  mat : ∀ n, Matches env kinds fs todo (abs (system kinds env) (σ n)) (v n)
  idle : ∀ n, lab n = none → v (n + 1) = v n ∧ ∀ a, ¬ Acts (system kinds env) σ who a n
  move : ∀ n l, lab n = some l → step env (v n) l = .ok (some (v (n + 1))) ∧ ∃ a, Acts (system kinds env) σ who a n ∧
    Belongs a l ∧ (Computes (system kinds env) σ who a n → ∃ ch, l = label ch a)

variable {σ : Nat → Config Agent Lock Var Val} {who : Nat → Option Agent} {v : Nat → State} {lab : Nat → Option Mpi.Label}

theorem exists_view (h : Sane (system kinds env) sleeper (agents kinds) (initial kinds fs todo) σ who) :
    ∃ v lab, View env kinds fs todo σ who v lab := by
  have hl := laws kinds env
  have hv : ∀ n, ∃ st, Matches env kinds fs todo (abs (system kinds env) (σ n)) st := fun n =>
    (refines (h.run.reachable n)).2
  choose v hv using hv
  have hev : ∀ n, ∃ o : Option Mpi.Label, (o = none → v (n + 1) = v n ∧ ∀ a, ¬ Acts (system kinds env) σ who a n) ∧
      ∀ l, o = some l → step env (v n) l = .ok (some (v (n + 1))) ∧ ∃ a, Acts (system kinds env) σ who a n ∧
        Belongs a l ∧ (Computes (system kinds env) σ who a n → ∃ ch, l = label ch a) := by
    intro n
    have hts := (hv n).toState
    have hts' := (hv (n + 1)).toState
    have sig : ∀ {a}, Signals (system kinds env) σ who a n → ¬ Computes (system kinds env) σ who a n := by
      rintro a ⟨_, h1, _⟩ ⟨_, _, _, h2, _⟩
      rw [h1] at h2
      cases h2
    rcases h.event hl n with ⟨h1, h2⟩ | ⟨a, ch, h1, h2, h3⟩ | ⟨a, h1, h2⟩
    · refine ⟨none, fun _ => ⟨?_, h2⟩, fun l hl => by cases hl⟩
      rw [← hts', h1, hts]
    · refine ⟨some (label ch a), fun h => (by cases h), fun l hl => ?_⟩
      cases hl
      refine ⟨?_, a, Or.inl h1, Or.inl ⟨ch, rfl⟩, fun _ => ⟨ch, rfl⟩⟩
      obtain ⟨o, h4, h5⟩ := Res.bind_eq_ok.1 (show (step env (toState kinds _) (label ch a)).bind _ = _ from h3)
      cases o with
      | none => cases h5
      | some u =>
        rw [hts] at h4
        have hu : ofState u = abs (system kinds env) (σ (n + 1)) := Option.some.inj (Res.ok.inj h5)
        have : toState kinds (ofState u) = u := toState_ofState (fixed_reach (.step _ (hv n).1 h4))
        rw [h4, ← this, hu, hts']
    · have key : ∀ {l u}, step env (toState kinds (abs (system kinds env) (σ n))) l = .ok (some u) →
          ofState u = abs (system kinds env) (σ (n + 1)) → step env (v n) l = .ok (some (v (n + 1))) := by
        intro l u h4 hu
        rw [hts] at h4
        have : toState kinds (ofState u) = u := toState_ofState (fixed_reach (.step _ (hv n).1 h4))
        rw [h4, ← this, hu, hts']
      generalize hm : abs (system kinds env) (σ (n + 1)) = m' at h2
      cases h2 with
      | master _ ch u hu h3 =>
        refine ⟨some (.master ch), fun h => (by cases h), fun l hl => ?_⟩
        cases hl
        exact ⟨key h3 hm.symm, _, Or.inr h1, Or.inl ⟨ch, rfl⟩, fun hc => absurd hc (sig h1)⟩
      | worker ix _ u hh hu h3 =>
        refine ⟨some (.worker ix), fun h => (by cases h), fun l hl => ?_⟩
        cases hl
        refine ⟨key h3 hm.symm, _, Or.inr h1, Or.inl ⟨⟨false, false, 0⟩, ?_⟩, fun hc => absurd hc (sig h1)⟩
        change (if 0 < ix ∧ _ then _ else _) = _ at h3
        split at h3
        · next hx =>
          obtain ⟨k, rfl⟩ := Nat.exists_eq_succ_of_ne_zero (Nat.ne_of_gt hx.1)
          rfl
        · cases h3
      | spurious _ ix i u h3 =>
        refine ⟨some (.spurious ix i), fun h => (by cases h), fun l hl => ?_⟩
        cases hl
        exact ⟨key h3 hm.symm, _, Or.inr h1, Or.inr ⟨ix, i, rfl, rfl⟩, fun hc => absurd hc (sig h1)⟩
  choose lab hlab using hev
  exact ⟨v, lab, hv, fun n => (hlab n).1, fun n => (hlab n).2⟩


/-- The thread of a turn. -/
def agentOf : Turn → Agent
  | .thread ix i => .thread ix i
  | .master => .main 0
  | .worker ix => .main ix

/-- The labels of a thread. -/
theorem has_belongs {t : Turn} {l : Mpi.Label} (ht : ∀ ix, t = .worker ix → 0 < ix) (hb : ∃ ch, l = label ch (agentOf t)) :
    t.has l := by
  obtain ⟨ch, rfl⟩ := hb
  cases t with
  | thread ix i => rfl
  | master => exact ⟨ch, rfl⟩
  | worker ix =>
    obtain ⟨k, rfl⟩ := Nat.exists_eq_succ_of_ne_zero (Nat.ne_of_gt (ht ix rfl))
    rfl

theorem View.acts (hv : View env kinds fs todo σ who v lab) {a : Agent} {n : Nat}
    (ha : Acts (system kinds env) σ who a n) : ∃ l, lab n = some l ∧ Belongs a l ∧
      (Computes (system kinds env) σ who a n → ∃ ch, l = label ch a) := by
  cases hl : lab n with
  | none => exact absurd ha ((hv.idle n hl).2 a)
  | some l =>
    obtain ⟨_, b, h1, h2, h3⟩ := hv.move n l hl
    obtain rfl := Sane.acts_unique ha h1
    exact ⟨l, rfl, h2, h3⟩

/-- Every thread makes a large step again and again, or cannot make one again and again. -/
theorem View.weak (hv : View env kinds fs todo σ who v lab)
    (h : Sane (system kinds env) sleeper (agents kinds) (initial kinds fs todo) σ who)
    (hs : ∀ n l, ∃ o, step env (v n) l = .ok o) {t : Turn} (ht : ∀ ix, t = .worker ix → 0 < ix) {lf : Nat → Mpi.Label}
    (hlf : ∀ n, t.has (lf n)) (n : Nat) :
    ∃ m, n ≤ m ∧ ((∃ l, lab m = some l ∧ t.has l) ∨ step env (v m) (lf m) = .ok none) := by
  by_contra hcon
  have hl := laws kinds env
  have hno : ∀ m l, n ≤ m → lab m = some l → ¬ t.has l := fun m l hm h1 h2 => hcon ⟨m, hm, Or.inl ⟨l, h1, h2⟩⟩
  have hen : ∀ m, n ≤ m → ∃ st', step env (v m) (lf m) = .ok (some st') := by
    intro m hm
    obtain ⟨o, ho⟩ := hs m (lf m)
    cases o with
    | none => exact absurd ⟨m, hm, Or.inr ho⟩ hcon
    | some st' => exact ⟨st', ho⟩
  have hrest : ∀ m, n ≤ m → (system kinds env).rest (agentOf t) (abs (system kinds env) (σ m)) := by
    intro m hm
    by_contra hr
    obtain ⟨k, hk, hc, _⟩ := h.computes hl hr
    obtain ⟨l, h1, _, h2⟩ := hv.acts (Or.inl hc)
    exact hno k l (by omega) h1 (has_belongs ht (h2 hc))
  have hmain : ∀ ix, agentOf t = .main ix → (∀ m, n ≤ m → ∃ s, (system kinds env).sync (.main ix) (abs (system kinds env) (σ m)) s) →
      False := by
    intro ix hix hsy
    obtain ⟨m, hm, hsig, _⟩ := h.signals hl (a := .main ix) (n := n) id fun m hm _ => hsy m hm
    obtain ⟨l, h1, h2, _⟩ := hv.acts (Or.inr hsig)
    refine hno m l hm h1 (has_belongs ht ?_)
    rw [hix]
    rcases h2 with h2 | ⟨_, _, h2, _⟩
    · exact h2
    · cases h2
  cases t with
  | thread ix i =>
    have h1 := hrest n le_rfl
    obtain ⟨st', h2⟩ := hen n le_rfl
    rw [hlf n] at h2
    rw [← (hv.mat n).2] at h1
    have hb := big_of_step (fixed_reach (hv.mat n).1) h2
    obtain ⟨o, h3, h4⟩ := Res.bind_eq_ok.1 (show (Mpi.step env (v n).base (.thread ix i)).bind _ = .ok (some st') from h2)
    cases o with
    | none => cases h4
    | some b =>
      cases Mpi.step_move h3 with
      | thread _ _ hx hi p hm hp =>
        have hf := fixed_reach (hv.mat n).1
        rcases h1 with h1 | h1
        · refine h1 ⟨hf.1 ▸ hx, ?_⟩
          rw [← (hf.2 ix).1]
          exact hi
        · have h1 : (((v n).base.procs ix).thr i).phase = .sleep ∨ (((v n).base.procs ix).thr i).phase = .done := h1
          unfold Mpi.step at h3
          simp only at h3
          rw [if_pos ⟨hx, hi⟩] at h3
          unfold Proc.threadStep at h3
          rcases h1 with h1 | h1 <;> simp only [h1] at h3 <;> cases h3
  | master =>
    refine hmain 0 rfl fun m hm => ?_
    obtain ⟨st', h2⟩ := hen m hm
    obtain ⟨ch, hch⟩ := hlf m
    rw [hch] at h2
    have h1 := hrest m hm
    rw [← (hv.mat m).2] at h1 ⊢
    have hstep : step env (toState kinds (ofState (v m))) (.master ch) = .ok (some st') := by
      rw [(hv.mat m).2, (hv.mat m).toState]
      exact h2
    by_cases hw : Waits (v m).base
    · change masterRests (ofState (v m) .master) at h1
      unfold masterRests at h1
      unfold Waits at hw
      split at hw <;> rename_i hpc <;> first | exact hw.elim | (rw [show (ofState (v m) .master : MasterData).pc = (v m).base.pc from rfl, hpc] at h1; exact h1.elim)
    · unfold step at h2
      simp only at h2
      rw [if_neg hw] at h2
      obtain ⟨o, h3, h4⟩ := Res.bind_eq_ok.1 h2
      cases o with
      | none => cases h4
      | some b =>
        rcases master_not_rest h3 (d := ofState (v m) .master) rfl rfl with h5 | h5
        · exact ⟨_, .master _ ch st' h5 hstep⟩
        · exact absurd h1 h5
  | worker ix =>
    refine hmain ix rfl fun m hm => ?_
    obtain ⟨st', h2⟩ := hen m hm
    rw [hlf m] at h2
    have h1 := hrest m hm
    rw [← (hv.mat m).2] at h1 ⊢
    have hstep : step env (toState kinds (ofState (v m))) (.worker ix) = .ok (some st') := by
      rw [(hv.mat m).2, (hv.mat m).toState]
      exact h2
    unfold step at h2
    simp only at h2
    split at h2
    · next hx =>
      obtain ⟨o, h3, h4⟩ := Res.bind_eq_ok.1 h2
      cases o with
      | none => cases h4
      | some r =>
        rcases worker_not_rest h3 (d := ofState (v m) (.of ix .worker)) rfl rfl with ⟨h5, h6⟩ | h5
        · exact ⟨_, .worker ix _ st' h5 h6 hstep⟩
        · obtain ⟨k, rfl⟩ := Nat.exists_eq_succ_of_ne_zero (Nat.ne_of_gt hx.1)
          rcases h1 with h1 | h1
          · exact absurd ((fixed_reach (hv.mat m).1).1 ▸ hx.2) h1
          · exact absurd h1 h5
    · cases h2

open Classical in
/-- The steps of an execution that are steps of the machine in `Verif.Model.Mpi`. -/
noncomputable def moves (env : Env) (v : Nat → State) (lab : Nat → Option Mpi.Label) (n : Nat) : Option Mpi.Label :=
  (lab n).bind fun l => if Mpi.step env (flat (v n)) l = .ok (some (flat (v (n + 1)))) then some l else none

theorem moves_some {n : Nat} {l : Mpi.Label} (h : moves env v lab n = some l) :
    lab n = some l ∧ Mpi.step env (flat (v n)) l = .ok (some (flat (v (n + 1)))) := by
  unfold moves at h
  cases hl : lab n with
  | none => rw [hl] at h; cases h
  | some l' =>
    rw [hl] at h
    simp only [Option.bind_some] at h
    split at h
    · next hs => cases h; exact ⟨rfl, hs⟩
    · cases h

theorem View.moves_none (hv : View env kinds fs todo σ who v lab) {n : Nat} (h : moves env v lab n = none) :
    flat (v (n + 1)) = flat (v n) ∧ ∀ l, lab n = some l →
      ((∃ ch, l = .master ch ∧ Waits (v n).base ∧ v (n + 1) = v n) ∨ ∃ ix, l = .worker ix ∧
        (((v (n + 1)).hand ix).level < ((v n).hand ix).level ∨ Mpi.step env (flat (v n)) l = .ok none)) := by
  cases hl : lab n with
  | none =>
    refine ⟨by rw [(hv.idle n hl).1], fun l h' => by cases h'⟩
  | some l =>
    obtain ⟨h1, _⟩ := hv.move n l hl
    rcases coarse_some (flat_reach (hv.mat n).1).1 h1 with h2 | ⟨h2, h3⟩
    · unfold moves at h
      rw [hl] at h
      simp only [Option.bind_some] at h
      rw [if_pos h2] at h
      cases h
    · refine ⟨h2, fun l' h' => ?_⟩
      cases h'
      exact h3

/-- The same for the machine in `Verif.Model.Mpi`. -/
theorem View.weak_flat (hv : View env kinds fs todo σ who v lab)
    (h : Sane (system kinds env) sleeper (agents kinds) (initial kinds fs todo) σ who)
    (hs : ∀ n l, ∃ o, step env (v n) l = .ok o) {t : Turn} (ht : ∀ ix, t = .worker ix → 0 < ix) (n : Nat) :
    ∃ m, n ≤ m ∧ ((∃ l, moves env v lab m = some l ∧ t.has l) ∨
      Mpi.step env (flat (v m)) (t.label (flat (v m))) = .ok none) := by
  by_contra hcon
  have hno : ∀ m l, n ≤ m → moves env v lab m = some l → ¬ t.has l := fun m l hm h1 h2 => hcon ⟨m, hm, Or.inl ⟨l, h1, h2⟩⟩
  have hen : ∀ m, n ≤ m → Mpi.step env (flat (v m)) (t.label (flat (v m))) ≠ .ok none := fun m hm h1 =>
    hcon ⟨m, hm, Or.inr h1⟩
  have hag : ∀ m, n ≤ m → ∃ k, m ≤ k ∧ ∃ l, lab k = some l ∧ t.has l := by
    intro m hm
    obtain ⟨k, hk, h1 | h1⟩ := hv.weak h hs ht (lf := fun m => t.label (flat (v m))) (fun m => t.has_label _) m
    · exact ⟨k, hk, h1⟩
    · exact absurd (coarse_none (flat_reach (hv.mat k).1).1 h1) (hen k (by omega))
  have hst : ∀ k l, n ≤ k → lab k = some l → t.has l → ((∃ ch, l = .master ch ∧ Waits (v k).base ∧ v (k + 1) = v k) ∨
      ∃ ix, l = .worker ix ∧ (((v (k + 1)).hand ix).level < ((v k).hand ix).level ∨ Mpi.step env (flat (v k)) l = .ok none)) := by
    intro k l hk h1 h2
    refine (hv.moves_none (n := k) ?_).2 l h1
    cases hm : moves env v lab k with
    | none => rfl
    | some l' =>
      have h3 := (moves_some hm).1
      rw [h1] at h3
      cases h3
      exact absurd h2 (hno k l hk hm)
  cases t with
  | thread ix i =>
    obtain ⟨k, hk, l, h1, h2⟩ := hag n le_rfl
    have h3 := hst k l hk h1 h2
    cases h2
    rcases h3 with ⟨_, h3, _⟩ | ⟨_, h3, _⟩ <;> cases h3
  | worker ix =>
    have dec : ∀ m, n ≤ m → (∃ l, lab m = some l ∧ (Turn.worker ix).has l) →
        ((v (m + 1)).hand ix).level < ((v m).hand ix).level := by
      rintro m hm ⟨l, h1, h2⟩
      have h3 := hst m l hm h1 h2
      cases h2
      rcases h3 with ⟨_, h3, _⟩ | ⟨jx, h3, h4⟩
      · cases h3
      · cases h3
        exact h4.resolve_right (hen m hm)
    refine Locks.no_descent (f := fun m => ((v m).hand ix).level) (p := fun m => ∃ l, lab m = some l ∧ (Turn.worker ix).has l)
      (n := n) (fun m hm => ?_) dec hag
    by_cases hp : ∃ l, lab m = some l ∧ (Turn.worker ix).has l
    · exact (dec m hm hp).le
    · show ((v (m + 1)).hand ix).level ≤ ((v m).hand ix).level
      cases hl : lab m with
      | none => rw [(hv.idle m hl).1]
      | some l => rw [step_hand (hv.move m l hl).1 fun he => hp ⟨l, hl, he⟩]
  | master =>
    have hw : ∀ m, n ≤ m → Waits (v m).base := by
      intro m hm
      by_contra hnw
      have hnw' : ∀ k, m ≤ k → ¬ Waits (v k).base := by
        intro k hk
        induction k, hk using Nat.le_induction with
        | base => exact hnw
        | succ k hk ih =>
          cases hl : lab k with
          | none => rw [(hv.idle k hl).1]; exact ih
          | some l =>
            by_cases hma : ∃ ch, l = .master ch
            · rcases hst k l (by omega) hl hma with ⟨_, _, h3, _⟩ | ⟨_, h3, _⟩
              · exact absurd h3 ih
              · obtain ⟨ch, rfl⟩ := hma
                cases h3
            · exact fun hw => ih ((step_kept (hv.move k l hl).1 fun ch hc => hma ⟨ch, hc⟩).waits hw)
      obtain ⟨k, hk, l, h1, h2⟩ := hag m hm
      rcases hst k l (by omega) h1 h2 with ⟨_, _, h3, _⟩ | ⟨_, h3, _⟩
      · exact hnw' k hk h3
      · obtain ⟨ch, rfl⟩ := h2
        cases h3
    have hpc : ∀ m, n ≤ m → (v m).base.pc = (v n).base.pc := by
      intro m hm
      induction m, hm using Nat.le_induction with
      | base => rfl
      | succ k hk ih =>
        rw [← ih]
        cases hl : lab k with
        | none => rw [(hv.idle k hl).1]
        | some l =>
          by_cases hma : ∃ ch, l = .master ch
          · rcases hst k l hk hl hma with ⟨_, _, _, h3⟩ | ⟨_, h3, _⟩
            · rw [h3]
            · obtain ⟨ch, rfl⟩ := hma
              cases h3
          · exact (step_kept (hv.move k l hl).1 fun ch hc => hma ⟨ch, hc⟩).pc
    have hrep : ∀ m, n ≤ m → _ := fun m hm => waits_reply (hw m hm) (hen m hm)
    obtain ⟨ix, _, hix⟩ := hrep n le_rfl
    have hlev : ∀ m, n ≤ m → ((v m).hand ix).level = 2 := by
      intro m hm
      obtain ⟨jx, h1, h2⟩ := hrep m hm
      rw [hpc m hm] at h2
      have : jx = ix := by
        rcases hix with ⟨c, hix⟩ | hix | ⟨k, hix⟩ <;> rw [hix] at h2 <;> rcases h2 with ⟨_, h2⟩ | h2 | ⟨_, h2⟩ <;> cases h2 <;> rfl
      rw [← this]
      exact h1
    have hne : ∀ m, n ≤ m → (v m).hand ix ≠ .none := by
      intro m hm h1
      have := hlev m hm
      rw [h1] at this
      cases this
    have h0 : 0 < ix := by
      rcases Nat.eq_zero_or_pos ix with h1 | h1
      · subst h1
        exact absurd (flat_reach (hv.mat n).1).1.zero (hne n le_rfl)
      · exact h1
    obtain ⟨k, hk, h1 | h1⟩ := hv.weak h hs (t := .worker ix) (fun jx hj => by cases hj; exact h0) (lf := fun _ => .worker ix)
      (fun _ => rfl) n
    · obtain ⟨l, h1, h2⟩ := h1
      cases h2
      have := reply_sent (hv.move k _ h1).1 (hlev k hk)
      rw [hlev (k + 1) (by omega)] at this
      cases this
    · refine reply_some h0 ?_ (hlev k hk) h1
      rw [(fixed_reach (hv.mat k).1).1]
      exact hand_lt (hv.mat k).1 (hne k hk)

/-- A notification is lost in the machine in `Verif.Model.Mpi` only if it is lost in small steps. -/
theorem View.alert (hv : View env kinds fs todo σ who v lab)
    (h : Sane (system kinds env) sleeper (agents kinds) (initial kinds fs todo) σ who)
    (ha : ∀ n a, who n = some a → Alert (σ n) a) {n : Nat} {l : Mpi.Label} (hm : moves env v lab n = some l) :
    Mpi.Alert (flat (v n)) l := by
  obtain ⟨h1, -⟩ := moves_some hm
  obtain ⟨hstep, a, h2, h3, -⟩ := hv.move n l h1
  have hw : who n = some a := h2.elim (fun h => h.1) fun h => h.1
  have hmem : ∀ x b, guard x = .inr b → (σ n).mem x = ofState (v n) x := fun x b hx => by
    rw [(hv.mat n).2]
    exact (abs_private (S := system kinds env) hx).symm
  have hcl := (flat_reach (hv.mat n).1).1
  have hout : (system kinds env).rest a (ofState (v n)) → (σ n).prog a = .out := by
    intro hr
    rw [(hv.mat n).2] at hr
    rcases h2 with ⟨_, k, reg, h4, _⟩ | ⟨_, h4, _⟩
    · exact absurd ((Inv.abs_rest (laws kinds env)).1 hr) ((h.invs (laws kinds env) n).awake _ _ _ h4)
    · exact h4
  have hal := ha n a hw
  cases l with
  | master ch =>
    have hx : a = .main 0 := by
      rcases h3 with ⟨ch', h3⟩ | ⟨_, _, _, h3⟩
      · match a, h3 with
        | .main 0, _ => rfl
        | .main (k + 1), h3 => cases h3
        | .thread ix i, h3 => cases h3
      · cases h3
    subst hx
    intro i hi
    have hi : (v n).base.pc = .shutNotify i ∨ ∃ b, (v n).base.pc = .notify i b := hi
    have hr : masterRests (ofState (v n) .master) := by
      unfold masterRests
      rw [show (ofState (v n) .master : MasterData).pc = (v n).base.pc from rfl]
      rcases hi with hi | ⟨b, hi⟩ <;> rw [hi] <;> trivial
    have := hal (hout hr) i (Or.inl ⟨rfl, by rw [hmem .master _ rfl]; exact hi.symm⟩)
    rw [hmem (.of 0 (.phase i)) _ rfl] at this
    exact this
  | worker ix =>
    have hx : a = .main ix ∧ 0 < ix := by
      rcases h3 with ⟨ch', h3⟩ | ⟨_, _, _, h3⟩
      · match a, h3 with
        | .main 0, h3 => cases h3
        | .main (k + 1), h3 => cases h3; exact ⟨rfl, by omega⟩
        | .thread ix i, h3 => cases h3
      · cases h3
    obtain ⟨rfl, hx⟩ := hx
    intro i hi
    have hi : ((v n).base.procs ix).pc = .shutNotify i ∨ ((v n).base.procs ix).pc = .notify i := hi
    have hh : (v n).hand ix = .none := by
      by_contra hh
      have := hcl.probe ix hh
      rw [this] at hi
      rcases hi with hi | hi <;> cases hi
    have hr : (system kinds env).rest (.main ix) (ofState (v n)) := by
      obtain ⟨k, rfl⟩ := Nat.exists_eq_succ_of_ne_zero (Nat.ne_of_gt hx)
      refine Or.inr ?_
      unfold workerRests
      rw [show (ofState (v n) (.of (k + 1) .worker) : WorkerData).hand = (v n).hand (k + 1) from rfl, hh,
        show (ofState (v n) (.of (k + 1) .worker) : WorkerData).pc = ((v n).base.procs (k + 1)).pc from rfl]
      rcases hi with hi | hi <;> rw [hi] <;> trivial
    have := hal (hout hr) i (Or.inr ⟨hx, by rw [hmem (.of ix .worker) _ rfl]; exact hh,
      by rw [hmem (.of ix .worker) _ rfl]; exact hi.symm⟩)
    rw [hmem (.of ix (.phase i)) _ rfl] at this
    exact this
  | thread ix i => trivial
  | spurious ix i => trivial

/-- Fair executions in small steps are executions of the machine in `Verif.Model.Mpi` in which all threads are scheduled
again and again. -/
theorem exists_exec (hsane : Sane (system kinds env) sleeper (agents kinds) (initial kinds fs todo) σ who)
    (hok : ∀ b, Mpi.Reachable env (Mpi.initial kinds fs todo) b → ∀ l, ∃ o, Mpi.step env b l = .ok o)
    (ha : ∀ n a, who n = some a → Alert (σ n) a) :
    ∃ (τ : Nat → Mpi.State) (ls : Nat → Mpi.Label) (v : Nat → State), Mpi.Exec env (Mpi.initial kinds fs todo) τ ls ∧
      (∀ n, Mpi.Alert (τ n) (ls n)) ∧ Mpi.Renewing τ ls ∧ (∀ n, Matches env kinds fs todo (abs (system kinds env) (σ n)) (v n)) ∧
      (∀ n, ∃ m, n ≤ m ∧ τ m = flat (v n)) ∧ ∀ m, ∃ n, τ m = flat (v n) := by
  obtain ⟨v, lab, hv⟩ := exists_view hsane
  have hs : ∀ n l, ∃ o, step env (v n) l = .ok o := fun n l =>
    coarse_ok (flat_reach (hv.mat n).1).1 (hok _ (flat_reach (hv.mat n).1).2 l)
  have h0 : flat (v 0) = Mpi.initial kinds fs todo := by
    rw [← (hv.mat 0).toState, hsane.run.start, (start_inv env kinds fs todo).2.toState, flat_start]
  obtain ⟨τ, ls, h1, h2, h3, _, h4, h5⟩ := Mpi.exec_of_weak (env := env) (b := fun n => flat (v n)) (mv := moves env v lab) h0
    (fun n l hl => (moves_some hl).2) (fun n hn => (hv.moves_none hn).1) (fun t ht n => hv.weak_flat hsane hs (fun ix hx => by
      subst hx
      exact ht.1) n) fun n l hl => hv.alert hsane ha hl
  exact ⟨τ, ls, v, h1, h2, h3, hv.mat, h4, h5⟩

end MpiLocks
end Hycu
