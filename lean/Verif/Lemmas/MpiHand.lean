import Verif.Lemmas.MpiLocksLaws
import Verif.Spec.MpiLocks
import Verif.Lemmas.MpiStep

/-!
The machine in which the main thread of a worker receives, handles and replies in separate steps does what the machine in
`Verif.Model.Mpi` does.
-/

namespace Hycu
namespace MpiLocks

open Mpi (Proc Msg)
open Run (Env Choice)

theorem flatProc_none (p : Proc) : flatProc p .none = p := by simp [flatProc, Hand.msgs, Hand.finisheds, Hand.readys, Hand.saveds]

/-- A main thread with a message or a reply is in the loop. -/
structure Clean (st : State) : Prop where
  zero : st.hand 0 = .none
  probe : ∀ ix, st.hand ix ≠ .none → (st.base.procs ix).pc = .probe

theorem flat_zero {st : State} (h : Clean st) : (flat st).procs 0 = st.base.procs 0 := by
  show flatProc _ _ = _
  rw [h.zero, flatProc_none]

theorem flat_setProc (b : Mpi.State) (hand : Nat → Hand) (ix : Nat) (p : Proc) (h : Hand) :
    flat ⟨b.setProc ix p, Function.update hand ix h⟩ = (flat ⟨b, hand⟩).setProc ix (flatProc p h) := by
  unfold flat Mpi.State.setProc
  simp only
  congr 1
  funext k
  by_cases hk : k = ix
  · subst hk
    simp only [Function.update_self]
  · simp only [Function.update_of_ne hk]

theorem flat_set (b : Mpi.State) (hand : Nat → Hand) (ix : Nat) (p : Proc) :
    flat ⟨b.setProc ix p, hand⟩ = (flat ⟨b, hand⟩).setProc ix (flatProc p (hand ix)) := by
  rw [← flat_setProc, Function.update_eq_self]

theorem threadStep_flat (env : Env) (p : Proc) (h : Hand) (i : Nat) :
    (flatProc p h).threadStep env i = (p.threadStep env i).bind fun o => .ok (o.map fun p' => flatProc p' h) := by
  unfold Proc.threadStep
  have e : (flatProc p h).thr i = p.thr i := rfl
  simp only [e]
  cases hp : (p.thr i).phase with
  | check =>
    simp only
    split
    · rfl
    · split <;> rfl
  | wait => rfl
  | sleep => rfl
  | pop =>
    simp only
    cases (p.thr i).queue <;> rfl
  | compute j =>
    simp only
    cases j.tables with
    | none => rfl
    | some tb =>
      show (env.compute tb.cfg j.block).bind _ = ((env.compute tb.cfg j.block).bind _).bind _
      cases env.compute tb.cfg j.block with
      | ok m =>
        show (Store.flushToStatic p.static m j.block).bind _ = ((Store.flushToStatic p.static m j.block).bind _).bind _
        cases Store.flushToStatic p.static m j.block <;> rfl
      | _ => rfl
  | report j =>
    show (p.pool.finishedBlock j.block).bind _ = ((p.pool.finishedBlock j.block).bind _).bind _
    cases p.pool.finishedBlock j.block <;> rfl
  | done => rfl

theorem wake_flat (p : Proc) (h : Hand) (i : Nat) : (flatProc p h).wake i = flatProc (p.wake i) h := by
  unfold Proc.wake
  show (if (p.thr i).phase = .sleep then _ else _) = _
  split <;> rfl

theorem send_flat (p : Proc) (h : Hand) (m : Msg) : (flatProc p h).send m = flatProc (p.send m) h := by
  simp [flatProc, Proc.send]

theorem flat_send (b : Mpi.State) (hand : Nat → Hand) (ix : Nat) (m : Msg) :
    flat ⟨b.send ix m, hand⟩ = (flat ⟨b, hand⟩).send ix m := by
  unfold Mpi.State.send
  rw [flat_set, ← send_flat]
  rfl

theorem finishedBlocks_flat (b : Mpi.State) (hand : Nat → Hand) (ix : Nat) (bs : List Block) :
    Mpi.finishedBlocks (flat ⟨b, hand⟩) ix bs = (Mpi.finishedBlocks b ix bs).bind fun b' => .ok (flat ⟨b', hand⟩) := by
  unfold Mpi.finishedBlocks
  show (Run.eraseFinished bs (b.assigned ix)).bind _ = ((Run.eraseFinished bs (b.assigned ix)).bind _).bind _
  cases Run.eraseFinished bs (b.assigned ix) <;> rfl

theorem fileSave_flat (b : Mpi.State) (hand : Nat → Hand) (f : Run.FileStoreObj) (id : Nat) (s : List Char × List Char)
    (ix : Nat) (k : Run.Cont) : Mpi.fileSave (flat ⟨b, hand⟩) f id s ix k =
      (Mpi.fileSave b f id s ix k).map fun b' => flat ⟨b', hand⟩ := by
  unfold Mpi.fileSave
  split
  · show (match b.fs f.config.resultPath with | none => _ | some d => _) = Option.map _ (match b.fs f.config.resultPath with
      | none => _ | some d => _)
    cases b.fs f.config.resultPath with
    | none => rfl
    | some d =>
      simp only
      split <;> rfl
  · rfl

theorem mainStep_flat (b : Mpi.State) (hand : Nat → Hand) (ch : Choice) : Mpi.mainStep (flat ⟨b, hand⟩) ch =
    (Mpi.mainStep b ch).bind fun b' => .ok (flat ⟨b', hand⟩) := by
  unfold Mpi.mainStep
  have e : (flat ⟨b, hand⟩).todo = b.todo := rfl
  simp only [e]
  cases hb : b.todo with
  | nil => rfl
  | cons x l =>
    cases x with
    | config c =>
      show (c.verify b.fs (.ok ch.create)).bind _ = ((c.verify b.fs (.ok ch.create)).bind _).bind _
      cases c.verify b.fs (.ok ch.create) <;> rfl
    | assign bl => rfl

theorem passBlock_flat (b : Mpi.State) (hand : Nat → Hand) (h0 : hand 0 = .none) (ix : Nat) (bl : Block) (o : Bool) :
    Mpi.passBlock (flat ⟨b, hand⟩) ix bl o = (Mpi.passBlock b ix bl o).bind fun b' => .ok (flat ⟨b', hand⟩) := by
  unfold Mpi.passBlock
  split
  · have e : (flat ⟨b, hand⟩).procs 0 = b.procs 0 := by
      show flatProc _ (hand 0) = _
      rw [h0, flatProc_none]
    rw [e]
    show ((b.procs 0).assign bl o).bind _ = (((b.procs 0).assign bl o).bind _).bind _
    cases (b.procs 0).assign bl o with
    | ok r =>
      show Res.ok _ = Res.ok (flat ⟨{ b.setProc 0 r.1 with pc := _ }, hand⟩)
      congr 1
      have := flat_set b hand 0 r.1
      rw [h0, flatProc_none] at this
      show ({ (flat ⟨b, hand⟩).setProc 0 r.1 with pc := .notify r.2 bl } : Mpi.State) =
        { flat ⟨b.setProc 0 r.1, hand⟩ with pc := .notify r.2 bl }
      rw [this]
    | _ => rfl
  · show Res.ok _ = Res.ok (flat ⟨{ b.send ix _ with pc := _ }, hand⟩)
    congr 1
    show _ = ({ flat ⟨b.send ix (.assign o bl), hand⟩ with pc := .insert ix bl } : Mpi.State)
    rw [flat_send]

theorem some_bind {hand : Nat → Hand} {r r' : Res Mpi.State} (h : r' = r.bind fun b' => .ok (flat ⟨b', hand⟩)) :
    some <$> r' = (some <$> r).bind fun o => .ok (o.map fun b' => flat ⟨b', hand⟩) := by
  subst h
  cases r <;> rfl

theorem masterStep_flat (b : Mpi.State) (hand : Nat → Hand) (h0 : hand 0 = .none) (hw : ¬ Waits b) (ch : Choice) :
    Mpi.masterStep (flat ⟨b, hand⟩) ch = (Mpi.masterStep b ch).bind fun o => .ok (o.map fun b' => flat ⟨b', hand⟩) := by
  have e : (flat ⟨b, hand⟩).procs 0 = b.procs 0 := by
    show flatProc _ (hand 0) = _
    rw [h0, flatProc_none]
  have set0 : ∀ p pc, ({ (flat ⟨b, hand⟩).setProc 0 p with pc := pc } : Mpi.State) = flat ⟨{ b.setProc 0 p with pc := pc }, hand⟩ := by
    intro p pc
    have := flat_set b hand 0 p
    rw [h0, flatProc_none] at this
    show _ = ({ flat ⟨b.setProc 0 p, hand⟩ with pc := pc } : Mpi.State)
    rw [this]
  have snd : ∀ ix m pc, ({ (flat ⟨b, hand⟩).send ix m with pc := pc } : Mpi.State) = flat ⟨{ b.send ix m with pc := pc }, hand⟩ := by
    intro ix m pc
    show _ = ({ flat ⟨b.send ix m, hand⟩ with pc := pc } : Mpi.State)
    rw [flat_send]
  have e1 : (flat ⟨b, hand⟩).pc = b.pc := rfl
  have e2 : (flat ⟨b, hand⟩).todo = b.todo := rfl
  have e3 : (flat ⟨b, hand⟩).nprocs = b.nprocs := rfl
  have e4 : (flat ⟨b, hand⟩).fileStore = b.fileStore := rfl
  have e5 : (flat ⟨b, hand⟩).openclQueue = b.openclQueue := rfl
  have e6 : (flat ⟨b, hand⟩).cpuQueue = b.cpuQueue := rfl
  have e7 : (flat ⟨b, hand⟩).fs = b.fs := rfl
  unfold Mpi.masterStep
  simp only [e1, e2, e3]
  unfold Waits at hw
  cases hpc : b.pc with
  | main => exact some_bind (mainStep_flat b hand ch)
  | flush c =>
    refine some_bind ?_
    unfold Mpi.flushStep
    rw [e]
    have := flat_set b hand 0 (b.procs 0).flushFinished.1
    rw [h0, flatProc_none] at this
    simp only
    rw [← this, finishedBlocks_flat]
    show (Res.bind _ _).bind _ = (Res.bind _ _).bind _
    cases Mpi.finishedBlocks (b.setProc 0 (b.procs 0).flushFinished.1) 0 (b.procs 0).flushFinished.2 <;> rfl
  | flushSend ix c =>
    simp only
    split
    · rw [snd]; rfl
    · rfl
  | flushRecv ix c =>
    simp only [hpc] at hw
    simp only
    unfold Mpi.flushRecvStep
    cases ho : (b.procs ix).finishedOut with
    | nil => exact absurd ho hw
    | cons bs rest =>
      have : ((flat ⟨b, hand⟩).procs ix).finishedOut = bs :: (rest ++ (hand ix).finisheds) := by
        show (b.procs ix).finishedOut ++ _ = _
        rw [ho]; rfl
      rw [this]
      simp only
      have h2 : (flat ⟨b, hand⟩).setProc ix { (flat ⟨b, hand⟩).procs ix with finishedOut := rest ++ (hand ix).finisheds } =
          flat ⟨b.setProc ix { b.procs ix with finishedOut := rest }, hand⟩ := by
        rw [flat_set]; rfl
      rw [h2, finishedBlocks_flat]
      show (Res.bind _ _).bind _ = (Res.bind _ _).bind _
      cases Mpi.finishedBlocks (b.setProc ix { b.procs ix with finishedOut := rest }) ix bs <;> rfl
  | waited k => rfl
  | ready =>
    show Res.ok _ = Res.ok _
    congr 2
    unfold Mpi.readyStep
    rw [e]
    have := flat_set b hand 0 (b.procs 0).flushReady.1
    rw [h0, flatProc_none] at this
    show ({ Mpi.pushIdle ((flat ⟨b, hand⟩).setProc 0 (b.procs 0).flushReady.1) 0 (b.procs 0).flushReady.2 with
        pc := .readySend 1 } : Mpi.State) =
      { Mpi.pushIdle (flat ⟨b.setProc 0 (b.procs 0).flushReady.1, hand⟩) 0 (b.procs 0).flushReady.2 with pc := .readySend 1 }
    rw [this]
  | readySend ix =>
    simp only
    split
    · rw [snd]; rfl
    · rfl
  | readyRecv ix =>
    simp only [hpc] at hw
    simp only
    unfold Mpi.readyRecvStep
    cases ho : (b.procs ix).readyOut with
    | nil => exact absurd ho hw
    | cons n rest =>
      have : ((flat ⟨b, hand⟩).procs ix).readyOut = n :: (rest ++ (hand ix).readys) := by
        show (b.procs ix).readyOut ++ _ = _
        rw [ho]; rfl
      rw [this]
      simp only
      have h2 : (flat ⟨b, hand⟩).setProc ix { (flat ⟨b, hand⟩).procs ix with readyOut := rest ++ (hand ix).readys } =
          flat ⟨b.setProc ix { b.procs ix with readyOut := rest }, hand⟩ := by
        rw [flat_set]; rfl
      rw [h2]
      rfl
  | filled => rfl
  | save k =>
    simp only
    show Res.ok _ = Res.ok _
    congr 1
    unfold Mpi.saveStep
    rw [e, e4]
    cases b.fileStore with
    | none => rfl
    | some f =>
      have := flat_set b hand 0 (b.procs 0).flushStatic.1
      rw [h0, flatProc_none] at this
      simp only
      rw [← this, fileSave_flat]
  | saveSend ix k =>
    simp only
    split
    · rw [snd]; rfl
    · rfl
  | saveRecv ix k =>
    simp only [hpc] at hw
    simp only
    unfold Mpi.saveRecvStep
    cases ho : (b.procs ix).saveOut with
    | nil => exact absurd ho hw
    | cons s rest =>
      have : ((flat ⟨b, hand⟩).procs ix).saveOut = s :: (rest ++ (hand ix).saveds) := by
        show (b.procs ix).saveOut ++ _ = _
        rw [ho]; rfl
      rw [this, e4]
      simp only
      cases b.fileStore with
      | none => rfl
      | some f =>
        have h2 : (flat ⟨b, hand⟩).setProc ix { (flat ⟨b, hand⟩).procs ix with saveOut := rest ++ (hand ix).saveds } =
            flat ⟨b.setProc ix { b.procs ix with saveOut := rest }, hand⟩ := by
          rw [flat_set]; rfl
        simp only
        rw [h2, fileSave_flat]
        rfl
  | write ws ix k =>
    cases ws with
    | nil => rfl
    | cons w ws =>
      show Res.ok _ = Res.ok _
      congr 2
      unfold Mpi.writeStep
      rw [e4, e7]
      cases b.fileStore with
      | none => rfl
      | some f =>
        simp only
        cases b.fs f.config.resultPath <;> rfl
  | newStore =>
    simp only
    cases b.todo with
    | nil => rfl
    | cons x rest =>
      cases x with
      | assign _ => rfl
      | config c =>
        refine some_bind ?_
        unfold Mpi.newStoreStep
        rw [e7]
        cases b.fs c.resultPath with
        | none => rfl
        | some d =>
          show (FileStore.initialRecord d).bind _ = ((FileStore.initialRecord d).bind _).bind _
          cases FileStore.initialRecord d <;> rfl
  | update =>
    simp only
    cases b.todo with
    | nil => rfl
    | cons x rest =>
      cases x with
      | assign _ => rfl
      | config c =>
        simp only
        rw [e, set0]
        rfl
  | configSend ix =>
    simp only
    cases b.todo with
    | nil => rfl
    | cons x rest =>
      cases x with
      | assign _ => rfl
      | config c =>
        simp only
        split
        · rw [snd]; rfl
        · rfl
  | contains =>
    simp only
    cases b.todo with
    | nil => rfl
    | cons x rest =>
      cases x with
      | config _ => rfl
      | assign bl =>
        refine some_bind ?_
        unfold Mpi.containsStep
        rw [e4, e5]
        cases b.fileStore with
        | none => rfl
        | some f =>
          simp only
          split
          · rfl
          · split <;> rfl
  | take =>
    simp only
    cases b.todo with
    | nil => rfl
    | cons x rest =>
      cases x with
      | config _ => rfl
      | assign bl =>
        refine some_bind ?_
        unfold Mpi.takeStep
        rw [e5, e6]
        cases b.openclQueue with
        | cons ix q => exact passBlock_flat { b with openclQueue := q, todo := rest } hand h0 ix bl true
        | nil =>
          cases b.cpuQueue with
          | cons ix q => exact passBlock_flat { b with cpuQueue := q, openclQueue := [], todo := rest } hand h0 ix bl false
          | nil => rfl
  | notify i bl =>
    simp only
    rw [e, set0]
    rfl
  | insert ix bl => rfl
  | stopSend ix =>
    simp only
    split
    · rw [snd]; rfl
    · rfl
  | shutdown i =>
    simp only
    rw [e, set0]
    split <;> rfl
  | shutNotify i =>
    simp only
    rw [e, set0]
    rfl
  | join i =>
    simp only
    rw [e]
    split <;> rfl
  | finished => rfl

/-- The number of steps until the next message is handled. -/
def Hand.level : Hand → Nat
  | .got _ => 0
  | .none => 1
  | _ => 2

/-- What a step of the main thread of a worker is in the other machine. -/
inductive WorkerFlat (p : Proc) (h : Hand) : Res (Option (Proc × Hand)) → Prop
  | stutter (p' : Proc) (h' : Hand) (hf : flatProc p' h' = flatProc p h) (hp : h' ≠ .none → p'.pc = .probe)
      (hl : h'.level < h.level ∨ (flatProc p h).workerStep = .ok none) : WorkerFlat p h (.ok (some (p', h')))
  | move (r : Res (Option (Proc × Hand)))
      (hr : (flatProc p h).workerStep = r.bind fun o => .ok (o.map fun q => flatProc q.1 q.2))
      (hp : ∀ p' h', r = .ok (some (p', h')) → h' ≠ .none → p'.pc = .probe) : WorkerFlat p h r

theorem worker_flat (p : Proc) (h : Hand) (hp : h ≠ .none → p.pc = .probe) : WorkerFlat p h (workerStep p h) := by
  have self : p.pc = .probe → ({ p with pc := .probe } : Proc) = p := fun h => by rw [← h]
  have took : ∀ m, h = .got m → (flatProc p h).workerStep = some <$> p.handle m := by
    rintro m rfl
    have h1 : p.pc = .probe := hp (by simp)
    have h2 : flatProc p (.got m) = { p with inbox := m :: p.inbox } := by
      simp [flatProc, Hand.msgs, Hand.finisheds, Hand.readys, Hand.saveds]
    rw [h2]
    unfold Proc.workerStep
    simp only [h1]
    show some <$> ({ p with pc := .probe } : Proc).handle m = _
    rw [self h1]
  unfold workerStep
  cases h with
  | none =>
    simp only
    split
    · next hpc =>
      split
      · next hb =>
        refine .stutter _ _ rfl (fun h => absurd rfl h) (Or.inr ?_)
        rw [flatProc_none]
        unfold Proc.workerStep
        simp only [hpc, hb]
      · next m ms hb =>
        refine .stutter _ _ ?_ (fun _ => hpc) (Or.inl Nat.zero_lt_one)
        simp [flatProc, Hand.msgs, Hand.finisheds, Hand.readys, Hand.saveds, hb]
    · next hpc =>
      refine .move _ ?_ ?_
      · rw [flatProc_none]
        show _ = (p.workerStep.bind fun o => .ok (o.map fun p' => (p', Hand.none))).bind _
        cases p.workerStep with
        | ok o =>
          cases o with
          | none => rfl
          | some q =>
            show Res.ok (some q) = Res.ok (some (flatProc q .none))
            rw [flatProc_none]
        | _ => rfl
      · intro p' h' hr hh
        obtain ⟨o, _, h2⟩ := Res.bind_eq_ok.1 hr
        cases o with
        | none => cases h2
        | some q => cases h2; exact absurd rfl hh
  | got m =>
    have h1 := hp (by simp)
    have h2 := took m rfl
    cases m with
    | readyThreads =>
      refine .move _ ?_ fun p' h' hr _ => by cases hr; exact h1
      rw [h2]
      show Res.ok (some _) = Res.ok (some (flatProc _ (.ready _)))
      simp [flatProc, Hand.msgs, Hand.finisheds, Hand.readys, Hand.saveds, Proc.flushReady]
    | save =>
      refine .move _ ?_ fun p' h' hr _ => by cases hr; exact h1
      rw [h2]
      show Res.ok (some _) = Res.ok (some (flatProc _ (.saved _)))
      simp [flatProc, Hand.msgs, Hand.finisheds, Hand.readys, Hand.saveds, Proc.flushStatic]
    | finishedBlocks =>
      refine .move _ ?_ fun p' h' hr _ => by cases hr; exact h1
      rw [h2]
      show Res.ok (some _) = Res.ok (some (flatProc _ (.finished _)))
      simp [flatProc, Hand.msgs, Hand.finisheds, Hand.readys, Hand.saveds, Proc.flushFinished]
    | _ =>
      simp only
      rw [self h1]
      refine .move _ ?_ fun p' h' hr hh => ?_
      · rw [h2]
        show Res.bind _ _ = (Res.bind _ _).bind _
        generalize p.handle _ = r
        cases r with
        | ok q =>
          show Res.ok (some q) = Res.ok (some (flatProc q .none))
          rw [flatProc_none]
        | _ => rfl
      · obtain ⟨o, _, h2⟩ := Res.bind_eq_ok.1 hr
        cases h2
        exact absurd rfl hh
  | ready n =>
    have h1 := hp (by simp)
    refine .stutter _ _ ?_ (fun h => absurd rfl h) (Or.inl (Nat.lt_succ_self 1))
    simp [flatProc, Hand.msgs, Hand.finisheds, Hand.readys, Hand.saveds, h1]
  | saved s =>
    have h1 := hp (by simp)
    refine .stutter _ _ ?_ (fun h => absurd rfl h) (Or.inl (Nat.lt_succ_self 1))
    simp [flatProc, Hand.msgs, Hand.finisheds, Hand.readys, Hand.saveds, h1]
  | finished bs =>
    have h1 := hp (by simp)
    refine .stutter _ _ ?_ (fun h => absurd rfl h) (Or.inl (Nat.lt_succ_self 1))
    simp [flatProc, Hand.msgs, Hand.finisheds, Hand.readys, Hand.saveds, h1]

/-- What a step is in the other machine. -/
inductive StepFlat (env : Env) (st : State) (l : Mpi.Label) : Res (Option State) → Prop
  | stutter (st' : State) (hf : flat st' = flat st)
      (hl : (∃ ch, l = .master ch ∧ Waits st.base ∧ st' = st) ∨
        ∃ ix, l = .worker ix ∧ ((st'.hand ix).level < (st.hand ix).level ∨ Mpi.step env (flat st) l = .ok none)) :
      StepFlat env st l (.ok (some st'))
  | move (r : Res (Option State)) (hr : Mpi.step env (flat st) l = r.bind fun o => .ok (o.map flat)) : StepFlat env st l r

theorem setProc_self (b : Mpi.State) (ix : Nat) : b.setProc ix (b.procs ix) = b := by
  unfold Mpi.State.setProc
  rw [Function.update_eq_self]

theorem step_flat (env : Env) {st : State} (h : Clean st) (l : Mpi.Label) : StepFlat env st l (step env st l) := by
  cases l with
  | master ch =>
    unfold step
    simp only
    split
    · next hw => exact .stutter _ rfl (Or.inl ⟨ch, rfl, hw, rfl⟩)
    · next hw =>
      refine .move _ ?_
      show Mpi.masterStep (flat ⟨st.base, st.hand⟩) ch = (Res.bind _ _).bind _
      rw [masterStep_flat _ _ h.zero hw]
      cases Mpi.masterStep st.base ch with
      | ok o => cases o <;> rfl
      | _ => rfl
  | worker ix =>
    unfold step
    simp only
    split
    · next hc =>
      have hw := worker_flat (st.base.procs ix) (st.hand ix) (h.probe ix)
      show StepFlat env st _ (Res.bind _ _)
      generalize workerStep (st.base.procs ix) (st.hand ix) = r at hw
      cases hw with
      | stutter p' h' hf hp hl =>
        refine .stutter _ ?_ (Or.inr ⟨ix, rfl, ?_⟩)
        · show flat ⟨st.base.setProc ix p', Function.update st.hand ix h'⟩ = _
          rw [flat_setProc, hf]
          exact setProc_self (flat st) ix
        · rcases hl with hl | hl
          · left
            show (Function.update st.hand ix h' ix).level < _
            rw [Function.update_self]
            exact hl
          · right
            have e : Mpi.step env (flat st) (.worker ix) = (flatProc (st.base.procs ix) (st.hand ix)).workerStep.bind
                fun p => .ok (p.map ((flat st).setProc ix)) := if_pos hc
            rw [e, hl]
            rfl
      | move _ hr hp =>
        refine .move _ ?_
        have e : Mpi.step env (flat st) (.worker ix) = (flatProc (st.base.procs ix) (st.hand ix)).workerStep.bind
            fun p => .ok (p.map ((flat st).setProc ix)) := if_pos hc
        rw [e, hr]
        cases r with
        | ok o =>
          cases o with
          | none => rfl
          | some q =>
            show Res.ok (some _) = Res.ok (some (flat ⟨_, _⟩))
            rw [flat_setProc]
        | _ => rfl
    · next hc =>
      refine .move _ ?_
      exact if_neg hc
  | thread ix i =>
    refine .move _ ?_
    show (if ix < st.base.nprocs ∧ i < (st.base.procs ix).size then _ else _) =
      (Res.bind (if ix < st.base.nprocs ∧ i < (st.base.procs ix).size then _ else _) _).bind _
    split
    · show ((flatProc (st.base.procs ix) (st.hand ix)).threadStep env i).bind _ =
        ((((st.base.procs ix).threadStep env i).bind _).bind _).bind _
      rw [threadStep_flat]
      cases (st.base.procs ix).threadStep env i with
      | ok o =>
        cases o with
        | none => rfl
        | some p =>
          show Res.ok (some _) = Res.ok (some (flat ⟨_, _⟩))
          rw [flat_set]
      | _ => rfl
    · rfl
  | spurious ix i =>
    refine .move _ ?_
    show (if ix < st.base.nprocs ∧ i < (st.base.procs ix).size ∧ ((st.base.procs ix).thr i).phase = .sleep then _ else _) =
      (Res.bind (if ix < st.base.nprocs ∧ i < (st.base.procs ix).size ∧ ((st.base.procs ix).thr i).phase = .sleep then _
        else _) _).bind _
    split
    · show Res.ok (some _) = Res.ok (some (flat ⟨_, _⟩))
      rw [flat_set, ← wake_flat]
      rfl
    · rfl

/-- The master does not move the main threads of the workers. -/
theorem master_pc {st st' : Mpi.State} (h : Mpi.MStep st st') (k : Nat) (hk : k ≠ 0) :
    (st'.procs k).pc = (st.procs k).pc := by
  have h0 : ∀ p, (Function.update st.procs 0 p k).pc = (st.procs k).pc := fun p => by rw [Function.update_of_ne hk]
  have h1 : ∀ ix p, p.pc = (st.procs ix).pc → (Function.update st.procs ix p k).pc = (st.procs k).pc := fun ix p hp => by
    by_cases hx : k = ix
    · subst hx
      rw [Function.update_self, hp]
    · rw [Function.update_of_ne hx]
  cases h <;> first | rfl | exact h0 _ | exact h1 _ _ rfl

theorem Clean.step {env : Env} {st st' : State} (h : Clean st) {l : Mpi.Label} (hs : step env st l = .ok (some st')) :
    Clean st' := by
  have one : ∀ ix p, p.pc = (st.base.procs ix).pc → Clean ⟨st.base.setProc ix p, st.hand⟩ := fun ix p hp => by
    refine ⟨h.zero, fun k hk => ?_⟩
    show (Function.update st.base.procs ix p k).pc = _
    by_cases hx : k = ix
    · subst hx
      rw [Function.update_self, hp]
      exact h.probe k hk
    · rw [Function.update_of_ne hx]
      exact h.probe k hk
  cases l with
  | master ch =>
    unfold MpiLocks.step at hs
    simp only at hs
    split at hs
    · cases hs
      exact h
    · obtain ⟨o, h1, h2⟩ := Res.bind_eq_ok.1 hs
      cases o with
      | none => cases h2
      | some b =>
        cases h2
        refine ⟨h.zero, fun k hk => ?_⟩
        have hk0 : k ≠ 0 := by
          rintro rfl
          exact hk h.zero
        show (b.procs k).pc = _
        rw [master_pc (Mpi.masterStep_cases h1) k hk0]
        exact h.probe k hk
  | worker ix =>
    unfold MpiLocks.step at hs
    simp only at hs
    split at hs
    · next hc =>
      obtain ⟨o, h1, h2⟩ := Res.bind_eq_ok.1 hs
      cases o with
      | none => cases h2
      | some r =>
        cases h2
        have hw := worker_flat (st.base.procs ix) (st.hand ix) (h.probe ix)
        rw [h1] at hw
        have hp : r.2 ≠ .none → r.1.pc = .probe := by
          cases hw with
          | stutter p' h' hf hp => exact hp
          | move _ hr hp => exact hp _ _ rfl
        refine ⟨?_, fun k hk => ?_⟩
        · show Function.update st.hand ix r.2 0 = _
          rw [Function.update_of_ne (by omega)]
          exact h.zero
        · change Function.update st.hand ix r.2 k ≠ _ at hk
          show (Function.update st.base.procs ix r.1 k).pc = _
          by_cases hx : k = ix
          · subst hx
            rw [Function.update_self] at hk ⊢
            exact hp hk
          · rw [Function.update_of_ne hx] at hk ⊢
            exact h.probe k hk
    · cases hs
  | thread ix i =>
    obtain ⟨o, h1, h2⟩ := Res.bind_eq_ok.1 hs
    cases o with
    | none => cases h2
    | some b =>
      cases h2
      change (if _ then _ else _) = _ at h1
      split at h1
      · obtain ⟨o, h3, h4⟩ := Res.bind_eq_ok.1 h1
        cases o with
        | none => cases h4
        | some p =>
          cases h4
          refine one ix p ?_
          cases Mpi.Proc.threadStep_cases h3 <;> rfl
      · cases h1
  | spurious ix i =>
    obtain ⟨o, h1, h2⟩ := Res.bind_eq_ok.1 hs
    cases o with
    | none => cases h2
    | some b =>
      cases h2
      change (if _ then _ else _) = _ at h1
      split at h1
      · cases h1
        refine one ix _ ?_
        unfold Proc.wake
        split <;> rfl
      · cases h1

/-- States that can be reached. -/
inductive Reach (env : Env) (st₀ : State) : State → Prop
  | refl : Reach env st₀ st₀
  | step {st st' : State} (l : Mpi.Label) (h : Reach env st₀ st) (hs : MpiLocks.step env st l = .ok (some st')) :
      Reach env st₀ st'

theorem clean_start (kinds : List (List Bool)) (fs : FileSystem) (todo : List Run.Cmd) : Clean (start kinds fs todo) :=
  ⟨rfl, fun _ h => absurd rfl h⟩

theorem flat_start (kinds : List (List Bool)) (fs : FileSystem) (todo : List Run.Cmd) :
    flat (start kinds fs todo) = Mpi.initial kinds fs todo := by
  unfold flat start
  simp only [flatProc_none]

theorem flat_reach {env : Env} {kinds : List (List Bool)} {fs : FileSystem} {todo : List Run.Cmd} {st : State}
    (h : Reach env (start kinds fs todo) st) : Clean st ∧ Mpi.Reachable env (Mpi.initial kinds fs todo) (flat st) := by
  induction h with
  | refl => exact ⟨clean_start _ _ _, by rw [flat_start]; exact .refl⟩
  | step l _ hs ih =>
    obtain ⟨h1, h2⟩ := ih
    refine ⟨h1.step hs, ?_⟩
    have hf := step_flat env h1 l
    rw [hs] at hf
    cases hf with
    | stutter _ hf _ => rw [hf]; exact h2
    | move _ hr => exact .step l h2 hr

/-- The other direction: receive, handle and reply one after the other. -/
theorem reach_of {env : Env} {kinds : List (List Bool)} {fs : FileSystem} {todo : List Run.Cmd} {b : Mpi.State}
    (h : Mpi.Reachable env (Mpi.initial kinds fs todo) b) : Reach env (start kinds fs todo) ⟨b, fun _ => .none⟩ := by
  induction h with
  | refl => exact .refl
  | @step b b' l _ hs ih =>
    cases l with
    | master ch =>
      refine .step (.master ch) ih ?_
      have hw : ¬ Waits b := by
        intro hw
        change Mpi.masterStep b ch = _ at hs
        unfold Waits at hw
        unfold Mpi.masterStep at hs
        split at hw
        · next hpc =>
          simp only [hpc] at hs
          unfold Mpi.flushRecvStep at hs
          rw [hw] at hs
          cases hs
        · next hpc =>
          simp only [hpc] at hs
          unfold Mpi.readyRecvStep at hs
          rw [hw] at hs
          cases hs
        · next hpc =>
          simp only [hpc] at hs
          unfold Mpi.saveRecvStep at hs
          rw [hw] at hs
          cases hs
        · exact hw
      show (if Waits b then _ else _) = _
      rw [if_neg hw]
      show (Mpi.masterStep b ch).bind _ = _
      rw [show Mpi.masterStep b ch = .ok (some b') from hs]
      rfl
    | thread ix i =>
      refine .step (.thread ix i) ih ?_
      show (Mpi.step env b (.thread ix i)).bind _ = _
      rw [hs]
      rfl
    | spurious ix i =>
      refine .step (.spurious ix i) ih ?_
      show (Mpi.step env b (.spurious ix i)).bind _ = _
      rw [hs]
      rfl
    | worker ix =>
      change (if 0 < ix ∧ ix < b.nprocs then (b.procs ix).workerStep.bind _ else .ok none) = _ at hs
      split at hs
      · next hc =>
        obtain ⟨o, h1, h2⟩ := Res.bind_eq_ok.1 hs
        cases o with
        | none => cases h2
        | some p =>
          cases h2
          have go : ∀ {q : Proc} {h : Hand} {q' : Proc} {h' : Hand}, workerStep q h = .ok (some (q', h')) →
              Reach env (start kinds fs todo) ⟨b.setProc ix q, Function.update (fun _ => .none) ix h⟩ →
              Reach env (start kinds fs todo) ⟨b.setProc ix q', Function.update (fun _ => .none) ix h'⟩ := by
            intro q h q' h' hq hr
            refine .step (.worker ix) hr ?_
            show (if 0 < ix ∧ ix < b.nprocs then Res.bind (workerStep (Function.update b.procs ix q ix)
              (Function.update (fun _ => Hand.none) ix h ix)) _ else _) = _
            rw [if_pos hc, Function.update_self, Function.update_self, hq]
            show Res.ok (some (State.mk (Mpi.State.setProc (Mpi.State.setProc b ix q) ix q')
              (Function.update (Function.update _ _ _) _ _))) = _
            unfold Mpi.State.setProc
            simp only [Function.update_idem]
          have ih' : Reach env (start kinds fs todo) ⟨b.setProc ix (b.procs ix), Function.update (fun _ => .none) ix .none⟩ := by
            rw [setProc_self]
            have : Function.update (fun _ : Nat => Hand.none) ix .none = fun _ => .none := Function.update_eq_self ix _
            rw [this]
            exact ih
          have fin : ∀ q, Reach env (start kinds fs todo) ⟨b.setProc ix q, Function.update (fun _ => .none) ix .none⟩ →
              Reach env (start kinds fs todo) ⟨b.setProc ix q, fun _ => .none⟩ := by
            intro q hq
            have : Function.update (fun _ : Nat => Hand.none) ix .none = fun _ => .none := Function.update_eq_self ix _
            rwa [this] at hq
          refine fin p ?_
          generalize b.procs ix = q at h1 ih'
          by_cases hpc : q.pc = .probe
          · cases hin : q.inbox with
            | nil =>
              unfold Proc.workerStep at h1
              simp only [hpc, hin] at h1
              cases h1
            | cons m ms =>
              have r1 := go (q' := { q with inbox := ms }) (h' := .got m) (by
                unfold workerStep
                simp only [hpc, hin]) ih'
              have self : ({ q with inbox := ms, pc := .probe } : Proc) = { q with inbox := ms } := by rw [← hpc]
              have h1' : some <$> ({ q with inbox := ms } : Proc).handle m = .ok (some p) := by
                unfold Proc.workerStep at h1
                simp only [hpc, hin] at h1
                rw [← self]
                exact h1
              have h3 := Run.some_map_ok h1'
              cases m with
              | readyThreads =>
                have r2 := go (q' := _) (h' := _) rfl r1
                have r3 := go (q' := _) (h' := _) rfl r2
                cases h3
                have : ({ ({ q with inbox := ms } : Proc).flushReady.1 with
                  readyOut := ({ q with inbox := ms } : Proc).flushReady.1.readyOut ++ [({ q with inbox := ms } : Proc).flushReady.2],
                  pc := .probe } : Proc) = { ({ q with inbox := ms } : Proc).flushReady.1 with
                  readyOut := ({ q with inbox := ms } : Proc).flushReady.1.readyOut ++ [({ q with inbox := ms } : Proc).flushReady.2] } := by
                  rw [← hpc]; rfl
                rw [this] at r3
                exact r3
              | save =>
                have r2 := go (q' := _) (h' := _) rfl r1
                have r3 := go (q' := _) (h' := _) rfl r2
                cases h3
                have : ({ ({ q with inbox := ms } : Proc).flushStatic.1 with
                  saveOut := ({ q with inbox := ms } : Proc).flushStatic.1.saveOut ++ [({ q with inbox := ms } : Proc).flushStatic.2],
                  pc := .probe } : Proc) = { ({ q with inbox := ms } : Proc).flushStatic.1 with
                  saveOut := ({ q with inbox := ms } : Proc).flushStatic.1.saveOut ++ [({ q with inbox := ms } : Proc).flushStatic.2] } := by
                  rw [← hpc]; rfl
                rw [this] at r3
                exact r3
              | finishedBlocks =>
                have r2 := go (q' := _) (h' := _) rfl r1
                have r3 := go (q' := _) (h' := _) rfl r2
                cases h3
                have : ({ ({ q with inbox := ms } : Proc).flushFinished.1 with
                  finishedOut := ({ q with inbox := ms } : Proc).flushFinished.1.finishedOut ++ [({ q with inbox := ms } : Proc).flushFinished.2],
                  pc := .probe } : Proc) = { ({ q with inbox := ms } : Proc).flushFinished.1 with
                  finishedOut := ({ q with inbox := ms } : Proc).flushFinished.1.finishedOut ++ [({ q with inbox := ms } : Proc).flushFinished.2] } := by
                  rw [← hpc]; rfl
                rw [this] at r3
                exact r3
              | _ =>
                refine go (q' := p) (h' := .none) ?_ r1
                unfold workerStep
                simp only
                rw [self, h3]
                rfl
          · refine go ?_ ih'
            unfold workerStep
            simp only
            rw [h1]
            rfl
      · cases hs

end MpiLocks
end Hycu
