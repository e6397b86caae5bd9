import Verif.Lemmas.Parallel

/-!
Several runs: no step fails.
-/

namespace Hycu
namespace Parallel

open Run (Cmd Cont Env FileStoreObj Input Sect program Open)

section

variable {env : Env}

/-- Only the reading of records depends on what is in the directories. -/
theorem safe_threaded {st : Run.State} {l : Run.Label} {F : FileSystem} (h : ∃ o, Run.step env st l = .ok o)
    (hn : st.pc = .newStore → ∀ c rest, st.todo = .config c :: rest → F c.resultPath = st.fs c.resultPath) :
    ∃ o, Run.step env { st with fs := F } l = .ok o := by
  cases l with
  | thread i =>
    obtain ⟨o, h⟩ := h
    have hs : (if i < st.size then Run.threadStep env st i else .ok none) = .ok o := h
    show ∃ o, (if i < st.size then Run.threadStep env { st with fs := F } i else .ok none) = .ok o
    split at hs
    · rename_i hi
      rw [if_pos hi, threadStep_key, hs]
      exact ⟨_, rfl⟩
    · rename_i hi
      rw [if_neg hi]
      exact ⟨_, rfl⟩
  | spurious i =>
    show ∃ o, (if i < st.size ∧ (st.thr i).phase = .sleep then Res.ok (some (Run.wake { st with fs := F } i)) else .ok none) = .ok o
    split <;> exact ⟨_, rfl⟩
  | master ch =>
    have h' : ∃ o, Run.masterStep st ch = .ok o := h
    show ∃ o, Run.masterStep { st with fs := F } ch = .ok o
    have hflush : (∃ y, Run.flushFinished st = .ok y) → ∃ y, Run.flushFinished { st with fs := F } = .ok y := by
      rintro ⟨y, hy⟩
      rw [flushFinished_key, hy]
      exact ⟨_, rfl⟩
    unfold Run.masterStep at h' ⊢
    dsimp only
    cases hpc : st.pc with
    | main =>
      dsimp only
      unfold Run.mainStep
      dsimp only
      cases st.todo with
      | nil => exact ⟨_, rfl⟩
      | cons c rest =>
        cases c with
        | config c =>
          obtain ⟨v, hv⟩ := Run.verify_ok c F ch.create
          dsimp only
          rw [hv]
          exact ⟨_, rfl⟩
        | assign b => exact ⟨_, rfl⟩
    | wait k =>
      rw [hpc] at h'
      obtain ⟨o, h'⟩ := h'
      dsimp only at h' ⊢
      cases o with
      | none => exact absurd h' (by unfold Run.waitStep; cases Run.flushFinished st <;> nofun)
      | some x =>
        obtain ⟨y, h1, _⟩ := Res.bind_eq_ok.1 (Run.some_map_ok h')
        obtain ⟨z, hz⟩ := hflush ⟨y, h1⟩
        rw [hpc] at hz
        unfold Run.waitStep
        rw [hz]
        exact ⟨_, rfl⟩
    | write ws k =>
      cases ws with
      | nil => exact ⟨_, rfl⟩
      | cons w ws => exact ⟨_, rfl⟩
    | newStore =>
      rw [hpc] at h'
      dsimp only at h' ⊢
      cases htd : st.todo with
      | nil => exact ⟨_, rfl⟩
      | cons c rest =>
        cases c with
        | config c =>
          rw [htd] at h'
          dsimp only at h' ⊢
          have h1 := hn hpc c rest htd
          unfold Run.newStoreStep at h' ⊢
          dsimp only
          rw [h1]
          cases hd : st.fs c.resultPath with
          | none => exact ⟨_, rfl⟩
          | some d =>
            rw [hd] at h'
            dsimp only at h' ⊢
            obtain ⟨o, h'⟩ := h'
            cases hr : FileStore.initialRecord d with
            | ok r => exact ⟨_, rfl⟩
            | _ => rw [hr] at h'; cases h'
        | assign b => exact ⟨_, rfl⟩
    | update =>
      dsimp only
      cases st.todo with
      | nil => exact ⟨_, rfl⟩
      | cons c rest => cases c <;> exact ⟨_, rfl⟩
    | contains =>
      rw [hpc] at h'
      dsimp only at h' ⊢
      cases htd : st.todo with
      | nil => exact ⟨_, rfl⟩
      | cons c rest =>
        cases c with
        | config c => exact ⟨_, rfl⟩
        | assign b =>
          rw [htd] at h'
          dsimp only at h' ⊢
          unfold Run.containsStep at h' ⊢
          dsimp only
          cases hf : st.fileStore with
          | none =>
            rw [hf] at h'
            obtain ⟨o, h'⟩ := h'
            cases h'
          | some f =>
            dsimp only
            split
            · exact ⟨_, rfl⟩
            · split <;> exact ⟨_, rfl⟩
    | fillFinished =>
      rw [hpc] at h'
      obtain ⟨o, h'⟩ := h'
      dsimp only at h' ⊢
      obtain ⟨y, h1, _⟩ := Res.bind_eq_ok.1 h'
      obtain ⟨z, hz⟩ := hflush ⟨y, h1⟩
      rw [hpc] at hz
      rw [hz]
      exact ⟨_, rfl⟩
    | take =>
      rw [hpc] at h'
      obtain ⟨o, h'⟩ := h'
      dsimp only at h' ⊢
      cases htd : st.todo with
      | nil => exact ⟨_, rfl⟩
      | cons c rest =>
        cases c with
        | config c => exact ⟨_, rfl⟩
        | assign b =>
          rw [htd] at h'
          dsimp only at h' ⊢
          cases ht : Run.takeStep st b rest with
          | ok x =>
            have := (takeStep_fs ht).2.2.2.2 F
            rw [htd, hpc] at this
            rw [this]
            exact ⟨_, rfl⟩
          | _ => rw [ht] at h'; cases h'
    | shutdown i =>
      dsimp only
      split <;> exact ⟨_, rfl⟩
    | join i =>
      dsimp only
      split <;> exact ⟨_, rfl⟩
    | _ => exact ⟨_, rfl⟩

theorem safe_mpi {st : Mpi.State} {l : Mpi.Label} {F : FileSystem} (h : ∃ o, Mpi.step env st l = .ok o)
    (hn : st.pc = .newStore → ∀ c rest, st.todo = .config c :: rest → F c.resultPath = st.fs c.resultPath) :
    ∃ o, Mpi.step env { st with fs := F } l = .ok o := by
  cases l with
  | thread ix i =>
    obtain ⟨o, h⟩ := h
    have hs : (if ix < st.nprocs ∧ i < (st.procs ix).size then (do
        let p ← (st.procs ix).threadStep env i
        pure (p.map (st.setProc ix))) else .ok none) = Res.ok o := h
    show ∃ o, (if ix < st.nprocs ∧ i < (st.procs ix).size then (do
          let p ← (st.procs ix).threadStep env i
          pure (p.map (Mpi.State.setProc { st with fs := F } ix))) else .ok none) = Res.ok o
    split at hs
    · rename_i hi
      obtain ⟨o, h1, h2⟩ := Res.bind_eq_ok.1 hs
      rw [if_pos hi, h1]
      exact ⟨_, rfl⟩
    · rename_i hi
      rw [if_neg hi]
      exact ⟨_, rfl⟩
  | worker ix =>
    obtain ⟨o, h⟩ := h
    have hs : (if 0 < ix ∧ ix < st.nprocs then (do
        let p ← (st.procs ix).workerStep
        pure (p.map (st.setProc ix))) else .ok none) = Res.ok o := h
    show ∃ o, (if 0 < ix ∧ ix < st.nprocs then (do
          let p ← (st.procs ix).workerStep
          pure (p.map (Mpi.State.setProc { st with fs := F } ix))) else .ok none) = Res.ok o
    split at hs
    · rename_i hi
      obtain ⟨o, h1, h2⟩ := Res.bind_eq_ok.1 hs
      rw [if_pos hi, h1]
      exact ⟨_, rfl⟩
    · rename_i hi
      rw [if_neg hi]
      exact ⟨_, rfl⟩
  | spurious ix i =>
    show ∃ o, (if ix < st.nprocs ∧ i < (st.procs ix).size ∧ ((st.procs ix).thr i).phase = .sleep then
        Res.ok (some (Mpi.State.setProc { st with fs := F } ix ((st.procs ix).wake i))) else .ok none) = .ok o
    split <;> exact ⟨_, rfl⟩
  | master ch =>
    have h' : ∃ o, Mpi.masterStep st ch = .ok o := h
    show ∃ o, Mpi.masterStep { st with fs := F } ch = .ok o
    unfold Mpi.masterStep at h' ⊢
    dsimp only
    cases hpc : st.pc with
    | main =>
      dsimp only
      unfold Mpi.mainStep
      dsimp only
      cases st.todo with
      | nil => exact ⟨_, rfl⟩
      | cons c rest =>
        cases c with
        | config c =>
          obtain ⟨v, hv⟩ := Run.verify_ok c F ch.create
          dsimp only
          rw [hv]
          exact ⟨_, rfl⟩
        | assign b => exact ⟨_, rfl⟩
    | flush k =>
      rw [hpc] at h'
      obtain ⟨o, h'⟩ := h'
      dsimp only at h' ⊢
      cases o with
      | none =>
        exact absurd h' (by
          unfold Mpi.flushStep
          dsimp only
          cases Mpi.finishedBlocks (st.setProc 0 (st.procs 0).flushFinished.1) 0 (st.procs 0).flushFinished.2 <;> nofun)
      | some x =>
        obtain ⟨y, h1, _⟩ := Res.bind_eq_ok.1 (Run.some_map_ok h')
        unfold Mpi.finishedBlocks at h1
        obtain ⟨a, h2, _⟩ := Res.bind_eq_ok.1 h1
        have h3 : Run.eraseFinished (st.procs 0).flushFinished.2 (st.assigned 0) = .ok a := h2
        unfold Mpi.flushStep Mpi.finishedBlocks
        dsimp only [Mpi.State.setProc]
        rw [h3]
        exact ⟨_, rfl⟩
    | flushRecv ix k =>
      rw [hpc] at h'
      obtain ⟨o, h'⟩ := h'
      dsimp only at h' ⊢
      unfold Mpi.flushRecvStep at h' ⊢
      dsimp only
      cases hb : (st.procs ix).finishedOut with
      | nil => exact ⟨_, rfl⟩
      | cons bs rest =>
        rw [hb] at h'
        dsimp only at h' ⊢
        obtain ⟨y, h1, _⟩ := Res.bind_eq_ok.1 h'
        unfold Mpi.finishedBlocks at h1
        obtain ⟨a, h2, _⟩ := Res.bind_eq_ok.1 h1
        have h3 : Run.eraseFinished bs (st.assigned ix) = .ok a := h2
        unfold Mpi.finishedBlocks
        dsimp only [Mpi.State.setProc]
        rw [h3]
        exact ⟨_, rfl⟩
    | saveRecv ix k =>
      rw [hpc] at h'
      obtain ⟨o, h'⟩ := h'
      dsimp only at h' ⊢
      unfold Mpi.saveRecvStep at h' ⊢
      dsimp only
      cases hb : (st.procs ix).saveOut with
      | nil => exact ⟨_, rfl⟩
      | cons bs rest =>
        rw [hb] at h'
        dsimp only at h' ⊢
        cases hf : st.fileStore with
        | none => rw [hf] at h'; cases h'
        | some f => exact ⟨_, rfl⟩
    | write ws ix k =>
      cases ws with
      | nil => exact ⟨_, rfl⟩
      | cons w ws => exact ⟨_, rfl⟩
    | newStore =>
      rw [hpc] at h'
      dsimp only at h' ⊢
      cases htd : st.todo with
      | nil => exact ⟨_, rfl⟩
      | cons c rest =>
        cases c with
        | config c =>
          rw [htd] at h'
          dsimp only at h' ⊢
          have h1 := hn hpc c rest htd
          unfold Mpi.newStoreStep at h' ⊢
          dsimp only
          rw [h1]
          cases hd : st.fs c.resultPath with
          | none => exact ⟨_, rfl⟩
          | some d =>
            rw [hd] at h'
            dsimp only at h' ⊢
            obtain ⟨o, h'⟩ := h'
            cases hr : FileStore.initialRecord d with
            | ok r => exact ⟨_, rfl⟩
            | _ => rw [hr] at h'; cases h'
        | assign b => exact ⟨_, rfl⟩
    | update =>
      dsimp only
      cases st.todo with
      | nil => exact ⟨_, rfl⟩
      | cons c rest => cases c <;> exact ⟨_, rfl⟩
    | configSend ix =>
      dsimp only
      cases st.todo with
      | nil => exact ⟨_, rfl⟩
      | cons c rest =>
        cases c with
        | config c =>
          dsimp only
          split <;> exact ⟨_, rfl⟩
        | assign b => exact ⟨_, rfl⟩
    | contains =>
      rw [hpc] at h'
      dsimp only at h' ⊢
      cases htd : st.todo with
      | nil => exact ⟨_, rfl⟩
      | cons c rest =>
        cases c with
        | config c => exact ⟨_, rfl⟩
        | assign b =>
          rw [htd] at h'
          dsimp only at h' ⊢
          unfold Mpi.containsStep at h' ⊢
          dsimp only
          cases hf : st.fileStore with
          | none =>
            rw [hf] at h'
            obtain ⟨o, h'⟩ := h'
            cases h'
          | some f =>
            dsimp only
            split
            · exact ⟨_, rfl⟩
            · split <;> exact ⟨_, rfl⟩
    | take =>
      rw [hpc] at h'
      obtain ⟨o, h'⟩ := h'
      dsimp only at h' ⊢
      cases htd : st.todo with
      | nil => exact ⟨_, rfl⟩
      | cons c rest =>
        cases c with
        | config c => exact ⟨_, rfl⟩
        | assign b =>
          rw [htd] at h'
          dsimp only at h' ⊢
          cases ht : Mpi.takeStep st b rest with
          | ok x =>
            have := (takeStep_mpi_fs ht).2.2.2.2 F
            rw [htd, hpc] at this
            rw [this]
            exact ⟨_, rfl⟩
          | _ => rw [ht] at h'; cases h'
    | flushSend ix c =>
      dsimp only
      split <;> exact ⟨_, rfl⟩
    | readySend ix =>
      dsimp only
      split <;> exact ⟨_, rfl⟩
    | saveSend ix k =>
      dsimp only
      split <;> exact ⟨_, rfl⟩
    | stopSend ix =>
      dsimp only
      split <;> exact ⟨_, rfl⟩
    | shutdown i =>
      dsimp only
      split <;> exact ⟨_, rfl⟩
    | join i =>
      dsimp only
      split <;> exact ⟨_, rfl⟩
    | _ => exact ⟨_, rfl⟩

theorem safe_step {s : Prog} {l : Move} {F G : FileSystem} (h : ∃ o, (s.withFs G).step env l = .ok o)
    (hn : s.stage = 1 → ∀ c rest, s.todo = .config c :: rest → F c.resultPath = G c.resultPath) :
    ∃ o, (s.withFs F).step env l = .ok o := by
  cases s with
  | threaded st =>
    cases l with
    | mpi l => exact ⟨none, rfl⟩
    | threaded l =>
      obtain ⟨o, h⟩ := h
      obtain ⟨o', h1, _⟩ := Res.bind_eq_ok.1 h
      obtain ⟨o₂, h2⟩ := safe_threaded (st := { st with fs := G }) (F := F) ⟨o', h1⟩ fun hpc c rest h3 =>
        hn (by show pcStage st.pc = 1; rw [show st.pc = _ from hpc]; rfl) c rest h3
      refine ⟨o₂.map .threaded, ?_⟩
      show Res.bind (Run.step env { st with fs := F } l) _ = _
      have h3 : Run.step env { st with fs := F } l = .ok o₂ := h2
      rw [h3]
      rfl
  | mpi st =>
    cases l with
    | threaded l => exact ⟨none, rfl⟩
    | mpi l =>
      obtain ⟨o, h⟩ := h
      obtain ⟨o', h1, _⟩ := Res.bind_eq_ok.1 h
      obtain ⟨o₂, h2⟩ := safe_mpi (st := { st with fs := G }) (F := F) ⟨o', h1⟩ fun hpc c rest h3 =>
        hn (by show mpiStage st.pc = 1; rw [show st.pc = _ from hpc]; rfl) c rest h3
      refine ⟨o₂.map .mpi, ?_⟩
      show Res.bind (Mpi.step env { st with fs := F } l) _ = _
      have h3 : Mpi.step env { st with fs := F } l = .ok o₂ := h2
      rw [h3]
      rfl

end

end Parallel
end Hycu
