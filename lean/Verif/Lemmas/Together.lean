import Verif.Spec.Together
import Verif.Lemmas.Live

/-!
Files outside of the directories of the sections do not matter for a run.
-/

namespace Hycu

open Classical in
/-- The files in the directories of the sections, and the given files elsewhere. -/
noncomputable def FileSystem.mask (P : List Char → Prop) (fs₀ fs : FileSystem) : FileSystem :=
  fun p => if P p then fs p else fs₀ p

namespace FileSystem

variable {P : List Char → Prop} {fs₀ fs fs' : FileSystem} {p : List Char}

theorem mask_of (h : P p) : mask P fs₀ fs p = fs p := if_pos h

theorem mask_set (h : P p) (d : Dir) : mask P fs₀ (fs.set p d) = (mask P fs₀ fs).set p d := by
  funext q
  unfold mask FileSystem.set
  by_cases hq : q = p
  · subst hq
    simp [h]
  · simp [hq]

theorem mask_congr (h : ∀ p, P p → fs p = fs' p) : mask P fs₀ fs = mask P fs₀ fs' := by
  funext q
  unfold mask
  split
  · exact h q ‹_›
  · rfl

end FileSystem

theorem ConfigNode.verify_mask {P : List Char → Prop} {fs₀ fs : FileSystem} {c : ConfigNode} (h : P c.resultPath)
    (cr : Res Bool) : c.verify (FileSystem.mask P fs₀ fs) cr =
      (fun r => (FileSystem.mask P fs₀ r.1, r.2)) <$> c.verify fs cr := by
  unfold ConfigNode.verify
  rw [FileSystem.mask_of h]
  split
  · split
    · rfl
    · cases cr with
      | ok b =>
        cases b
        · rfl
        · exact congrArg (fun x => Res.ok (x, decide (c.packageSize ≠ 0))) (FileSystem.mask_set h []).symm
      | _ => rfl
  · rfl

namespace Run

/-- The directories that are used from now on. -/
structure Uses (P : List Char → Prop) (todo : List Cmd) (f : Option FileStoreObj) : Prop where
  todo : ∀ c, .config c ∈ todo → P c.resultPath
  store : ∀ g, f = some g → P g.config.resultPath

variable {P : List Char → Prop} {fs₀ : FileSystem} {env : Env} {st : State}

/-- The state with the given files outside of the directories. -/
noncomputable def State.mask (P : List Char → Prop) (fs₀ : FileSystem) (st : State) : State :=
  { st with fs := FileSystem.mask P fs₀ st.fs }

theorem threadStep_mask (i : Nat) : threadStep env (st.mask P fs₀) i = Option.map (State.mask P fs₀) <$> threadStep env st i := by
  unfold threadStep
  have h1 : (st.mask P fs₀).thr = st.thr := rfl
  have h2 : (st.mask P fs₀).static = st.static := rfl
  have h3 : (st.mask P fs₀).pool = st.pool := rfl
  simp only [h1, h2, h3]
  cases (st.thr i).phase with
  | check =>
    dsimp only
    split
    · rfl
    · split <;> rfl
  | wait => rfl
  | sleep => rfl
  | pop => cases (st.thr i).queue <;> rfl
  | compute j =>
    dsimp only
    cases j.tables with
    | none => rfl
    | some tb =>
      dsimp only
      cases env.compute tb.cfg j.block with
      | ok m =>
        simp only [Res.bind_ok]
        cases Store.flushToStatic st.static m j.block <;> rfl
      | _ => rfl
  | report j =>
    dsimp only
    cases st.pool.finishedBlock j.block <;> rfl
  | done => rfl

theorem wake_mask (i : Nat) : wake (st.mask P fs₀) i = (wake st i).mask P fs₀ := by
  unfold wake
  have h1 : (st.mask P fs₀).thr = st.thr := rfl
  rw [h1]
  split <;> rfl

theorem flushFinished_mask : flushFinished (st.mask P fs₀) = State.mask P fs₀ <$> flushFinished st := by
  unfold flushFinished
  have h1 : (st.mask P fs₀).pool = st.pool := rfl
  have h2 : (st.mask P fs₀).assigned = st.assigned := rfl
  rw [h1, h2]
  cases eraseFinished st.pool.finished st.assigned <;> rfl

theorem saveStep_mask (hu : Uses P st.todo st.fileStore) (id : Nat) (k : Cont) :
    saveStep (st.mask P fs₀) id k = Option.map (State.mask P fs₀) (saveStep st id k) := by
  unfold saveStep
  have h1 : (st.mask P fs₀).fileStore = st.fileStore := rfl
  have h2 : (st.mask P fs₀).static = st.static := rfl
  have h3 : (st.mask P fs₀).fs = FileSystem.mask P fs₀ st.fs := rfl
  rw [h1, h2, h3]
  cases hf : st.fileStore with
  | none => rfl
  | some f =>
    dsimp only
    rw [FileSystem.mask_of (hu.store f hf)]
    split
    · cases st.fs f.config.resultPath with
      | none => rfl
      | some d =>
        dsimp only
        split <;> rfl
    · rfl

theorem writeStep_mask (hu : Uses P st.todo st.fileStore) (n c : List Char) (ws : List (List Char × List Char)) (k : Cont) :
    writeStep (st.mask P fs₀) n c ws k = (writeStep st n c ws k).mask P fs₀ := by
  unfold writeStep
  have h1 : (st.mask P fs₀).fileStore = st.fileStore := rfl
  have h3 : (st.mask P fs₀).fs = FileSystem.mask P fs₀ st.fs := rfl
  rw [h1, h3]
  cases hf : st.fileStore with
  | none => rfl
  | some f =>
    dsimp only
    rw [FileSystem.mask_of (hu.store f hf)]
    cases st.fs f.config.resultPath with
    | none => rfl
    | some d =>
      dsimp only
      rw [← FileSystem.mask_set (hu.store f hf)]
      rfl

theorem mainStep_mask (hu : Uses P st.todo st.fileStore) (ch : Choice) :
    mainStep (st.mask P fs₀) ch = State.mask P fs₀ <$> mainStep st ch := by
  unfold mainStep
  have h1 : (st.mask P fs₀).todo = st.todo := rfl
  have h3 : (st.mask P fs₀).fs = FileSystem.mask P fs₀ st.fs := rfl
  rw [h1, h3]
  cases ht : st.todo with
  | nil => rfl
  | cons x rest =>
    cases x with
    | config c =>
      dsimp only
      rw [ConfigNode.verify_mask (hu.todo c (by rw [ht]; exact List.mem_cons_self))]
      cases c.verify st.fs (.ok ch.create) <;> rfl
    | assign b => rfl

theorem newStoreStep_mask {c : ConfigNode} (hc : P c.resultPath) :
    newStoreStep (st.mask P fs₀) c = State.mask P fs₀ <$> newStoreStep st c := by
  unfold newStoreStep
  have h3 : (st.mask P fs₀).fs = FileSystem.mask P fs₀ st.fs := rfl
  rw [h3, FileSystem.mask_of hc]
  cases st.fs c.resultPath with
  | none => rfl
  | some d =>
    dsimp only
    cases FileStore.initialRecord d <;> rfl

theorem containsStep_mask (b : Block) (rest : List Cmd) :
    containsStep (st.mask P fs₀) b rest = State.mask P fs₀ <$> containsStep st b rest := by
  unfold containsStep
  have h1 : (st.mask P fs₀).fileStore = st.fileStore := rfl
  have h2 : (st.mask P fs₀).nmbOpencl = st.nmbOpencl := rfl
  rw [h1, h2]
  cases st.fileStore with
  | none => rfl
  | some f =>
    dsimp only
    split
    · rfl
    · split <;> rfl

theorem takeStep_mask (b : Block) (rest : List Cmd) :
    takeStep (st.mask P fs₀) b rest = State.mask P fs₀ <$> takeStep st b rest := by
  unfold takeStep
  have h1 : (st.mask P fs₀).thr = st.thr := rfl
  have h2 : (st.mask P fs₀).nmbOpencl = st.nmbOpencl := rfl
  have h3 : (st.mask P fs₀).pool = st.pool := rfl
  rw [h1, h2, h3]
  split
  · cases st.pool.assign (fun i => (st.thr i).opencl) b true <;> rfl
  · cases st.pool.assign (fun i => (st.thr i).opencl) b false <;> rfl

theorem waitStep_mask (k : Cont) : waitStep (st.mask P fs₀) k = State.mask P fs₀ <$> waitStep st k := by
  unfold waitStep
  rw [flushFinished_mask]
  cases flushFinished st <;> rfl

theorem masterStep_mask (hu : Uses P st.todo st.fileStore) (ch : Choice) :
    masterStep (st.mask P fs₀) ch = Option.map (State.mask P fs₀) <$> masterStep st ch := by
  unfold masterStep
  have h1 : (st.mask P fs₀).todo = st.todo := rfl
  have h2 : (st.mask P fs₀).pc = st.pc := rfl
  have h3 : (st.mask P fs₀).size = st.size := rfl
  have h4 : (st.mask P fs₀).thr = st.thr := rfl
  have h5 : (st.mask P fs₀).assigned = st.assigned := rfl
  rw [h2]
  cases hpc : st.pc with
  | main =>
    dsimp only
    rw [mainStep_mask hu]
    cases mainStep st ch <;> rfl
  | wait k =>
    dsimp only
    rw [waitStep_mask]
    cases waitStep st k <;> rfl
  | save k =>
    dsimp only
    rw [saveStep_mask hu]
    rfl
  | write ws k =>
    cases ws with
    | nil => rfl
    | cons w ws =>
      obtain ⟨n, c⟩ := w
      dsimp only
      rw [writeStep_mask hu]
      rfl
  | newStore =>
    dsimp only
    rw [h1]
    cases ht : st.todo with
    | nil => rfl
    | cons x rest =>
      cases x with
      | config c =>
        dsimp only
        rw [newStoreStep_mask (hu.todo c (by rw [ht]; exact List.mem_cons_self))]
        cases newStoreStep st c <;> rfl
      | assign b => rfl
  | update =>
    dsimp only
    rw [h1]
    cases st.todo with
    | nil => rfl
    | cons x rest => cases x <;> rfl
  | contains =>
    dsimp only
    rw [h1]
    cases st.todo with
    | nil => rfl
    | cons x rest =>
      cases x with
      | config c => rfl
      | assign b =>
        dsimp only
        rw [containsStep_mask]
        cases containsStep st b rest <;> rfl
  | fillFinished =>
    dsimp only
    rw [flushFinished_mask]
    cases flushFinished st <;> rfl
  | fillReady => rfl
  | take =>
    dsimp only
    rw [h1]
    cases st.todo with
    | nil => rfl
    | cons x rest =>
      cases x with
      | config c => rfl
      | assign b =>
        dsimp only
        rw [takeStep_mask]
        cases takeStep st b rest <;> rfl
  | notify i b =>
    dsimp only
    rw [wake_mask]
    rfl
  | insert b => rfl
  | shutdown i =>
    dsimp only
    rw [h3]
    split <;> rfl
  | shutNotify i =>
    dsimp only
    rw [wake_mask]
    rfl
  | join i =>
    dsimp only
    rw [h4]
    split <;> rfl
  | finished => rfl

/-- A step does the same with other files outside of the directories that are used. -/
theorem step_mask (hu : Uses P st.todo st.fileStore) (l : Label) :
    Run.step env (st.mask P fs₀) l = Option.map (State.mask P fs₀) <$> Run.step env st l := by
  unfold Run.step
  have h3 : (st.mask P fs₀).size = st.size := rfl
  have h4 : (st.mask P fs₀).thr = st.thr := rfl
  cases l with
  | thread i =>
    dsimp only
    rw [h3]
    split
    · exact threadStep_mask i
    · rfl
  | master ch => exact masterStep_mask hu ch
  | spurious i =>
    dsimp only
    rw [h3, h4]
    split
    · rw [wake_mask]
      rfl
    · rfl

theorem Uses.tail {x : Cmd} {rest : List Cmd} {f : Option FileStoreObj} (h : Uses P (x :: rest) f) : Uses P rest f :=
  ⟨fun c hc => h.todo c (List.mem_cons_of_mem _ hc), h.store⟩

theorem Uses.opened {c : ConfigNode} {todo rest : List Cmd} {f : Option FileStoreObj} (h : Uses P todo f)
    (ht : todo = .config c :: rest) (v : Bool) (r : OSet Block) : Uses P todo (some ⟨c, v, r⟩) := by
  refine ⟨h.todo, fun g hg => ?_⟩
  cases hg
  exact h.todo c (by rw [ht]; exact List.mem_cons_self)

theorem Uses.program {ss : List Sect} (h : ∀ s ∈ ss, P s.cfg.resultPath) : Uses P (Run.program ss) none := by
  refine ⟨fun c hc => ?_, fun _ h => by cases h⟩
  unfold Run.program at hc
  obtain ⟨s, hs, hc⟩ := List.mem_flatMap.1 hc
  rcases List.mem_cons.1 hc with hc | hc
  · cases hc
    exact h s hs
  · obtain ⟨b, _, hb⟩ := List.mem_map.1 hc
    cases hb

theorem wake_same (i : Nat) : (wake st i).todo = st.todo ∧ (wake st i).fileStore = st.fileStore := by
  unfold wake
  split <;> exact ⟨rfl, rfl⟩

theorem Uses.step {st' : State} {l : Label} (hu : Uses P st.todo st.fileStore) (h : Run.step env st l = .ok (some st')) :
    Uses P st'.todo st'.fileStore := by
  have ht := step_trans h
  generalize l.actor = a at ht
  cases ht with
  | newStoreInvalid _ c rest ht => exact hu.opened ht _ _
  | newStore _ c rest ht => exact hu.opened ht _ _
  | update _ c rest ht =>
    rw [ht] at hu
    exact hu.tail
  | skip _ c rest ht =>
    rw [ht] at hu
    exact hu.tail
  | takeOpencl _ b rest ht =>
    rw [ht] at hu
    exact hu.tail
  | takeCpu _ b rest ht =>
    rw [ht] at hu
    exact hu.tail
  | notify i b _ =>
    show Uses P (wake st i).todo (wake st i).fileStore
    rw [(wake_same i).1, (wake_same i).2]
    exact hu
  | shutNotify i _ =>
    show Uses P (wake st i).todo (wake st i).fileStore
    rw [(wake_same i).1, (wake_same i).2]
    exact hu
  | _ => exact hu

end Run

namespace Mpi

open Run (Uses Env Sect Choice Cont Cmd FileStoreObj)

variable {P : List Char → Prop} {fs₀ : FileSystem} {env : Env} {st : State}

/-- The state with the given files outside of the directories. -/
noncomputable def State.mask (P : List Char → Prop) (fs₀ : FileSystem) (st : State) : State :=
  { st with fs := FileSystem.mask P fs₀ st.fs }

theorem mainStep_mask (hu : Uses P st.todo st.fileStore) (ch : Choice) :
    mainStep (st.mask P fs₀) ch = State.mask P fs₀ <$> mainStep st ch := by
  unfold mainStep
  have h1 : (st.mask P fs₀).todo = st.todo := rfl
  have h3 : (st.mask P fs₀).fs = FileSystem.mask P fs₀ st.fs := rfl
  rw [h1, h3]
  cases ht : st.todo with
  | nil => rfl
  | cons x rest =>
    cases x with
    | config c =>
      dsimp only
      rw [ConfigNode.verify_mask (hu.todo c (by rw [ht]; exact List.mem_cons_self))]
      cases c.verify st.fs (.ok ch.create) <;> rfl
    | assign b => rfl

theorem finishedBlocks_mask (ix : Nat) (bs : List Block) :
    finishedBlocks (st.mask P fs₀) ix bs = State.mask P fs₀ <$> finishedBlocks st ix bs := by
  unfold finishedBlocks
  have h1 : (st.mask P fs₀).assigned = st.assigned := rfl
  rw [h1]
  cases Run.eraseFinished bs (st.assigned ix) <;> rfl

theorem flushStep_mask (c : Caller) : flushStep (st.mask P fs₀) c = State.mask P fs₀ <$> flushStep st c := by
  unfold flushStep
  have h1 : (st.mask P fs₀).setProc 0 ((st.mask P fs₀).procs 0).flushFinished.1 =
    (st.setProc 0 (st.procs 0).flushFinished.1).mask P fs₀ := rfl
  have h2 : (st.mask P fs₀).procs = st.procs := rfl
  dsimp only
  rw [h1, h2, finishedBlocks_mask]
  cases finishedBlocks (st.setProc 0 (st.procs 0).flushFinished.1) 0 (st.procs 0).flushFinished.2 <;> rfl

theorem flushRecvStep_mask (ix : Nat) (c : Caller) :
    flushRecvStep (st.mask P fs₀) ix c = Option.map (State.mask P fs₀) <$> flushRecvStep st ix c := by
  unfold flushRecvStep
  have h2 : (st.mask P fs₀).procs = st.procs := rfl
  rw [h2]
  cases (st.procs ix).finishedOut with
  | nil => rfl
  | cons bs rest =>
    have h1 : (st.mask P fs₀).setProc ix { st.procs ix with finishedOut := rest } =
      (st.setProc ix { st.procs ix with finishedOut := rest }).mask P fs₀ := rfl
    dsimp only
    rw [h1, finishedBlocks_mask]
    cases finishedBlocks (st.setProc ix { st.procs ix with finishedOut := rest }) ix bs <;> rfl

theorem fileSave_mask {f : FileStoreObj} (hf : P f.config.resultPath) (id : Nat) (s : List Char × List Char) (ix : Nat)
    (k : Cont) : fileSave (st.mask P fs₀) f id s ix k = Option.map (State.mask P fs₀) (fileSave st f id s ix k) := by
  unfold fileSave
  have h3 : (st.mask P fs₀).fs = FileSystem.mask P fs₀ st.fs := rfl
  rw [h3, FileSystem.mask_of hf]
  split
  · cases st.fs f.config.resultPath with
    | none => rfl
    | some d =>
      dsimp only
      split <;> rfl
  · rfl

theorem saveStep_mask (hu : Uses P st.todo st.fileStore) (id : Nat) (k : Cont) :
    saveStep (st.mask P fs₀) id k = Option.map (State.mask P fs₀) (saveStep st id k) := by
  unfold saveStep
  have h1 : (st.mask P fs₀).fileStore = st.fileStore := rfl
  rw [h1]
  cases hf : st.fileStore with
  | none => rfl
  | some f => exact fileSave_mask (st := st.setProc 0 (st.procs 0).flushStatic.1) (hu.store f hf) id _ 0 k

theorem saveRecvStep_mask (hu : Uses P st.todo st.fileStore) (id ix : Nat) (k : Cont) :
    saveRecvStep (st.mask P fs₀) id ix k = Option.map (State.mask P fs₀) <$> saveRecvStep st id ix k := by
  unfold saveRecvStep
  have h1 : (st.mask P fs₀).fileStore = st.fileStore := rfl
  have h2 : (st.mask P fs₀).procs = st.procs := rfl
  rw [h1, h2]
  cases (st.procs ix).saveOut with
  | nil => rfl
  | cons s rest =>
    dsimp only
    cases hf : st.fileStore with
    | none => rfl
    | some f =>
      exact congrArg Res.ok
        (fileSave_mask (st := st.setProc ix { st.procs ix with saveOut := rest }) (hu.store f hf) id s ix k)

theorem writeStep_mask (hu : Uses P st.todo st.fileStore) (n c : List Char) (ws : List (List Char × List Char)) (ix : Nat)
    (k : Cont) : writeStep (st.mask P fs₀) n c ws ix k = (writeStep st n c ws ix k).mask P fs₀ := by
  unfold writeStep
  have h1 : (st.mask P fs₀).fileStore = st.fileStore := rfl
  have h3 : (st.mask P fs₀).fs = FileSystem.mask P fs₀ st.fs := rfl
  rw [h1, h3]
  cases hf : st.fileStore with
  | none => rfl
  | some f =>
    dsimp only
    rw [FileSystem.mask_of (hu.store f hf)]
    cases st.fs f.config.resultPath with
    | none => rfl
    | some d =>
      dsimp only
      rw [← FileSystem.mask_set (hu.store f hf)]
      rfl

theorem newStoreStep_mask {c : ConfigNode} (hc : P c.resultPath) :
    newStoreStep (st.mask P fs₀) c = State.mask P fs₀ <$> newStoreStep st c := by
  unfold newStoreStep
  have h3 : (st.mask P fs₀).fs = FileSystem.mask P fs₀ st.fs := rfl
  rw [h3, FileSystem.mask_of hc]
  cases st.fs c.resultPath with
  | none => rfl
  | some d =>
    dsimp only
    cases FileStore.initialRecord d <;> rfl

theorem containsStep_mask (b : Block) (rest : List Cmd) :
    containsStep (st.mask P fs₀) b rest = State.mask P fs₀ <$> containsStep st b rest := by
  unfold containsStep
  have h1 : (st.mask P fs₀).fileStore = st.fileStore := rfl
  have h2 : (st.mask P fs₀).openclQueue = st.openclQueue := rfl
  rw [h1, h2]
  cases st.fileStore with
  | none => rfl
  | some f =>
    dsimp only
    split
    · rfl
    · split <;> rfl

theorem passBlock_mask (ix : Nat) (b : Block) (o : Bool) :
    passBlock (st.mask P fs₀) ix b o = State.mask P fs₀ <$> passBlock st ix b o := by
  unfold passBlock
  have h2 : (st.mask P fs₀).procs = st.procs := rfl
  rw [h2]
  split
  · cases (st.procs 0).assign b o <;> rfl
  · rfl

theorem takeStep_mask (b : Block) (rest : List Cmd) :
    takeStep (st.mask P fs₀) b rest = State.mask P fs₀ <$> takeStep st b rest := by
  unfold takeStep
  have h1 : (st.mask P fs₀).openclQueue = st.openclQueue := rfl
  have h2 : (st.mask P fs₀).cpuQueue = st.cpuQueue := rfl
  rw [h1, h2]
  cases st.openclQueue with
  | cons ix q => exact passBlock_mask (st := { st with openclQueue := q, todo := rest }) ix b true
  | nil =>
    dsimp only
    cases st.cpuQueue with
    | cons ix q => exact passBlock_mask (st := { st with cpuQueue := q, openclQueue := [], todo := rest }) ix b false
    | nil => rfl

theorem masterStep_mask (hu : Uses P st.todo st.fileStore) (ch : Choice) :
    masterStep (st.mask P fs₀) ch = Option.map (State.mask P fs₀) <$> masterStep st ch := by
  unfold masterStep
  have h1 : (st.mask P fs₀).todo = st.todo := rfl
  have h2 : (st.mask P fs₀).pc = st.pc := rfl
  have h3 : (st.mask P fs₀).nprocs = st.nprocs := rfl
  have h4 : (st.mask P fs₀).procs = st.procs := rfl
  rw [h2]
  cases hpc : st.pc with
  | main =>
    dsimp only
    rw [mainStep_mask hu]
    cases mainStep st ch <;> rfl
  | flush c =>
    dsimp only
    rw [flushStep_mask]
    cases flushStep st c <;> rfl
  | flushSend ix c =>
    dsimp only
    rw [h3]
    split <;> rfl
  | flushRecv ix c => exact flushRecvStep_mask ix c
  | waited k => rfl
  | ready => rfl
  | readySend ix =>
    dsimp only
    rw [h3]
    split <;> rfl
  | readyRecv ix =>
    dsimp only
    unfold readyRecvStep
    rw [h4]
    cases (st.procs ix).readyOut <;> rfl
  | filled => rfl
  | save k =>
    dsimp only
    rw [saveStep_mask hu]
    rfl
  | saveSend ix k =>
    dsimp only
    rw [h3]
    split <;> rfl
  | saveRecv ix k => exact saveRecvStep_mask hu _ ix k
  | write ws ix k =>
    cases ws with
    | nil => rfl
    | cons w ws =>
      obtain ⟨n, c⟩ := w
      dsimp only
      rw [writeStep_mask hu]
      rfl
  | newStore =>
    dsimp only
    rw [h1]
    cases ht : st.todo with
    | nil => rfl
    | cons x rest =>
      cases x with
      | config c =>
        dsimp only
        rw [newStoreStep_mask (hu.todo c (by rw [ht]; exact List.mem_cons_self))]
        cases newStoreStep st c <;> rfl
      | assign b => rfl
  | update =>
    dsimp only
    rw [h1]
    cases st.todo with
    | nil => rfl
    | cons x rest => cases x <;> rfl
  | configSend ix =>
    dsimp only
    rw [h1, h3]
    cases st.todo with
    | nil => rfl
    | cons x rest =>
      cases x with
      | config c =>
        dsimp only
        split <;> rfl
      | assign b => rfl
  | contains =>
    dsimp only
    rw [h1]
    cases st.todo with
    | nil => rfl
    | cons x rest =>
      cases x with
      | config c => rfl
      | assign b =>
        dsimp only
        rw [containsStep_mask]
        cases containsStep st b rest <;> rfl
  | take =>
    dsimp only
    rw [h1]
    cases st.todo with
    | nil => rfl
    | cons x rest =>
      cases x with
      | config c => rfl
      | assign b =>
        dsimp only
        rw [takeStep_mask]
        cases takeStep st b rest <;> rfl
  | notify i b => rfl
  | insert ix b => rfl
  | stopSend ix =>
    dsimp only
    rw [h3]
    split <;> rfl
  | shutdown i =>
    dsimp only
    rw [h4]
    split <;> rfl
  | shutNotify i => rfl
  | join i =>
    dsimp only
    rw [h4]
    split <;> rfl
  | finished => rfl

/-- A step does the same with other files outside of the directories that are used. -/
theorem step_mask (hu : Uses P st.todo st.fileStore) (l : Label) :
    Mpi.step env (st.mask P fs₀) l = Option.map (State.mask P fs₀) <$> Mpi.step env st l := by
  unfold Mpi.step
  have h3 : (st.mask P fs₀).nprocs = st.nprocs := rfl
  have h4 : (st.mask P fs₀).procs = st.procs := rfl
  cases l with
  | thread ix i =>
    dsimp only
    rw [h3, h4]
    split
    · cases (st.procs ix).threadStep env i with
      | ok p => cases p <;> rfl
      | _ => rfl
    · rfl
  | master ch => exact masterStep_mask hu ch
  | worker ix =>
    dsimp only
    rw [h3, h4]
    split
    · cases (st.procs ix).workerStep with
      | ok p => cases p <;> rfl
      | _ => rfl
    · rfl
  | spurious ix i =>
    dsimp only
    rw [h3, h4]
    split <;> rfl

theorem _root_.Hycu.Run.Uses.step_mpi {st' : State} {l : Label} (hu : Uses P st.todo st.fileStore)
    (h : Mpi.step env st l = .ok (some st')) : Uses P st'.todo st'.fileStore := by
  cases step_trans h with
  | thread => exact hu
  | worker => exact hu
  | master st' h =>
    cases h with
    | newStoreInvalid _ c rest ht => exact hu.opened ht _ _
    | newStore _ c rest ht => exact hu.opened ht _ _
    | configEnd _ _ c rest ht =>
      rw [ht] at hu
      exact hu.tail
    | skip _ c rest ht =>
      rw [ht] at hu
      exact hu.tail
    | takeLocal _ b rest ht =>
      rw [ht] at hu
      exact hu.tail
    | takeRemote _ b rest ht =>
      rw [ht] at hu
      exact hu.tail
    | _ => exact hu

end Mpi

namespace Live

open Run (Uses Env Sect Input program)

variable {P : List Char → Prop} {fs₀ : FileSystem} {env : Env} {ss : List Sect}

/-- The run with the given files outside of the directories. -/
noncomputable def Now.mask (P : List Char → Prop) (fs₀ : FileSystem) : Now → Now
  | .threaded st => .threaded (st.mask P fs₀)
  | .mpi st => .mpi (st.mask P fs₀)

/-- The directories that are used from now on. -/
def Now.Uses (P : List Char → Prop) : Now → Prop
  | .threaded st => Run.Uses P st.todo st.fileStore
  | .mpi st => Run.Uses P st.todo st.fileStore

theorem mask_fs (w : Now) : (w.mask P fs₀).fs = FileSystem.mask P fs₀ w.fs := by cases w <;> rfl

theorem withFs_fs (w : Now) (fs : FileSystem) : (w.withFs fs).fs = fs := by cases w <;> rfl

theorem withFs_withFs (w : Now) (fs fs' : FileSystem) : (w.withFs fs).withFs fs' = w.withFs fs' := by cases w <;> rfl

theorem withFs_mask (w : Now) : (w.mask P fs₀).withFs w.fs = w := by cases w <;> rfl

theorem mask_withFs (w : Now) {fs : FileSystem} (h : ∀ p, P p → fs p = w.fs p) : (w.withFs fs).mask P fs₀ = w.mask P fs₀ := by
  cases w with
  | threaded st => exact congrArg (fun f => Now.threaded { st with fs := f }) (FileSystem.mask_congr h)
  | mpi st => exact congrArg (fun f => Now.mpi { st with fs := f }) (FileSystem.mask_congr h)

theorem uses_withFs {w : Now} (fs : FileSystem) (h : w.Uses P) : (w.withFs fs).Uses P := by cases w <;> exact h

theorem Starts.mask {fs : FileSystem} {w : Now} (h : Starts ss fs w) :
    Starts ss (FileSystem.mask P fs₀ fs) (w.mask P fs₀) := by
  cases h with
  | threaded kinds hk => exact .threaded kinds hk
  | mpi kinds h0 hk => exact .mpi kinds h0 hk

theorem Starts.uses {fs : FileSystem} {w : Now} (h : Starts ss fs w) (hP : ∀ s ∈ ss, P s.cfg.resultPath) : w.Uses P := by
  cases h with
  | threaded kinds hk => exact Uses.program hP
  | mpi kinds h0 hk => exact Uses.program hP

theorem leaves_mask {w : Now} {fs : FileSystem} (hu : w.Uses P) (h : w.Leaves fs) :
    (w.mask P fs₀).Leaves (FileSystem.mask P fs₀ fs) := by
  cases w with
  | threaded st =>
    cases h with
    | between => exact .between
    | inside ws k f d d' hpc hf hd hc =>
      have hp := hu.store f hf
      rw [FileSystem.mask_set hp]
      exact .inside (st := st.mask P fs₀) ws k f d d' hpc hf (by rw [← hd]; exact FileSystem.mask_of hp) hc
  | mpi st =>
    cases h with
    | between => exact .between
    | inside ws ix k f d d' hpc hf hd hc =>
      have hp := hu.store f hf
      rw [FileSystem.mask_set hp]
      exact .inside (st := st.mask P fs₀) ws ix k f d d' hpc hf (by rw [← hd]; exact FileSystem.mask_of hp) hc

theorem Next.mask {w w' : Now} (h : Next env ss w w') (hu : w.Uses P) :
    Next env ss (w.mask P fs₀) (w'.mask P fs₀) := by
  cases h with
  | threaded l h => exact .threaded l (by rw [Run.step_mask hu, h]; rfl)
  | mpi l h => exact .mpi l (by rw [Mpi.step_mask hu, h]; rfl)
  | again h hs => exact .again (leaves_mask hu h) hs.mask

theorem Next.uses {w w' : Now} (h : Next env ss w w') (hP : ∀ s ∈ ss, P s.cfg.resultPath) (hu : w.Uses P) : w'.Uses P := by
  cases h with
  | threaded l h => exact Uses.step hu h
  | mpi l h => exact Uses.step_mpi hu h
  | again h hs => exact hs.uses hP

/-- The directories of the sections. -/
def PathOf (ss : List Sect) (p : List Char) : Prop := ∃ s ∈ ss, s.cfg.resultPath = p

theorem pathOf (ss : List Sect) : ∀ s ∈ ss, PathOf ss s.cfg.resultPath := fun s hs => ⟨s, hs, rfl⟩

theorem Among.uses {w : Now} (h : Among env ss w) : w.Uses (PathOf ss) := by
  induction h with
  | start _ hs => exact hs.uses (pathOf ss)
  | next _ hn ih => exact hn.uses (pathOf ss) ih
  | others fs _ _ ih => exact uses_withFs fs ih

theorem Agree.path {fs fs' : FileSystem} (h : Agree ss fs fs') (p : List Char) (hp : PathOf ss p) : fs p = fs' p := by
  obtain ⟨s, hs, rfl⟩ := hp
  exact h s hs

theorem Among.mask {w : Now} (h : Among env ss w) (fs₀ : FileSystem) : Ongoing env ss (w.mask (PathOf ss) fs₀) := by
  induction h with
  | start h hs =>
    refine .start (fun s hs d hd => h s hs d ?_) hs.mask
    rw [FileSystem.mask_of (pathOf ss s hs)] at hd
    exact hd
  | next h hn ih => exact .next ih (hn.mask h.uses)
  | others fs _ hf ih =>
    rw [mask_withFs _ hf.path]
    exact ih

theorem mask_self (fs : FileSystem) : FileSystem.mask P fs fs = fs := by
  funext p
  unfold FileSystem.mask
  split <;> rfl

theorem mask_out {fs : FileSystem} {p : List Char} (hp : ¬ P p) : FileSystem.mask P fs₀ fs p = fs₀ p := if_neg hp

/-- A step of a run, or its death, changes only the directories of its sections. -/
theorem Next.frame {w w' : Now} (h : Next env ss w w') (hu : w.Uses P) (p : List Char) (hp : ¬ P p) :
    w'.fs p = w.fs p := by
  cases h with
  | @threaded st st' l h =>
    have h1 : st.mask P st.fs = st := by
      unfold Run.State.mask
      rw [mask_self]
    have h2 := Run.step_mask (env := env) (fs₀ := st.fs) hu l
    rw [h1, h] at h2
    have h3 : st' = st'.mask P st.fs := Option.some.inj (Res.ok.inj h2)
    show st'.fs p = st.fs p
    rw [h3]
    exact mask_out hp
  | @mpi st st' l h =>
    have h1 : st.mask P st.fs = st := by
      unfold Mpi.State.mask
      rw [mask_self]
    have h2 := Mpi.step_mask (env := env) (fs₀ := st.fs) hu l
    rw [h1, h] at h2
    have h3 : st' = st'.mask P st.fs := Option.some.inj (Res.ok.inj h2)
    show st'.fs p = st.fs p
    rw [h3]
    exact mask_out hp
  | @again _ _ fs h hs =>
    have h1 : w'.fs = fs := by cases hs <;> rfl
    rw [h1]
    cases w with
    | threaded st =>
      cases h with
      | between => rfl
      | inside ws k f d d' hpc hf hd hc => exact if_neg fun hx : p = f.config.resultPath => hp (hx ▸ hu.store f hf)
    | mpi st =>
      cases h with
      | between => rfl
      | inside ws ix k f d d' hpc hf hd hc => exact if_neg fun hx : p = f.config.resultPath => hp (hx ▸ hu.store f hf)

theorem Together.same {ss₁ ss₂ : List Sect} {w₁ w₂ : Now} (h : Together env ss₁ ss₂ w₁ w₂) : w₁.fs = w₂.fs := by
  induction h with
  | start _ _ s₁ s₂ => cases s₁ <;> cases s₂ <;> rfl
  | left => rw [withFs_fs]
  | right => rw [withFs_fs]

theorem Together.among {ss₁ ss₂ : List Sect} {w₁ w₂ : Now} (h : Together env ss₁ ss₂ w₁ w₂)
    (hd : ∀ s₁ ∈ ss₁, ∀ s₂ ∈ ss₂, s₁.cfg.resultPath ≠ s₂.cfg.resultPath) : Among env ss₁ w₁ ∧ Among env ss₂ w₂ := by
  induction h with
  | start h₁ h₂ s₁ s₂ => exact ⟨.start h₁ s₁, .start h₂ s₂⟩
  | left h hn ih =>
    refine ⟨.next ih.1 hn, .others _ ih.2 fun s₂ hs => ?_⟩
    rw [← h.same]
    exact hn.frame ih.1.uses _ fun ⟨s₁, hs₁, hp⟩ => hd s₁ hs₁ s₂ hs hp
  | right h hn ih =>
    refine ⟨.others _ ih.1 fun s₁ hs => ?_, .next ih.2 hn⟩
    rw [h.same]
    exact hn.frame ih.2.uses _ fun ⟨s₂, hs₂, hp⟩ => hd s₁ hs s₂ hs₂ hp.symm

end Live

/-! ### Infinite executions -/

namespace Run

open Live (PathOf pathOf)

theorem ExecAmong.mask {env : Env} {ss : List Sect} {kinds : List Bool} {fs : FileSystem} {σ : Nat → State}
    {ls : Nat → Label} (h : ExecAmong env ss (Run.initial kinds fs (program ss)) σ ls) :
    Exec env (Run.initial kinds fs (program ss)) (fun n => (σ n).mask (PathOf ss) fs) ls ∧
      ∀ n, Uses (PathOf ss) (σ n).todo (σ n).fileStore := by
  have hu : ∀ n, Uses (PathOf ss) (σ n).todo (σ n).fileStore := by
    intro n
    induction n with
    | zero =>
      rw [h.start]
      exact Uses.program (pathOf ss)
    | succ n ih =>
      obtain ⟨st', fs', h1, -, h3⟩ := h.next n
      rw [h3]
      rcases h1 with h1 | ⟨-, rfl⟩
      · have h4 := ih.step h1
        exact h4
      · exact ih
  refine ⟨⟨?_, fun n => ?_, h.thread, h.master⟩, hu⟩
  · show (σ 0).mask (PathOf ss) fs = _
    rw [h.start]
    exact congrArg (fun f => { Run.initial kinds fs (program ss) with fs := f }) (Live.mask_self fs)
  · obtain ⟨st', fs', h1, h2, h3⟩ := h.next n
    have h4 : (σ (n + 1)).mask (PathOf ss) fs = st'.mask (PathOf ss) fs := by
      rw [h3]
      exact congrArg (fun f => { st' with fs := f }) (FileSystem.mask_congr h2.path)
    rw [h4, step_mask (hu n)]
    rcases h1 with h1 | ⟨h1, rfl⟩
    · exact .inl (by rw [h1]; rfl)
    · exact .inr ⟨by rw [h1]; rfl, rfl⟩

end Run

namespace Mpi

open Run (Uses Env Sect program)
open Live (PathOf pathOf)

theorem ExecAmong.mask {env : Env} {ss : List Sect} {kinds : List (List Bool)} {fs : FileSystem} {σ : Nat → State}
    {ls : Nat → Label} (h : ExecAmong env ss (Mpi.initial kinds fs (program ss)) σ ls) :
    Exec env (Mpi.initial kinds fs (program ss)) (fun n => (σ n).mask (PathOf ss) fs) ls ∧
      ∀ n, Uses (PathOf ss) (σ n).todo (σ n).fileStore := by
  have hu : ∀ n, Uses (PathOf ss) (σ n).todo (σ n).fileStore := by
    intro n
    induction n with
    | zero =>
      rw [h.start]
      exact Uses.program (pathOf ss)
    | succ n ih =>
      obtain ⟨st', fs', h1, -, h3⟩ := h.next n
      rw [h3]
      rcases h1 with h1 | ⟨-, rfl⟩
      · have h4 := ih.step_mpi h1
        exact h4
      · exact ih
  refine ⟨⟨?_, fun n => ?_, h.thread, h.worker, h.master⟩, hu⟩
  · show (σ 0).mask (PathOf ss) fs = _
    rw [h.start]
    exact congrArg (fun f => { Mpi.initial kinds fs (program ss) with fs := f }) (Live.mask_self fs)
  · obtain ⟨st', fs', h1, h2, h3⟩ := h.next n
    have h4 : (σ (n + 1)).mask (PathOf ss) fs = st'.mask (PathOf ss) fs := by
      rw [h3]
      exact congrArg (fun f => { st' with fs := f }) (FileSystem.mask_congr h2.path)
    rw [h4, step_mask (hu n)]
    rcases h1 with h1 | ⟨h1, rfl⟩
    · exact .inl (by rw [h1]; rfl)
    · exact .inr ⟨by rw [h1]; rfl, rfl⟩

end Mpi
end Hycu
