import Verif.Lemmas.PoolStep
import Verif.Spec.Parallel

/-!
What the steps of a run do with the file system.
-/

namespace Hycu
namespace Parallel

open Run (Cmd Cont Env FileStoreObj)

/-- What has been done for the configuration at the head of the list of calls: nothing, it has been verified, or its
directory has been read or it has been refused. -/
def contStage : Cont → Nat
  | .config => 1
  | .assign => 0
  | .exit => 2

def pcStage : Run.Pc → Nat
  | .wait k | .save k | .write _ k => contStage k
  | .newStore => 1
  | .update | .shutdown _ | .shutNotify _ | .join _ | .finished => 2
  | _ => 0

def callerStage : Mpi.Caller → Nat
  | .wait k => contStage k
  | .fill => 0

def mpiStage : Mpi.Pc → Nat
  | .flush c | .flushSend _ c | .flushRecv _ c => callerStage c
  | .waited k | .save k | .saveSend _ k | .saveRecv _ k | .write _ _ k => contStage k
  | .newStore => 1
  | .update | .configSend _ | .stopSend _ | .shutdown _ | .shutNotify _ | .join _ | .finished => 2
  | _ => 0

namespace Prog

def stage : Prog → Nat
  | .threaded st => pcStage st.pc
  | .mpi st => mpiStage st.pc

def fileStore : Prog → Option FileStoreObj
  | .threaded st => st.fileStore
  | .mpi st => st.fileStore

/-- The directory to which results are written. -/
def target (s : Prog) : Option (List Char) := s.fileStore.map fun f => f.config.resultPath

end Prog

/-- The list of calls goes on, and the stage of its head does not decrease. -/
def Keeps (s s' : Prog) : Prop :=
  (s'.todo = s.todo ∧ s.stage ≤ s'.stage ∧ (s'.stage = 1 → s.stage = 1)) ∨ ∃ c, s.todo = c :: s'.todo ∧ s'.stage ≠ 1

/-- The file system with a directory, if there was none. -/
def opened (F : FileSystem) (p : List Char) : FileSystem := if (F p).isSome then F else F.set p []

/-- What a step does with the file system, and on what it depends. -/
inductive Access (env : Env) (s : Prog) (l : Move) (s' : Prog) : Prop
  | quiet (hf : s'.fs = s.fs) (hk : Keeps s s') (ht : s'.target = s.target)
      (h : ∀ F, (s.withFs F).step env l = .ok (some (s'.withFs F)))
  | verify (c : ConfigNode) (rest : List Cmd) (hc : s.todo = .config c :: rest) (h0 : s.stage = 0)
      (hc' : s'.todo = s.todo) (h1 : 1 ≤ s'.stage) (ht : s'.target = s.target) (hf : s'.fs = opened s.fs c.resultPath)
      (h : ∀ F : FileSystem, ((F c.resultPath).isSome = true ∨ s.fs c.resultPath = none) →
        (s.withFs F).step env l = .ok (some (s'.withFs (opened F c.resultPath))))
  | refuse (c : ConfigNode) (rest : List Cmd) (hc : s.todo = .config c :: rest) (h0 : s.stage = 0)
      (hc' : s'.todo = s.todo) (h1 : s'.stage = 2) (ht : s'.target = s.target) (hn : s.fs c.resultPath = none)
      (hf : s'.fs = s.fs)
      (h : ∀ F : FileSystem, F c.resultPath = none → (s.withFs F).step env l = .ok (some (s'.withFs F)))
  | load (c : ConfigNode) (rest : List Cmd) (hc : s.todo = .config c :: rest) (h0 : s.stage = 1)
      (hc' : s'.todo = s.todo) (h1 : s'.stage = 2) (ht : s'.target = some c.resultPath) (hf : s'.fs = s.fs)
      (h : ∀ F : FileSystem, F c.resultPath = s.fs c.resultPath → (s.withFs F).step env l = .ok (some (s'.withFs F)))
  | save (p : List Char) (id : Nat) (d : Dir) (hp : s.target = some p) (hd : s.fs p = some d)
      (hi : FileStore.fresh d id = true) (hf : s'.fs = s.fs) (hk : Keeps s s') (ht : s'.target = s.target)
      (h : ∀ (F : FileSystem) (d' : Dir), F p = some d' → FileStore.fresh d' id = true →
        (s.withFs F).step env l = .ok (some (s'.withFs F)))
  | lost (p : List Char) (hp : s.target = some p) (hn : s.fs p = none) (hf : s'.fs = s.fs) (hk : Keeps s s')
      (ht : s'.target = s.target)
      (h : ∀ F : FileSystem, F p = none → (s.withFs F).step env l = .ok (some (s'.withFs F)))
  | write (p n c : List Char) (d : Dir) (hw : s.writing = some (p, n)) (hp : s.target = some p) (hd : s.fs p = some d)
      (hf : s'.fs = s.fs.set p (d.write n c)) (hk : Keeps s s') (ht : s'.target = s.target)
      (h : ∀ (F : FileSystem) (d' : Dir), F p = some d' →
        (s.withFs F).step env l = .ok (some (s'.withFs (F.set p (d'.write n c)))))

/-! ### One process -/

section

variable {env : Env}

theorem threadStep_key (st : Run.State) (i : Nat) (F : FileSystem) : Run.threadStep env { st with fs := F } i =
    (Run.threadStep env st i).bind fun o => .ok (o.map fun x => { x with fs := F }) := by
  unfold Run.threadStep
  dsimp only
  split
  · split
    · rfl
    · split <;> rfl
  · rfl
  · rfl
  · split <;> rfl
  · split
    · rfl
    · rename_i j _ _ tb _
      cases env.compute tb.cfg j.block with
      | ok m =>
        rw [Res.bind_ok, Res.bind_ok]
        cases Store.flushToStatic st.static m j.block <;> rfl
      | _ => rfl
  · rename_i j _
    cases st.pool.finishedBlock j.block <;> rfl
  · rfl

theorem threadStep_fs {st st' : Run.State} {i : Nat} (h : Run.threadStep env st i = .ok (some st')) :
    st'.fs = st.fs ∧ st'.pc = st.pc ∧ st'.todo = st.todo ∧ st'.fileStore = st.fileStore := by
  unfold Run.threadStep at h
  dsimp only at h
  split at h
  · split at h
    · cases h; exact ⟨rfl, rfl, rfl, rfl⟩
    · split at h <;> cases h <;> exact ⟨rfl, rfl, rfl, rfl⟩
  · cases h; exact ⟨rfl, rfl, rfl, rfl⟩
  · cases h
  · split at h
    · cases h
    · cases h; exact ⟨rfl, rfl, rfl, rfl⟩
  · split at h
    · cases h
    · obtain ⟨m, _, h2⟩ := Res.bind_eq_ok.1 h
      obtain ⟨q, _, h3⟩ := Res.bind_eq_ok.1 h2
      cases h3; exact ⟨rfl, rfl, rfl, rfl⟩
  · obtain ⟨q, _, h3⟩ := Res.bind_eq_ok.1 h
    cases h3; exact ⟨rfl, rfl, rfl, rfl⟩
  · cases h

/-- A step that leaves the file system alone. -/
theorem quiet_threaded {st st' : Run.State} {l : Run.Label}
    (hF : ∀ F, Run.step env { st with fs := F } l = .ok (some { st' with fs := F })) (hf : st'.fs = st.fs)
    (ht : st'.fileStore = st.fileStore) (hk : Keeps (.threaded st) (.threaded st')) :
    Access env (.threaded st) (.threaded l) (.threaded st') := by
  refine .quiet hf hk (by unfold Prog.target; rw [show (Prog.threaded st').fileStore = _ from ht]; rfl) fun F => ?_
  show (Run.step env { st with fs := F } l).bind _ = _
  rw [hF F]
  rfl

theorem keeps_threaded {st st' : Run.State} (h1 : st'.pc = st.pc) (h2 : st'.todo = st.todo) :
    Keeps (.threaded st) (.threaded st') := by
  have : (Prog.threaded st').stage = (Prog.threaded st).stage := congrArg pcStage h1
  exact Or.inl ⟨h2, this.ge, fun h => this ▸ h⟩

theorem flushFinished_key (st : Run.State) (F : FileSystem) : Run.flushFinished { st with fs := F } =
    (Run.flushFinished st).bind fun x => .ok { x with fs := F } := by
  unfold Run.flushFinished
  dsimp only
  cases Run.eraseFinished st.pool.finished st.assigned <;> rfl

theorem flushFinished_fs {st st' : Run.State} (h : Run.flushFinished st = .ok st') :
    st'.fs = st.fs ∧ st'.todo = st.todo ∧ st'.fileStore = st.fileStore := by
  unfold Run.flushFinished at h
  obtain ⟨a, _, h2⟩ := Res.bind_eq_ok.1 h
  cases h2
  exact ⟨rfl, rfl, rfl⟩

theorem wake_key (st : Run.State) (i : Nat) (F : FileSystem) : Run.wake { st with fs := F } i = { Run.wake st i with fs := F } := by
  unfold Run.wake
  dsimp only
  split <;> rfl

theorem wake_fs (st : Run.State) (i : Nat) : (Run.wake st i).fs = st.fs ∧ (Run.wake st i).todo = st.todo ∧
    (Run.wake st i).fileStore = st.fileStore := by
  unfold Run.wake
  split <;> exact ⟨rfl, rfl, rfl⟩

theorem takeStep_fs {st st' : Run.State} {b : Block} {rest : List Cmd} (h : Run.takeStep st b rest = .ok st') :
    st'.fs = st.fs ∧ st'.todo = rest ∧ st'.fileStore = st.fileStore ∧ (∃ i, st'.pc = .notify i b) ∧
      ∀ F, Run.takeStep { st with fs := F } b rest = .ok { st' with fs := F } := by
  unfold Run.takeStep at h
  split at h
  · rename_i hn
    obtain ⟨q, h1, h2⟩ := Res.bind_eq_ok.1 h
    cases h2
    refine ⟨rfl, rfl, rfl, ⟨_, rfl⟩, fun F => ?_⟩
    unfold Run.takeStep
    rw [if_pos hn]
    dsimp only
    rw [h1]
    rfl
  · rename_i hn
    obtain ⟨q, h1, h2⟩ := Res.bind_eq_ok.1 h
    cases h2
    refine ⟨rfl, rfl, rfl, ⟨_, rfl⟩, fun F => ?_⟩
    unfold Run.takeStep
    rw [if_neg hn]
    dsimp only
    rw [h1]
    rfl

theorem access_main {st st' : Run.State} {ch : Run.Choice} (hpc : st.pc = .main) (h : Run.mainStep st ch = .ok st') :
    Access env (.threaded st) (.threaded (.master ch)) (.threaded st') := by
  have hm : ∀ F, Run.step env { st with fs := F } (.master ch) = some <$> Run.mainStep { st with fs := F } ch := by
    intro F
    show Run.masterStep { st with fs := F } ch = _
    unfold Run.masterStep
    dsimp only
    rw [hpc]
  have h0 : (Prog.threaded st).stage = 0 := by
    show pcStage st.pc = 0
    rw [hpc]
    rfl
  cases htd : st.todo with
  | nil =>
    have h1 : Run.mainStep st ch = .ok { st with pc := .wait .exit } := by
      unfold Run.mainStep
      rw [htd]
    rw [h1] at h
    cases h
    refine quiet_threaded (st := st) (fun F => ?_) rfl rfl (Or.inl ⟨rfl, ?_, nofun⟩)
    · rw [hm F]
      unfold Run.mainStep
      dsimp only
      rw [htd]
      rfl
    · rw [h0]
      exact Nat.zero_le _
  | cons a rest =>
    cases a with
    | assign b =>
      have h1 : Run.mainStep st ch = .ok { st with pc := if ch.saveNow then .save .assign else .contains } := by
        unfold Run.mainStep
        rw [htd]
      rw [h1] at h
      cases h
      have h2 : pcStage (if ch.saveNow then .save .assign else .contains) = 0 := by
        split <;> rfl
      refine quiet_threaded (st := st) (fun F => ?_) rfl rfl (Or.inl ⟨rfl, ?_, fun h3 => ?_⟩)
      · rw [hm F]
        unfold Run.mainStep
        dsimp only
        rw [htd]
        rfl
      · rw [h0]
        exact Nat.zero_le _
      · exact absurd (h2.symm.trans h3) (by decide)
    | config c =>
      have h1 : ∀ F, Run.mainStep { st with fs := F } ch = (do
          let v ← c.verify F (.ok ch.create)
          pure { st with fs := v.1, pc := if v.2 then .wait .config else .wait .exit }) := by
        intro F
        unfold Run.mainStep
        dsimp only
        rw [htd]
      rw [show Run.mainStep st ch = _ from h1 st.fs] at h
      by_cases hz : c.prime ≠ 0 ∧ c.primeExponent ≠ 0 ∧ c.genus ≠ 0 ∧ c.countExponent ≠ 0
      · have h2 : ∀ F : FileSystem, ((F c.resultPath).isSome = true ∨ ch.create = true) →
            c.verify F (.ok ch.create) = .ok (opened F c.resultPath, c.packageSize ≠ 0) := by
          intro F hF
          unfold ConfigNode.verify opened
          rw [if_pos hz]
          split
          · rfl
          · rename_i hn
            rw [Res.bind_ok, if_pos (hF.resolve_left hn)]
            rfl
        have key : ∀ F : FileSystem, ((F c.resultPath).isSome = true ∨ ch.create = true) →
            (Prog.withFs F (.threaded st)).step env (.threaded (.master ch)) = .ok (some (.threaded { st with
              fs := opened F c.resultPath, pc := if c.packageSize ≠ 0 then .wait .config else .wait .exit })) := by
          intro F hF
          show (Run.step env { st with fs := F } (.master ch)).bind _ = _
          rw [hm F, h1 F, h2 F hF]
          simp only [Res.bind_ok, decide_eq_true_eq]
          rfl
        by_cases hs : (st.fs c.resultPath).isSome = true ∨ ch.create = true
        · rw [h2 _ hs] at h
          simp only [Res.bind_ok, decide_eq_true_eq] at h
          cases h
          refine .verify c rest htd h0 rfl ?_ rfl rfl fun F hF => key F ?_
          · show 1 ≤ pcStage (if c.packageSize ≠ 0 then .wait .config else .wait .exit)
            split <;> decide
          · rcases hF with hF | hF
            · exact Or.inl hF
            · refine Or.inr (hs.resolve_left ?_)
              rw [show st.fs c.resultPath = none from hF]
              simp
        · have h3 : ∀ F : FileSystem, F c.resultPath = none → c.verify F (.ok ch.create) = .ok (F, false) := by
            intro F hF
            unfold ConfigNode.verify
            rw [if_pos hz, if_neg (by rw [hF]; simp), Res.bind_ok, if_neg fun h => hs (Or.inr h)]
            rfl
          have hn : st.fs c.resultPath = none := by
            by_contra hc
            exact hs (Or.inl (Option.isSome_iff_ne_none.2 hc))
          rw [h3 _ hn, Res.bind_ok] at h
          cases h
          refine .refuse c rest htd h0 rfl rfl rfl hn rfl fun F hF => ?_
          show (Run.step env { st with fs := F } (.master ch)).bind _ = _
          rw [hm F, h1 F, h3 F hF, Res.bind_ok]
          rfl
      · have h3 : ∀ F : FileSystem, c.verify F (.ok ch.create) = .ok (F, false) := by
          intro F
          unfold ConfigNode.verify
          rw [if_neg hz]
        rw [h3, Res.bind_ok] at h
        cases h
        refine quiet_threaded (st := st) (fun F => ?_) rfl rfl (Or.inl ⟨rfl, ?_, nofun⟩)
        · rw [hm F, h1 F, h3 F]
          rfl
        · rw [h0]
          exact Nat.zero_le _

/-- `hF` for the main thread. -/
theorem quiet_master {st st' : Run.State} {ch : Run.Choice}
    (hF : ∀ F, Run.masterStep { st with fs := F } ch = .ok (some { st' with fs := F })) (hf : st'.fs = st.fs)
    (ht : st'.fileStore = st.fileStore) (hk : Keeps (.threaded st) (.threaded st')) :
    Access env (.threaded st) (.threaded (.master ch)) (.threaded st') :=
  quiet_threaded (l := .master ch) hF hf ht hk

theorem stage_keeps {st st' : Run.State} (h1 : st'.todo = st.todo) (h2 : pcStage st'.pc = pcStage st.pc) :
    Keeps (.threaded st) (.threaded st') := Or.inl ⟨h1, h2.ge, fun h => h2.symm.trans h⟩

theorem pcStage_afterSave (k : Cont) : pcStage (Run.afterSave k) = contStage k := by cases k <;> rfl

theorem access_save {st st' : Run.State} {ch : Run.Choice} {k : Cont} (hpc : st.pc = .save k)
    (h : Run.saveStep st ch.id k = some st') : Access env (.threaded st) (.threaded (.master ch)) (.threaded st') := by
  have hm : ∀ F, Run.masterStep { st with fs := F } ch = .ok (Run.saveStep { st with fs := F } ch.id k) := by
    intro F
    unfold Run.masterStep
    dsimp only
    rw [hpc]
  have h0 : pcStage st.pc = contStage k := by
    rw [hpc]
    rfl
  unfold Run.saveStep at h
  split at h
  · rename_i hf
    cases h
    refine quiet_master (fun F => ?_) rfl rfl (stage_keeps rfl ?_)
    · rw [hm F]
      unfold Run.saveStep
      dsimp only
      rw [hf]
    · exact (pcStage_afterSave k).trans h0.symm
  · rename_i f hf
    dsimp only at h
    split at h
    · rename_i hv
      split at h
      · rename_i hn
        cases h
        refine .lost f.config.resultPath (congrArg (Option.map _) hf) hn rfl
          (stage_keeps rfl ((pcStage_afterSave k).trans h0.symm)) rfl fun F h1 => ?_
        show (Run.masterStep { st with fs := F } ch).bind _ = _
        rw [hm F]
        unfold Run.saveStep
        dsimp only
        rw [hf]
        dsimp only
        rw [if_pos hv, h1]
        rfl
      · rename_i d hd
        split at h
        · rename_i hi
          cases h
          refine .save f.config.resultPath ch.id d (congrArg (Option.map _) hf) hd hi rfl (stage_keeps rfl h0.symm) rfl ?_
          intro F d' h1 h2
          show (Run.masterStep { st with fs := F } ch).bind _ = _
          rw [hm F]
          unfold Run.saveStep
          dsimp only
          rw [hf]
          dsimp only
          rw [if_pos hv, h1]
          dsimp only
          rw [if_pos h2]
          rfl
        · cases h
    · rename_i hv
      cases h
      refine quiet_master (fun F => ?_) rfl rfl (stage_keeps rfl ?_)
      · rw [hm F]
        unfold Run.saveStep
        dsimp only
        rw [hf]
        dsimp only
        rw [if_neg hv]
      · exact (pcStage_afterSave k).trans h0.symm

theorem access_write {st st' : Run.State} {ch : Run.Choice} {n c : List Char} {ws : List (List Char × List Char)} {k : Cont}
    (hpc : st.pc = .write ((n, c) :: ws) k) (h : Run.writeStep st n c ws k = st') :
    Access env (.threaded st) (.threaded (.master ch)) (.threaded st') := by
  have hm : ∀ F, Run.masterStep { st with fs := F } ch = .ok (some (Run.writeStep { st with fs := F } n c ws k)) := by
    intro F
    unfold Run.masterStep
    dsimp only
    rw [hpc]
  have h0 : pcStage (.write ws k) = pcStage st.pc := by
    rw [hpc]
    rfl
  unfold Run.writeStep at h
  split at h
  · rename_i hf
    subst h
    refine quiet_master (fun F => ?_) rfl rfl (stage_keeps rfl h0)
    rw [hm F]
    unfold Run.writeStep
    dsimp only
    rw [hf]
  · rename_i f hf
    split at h
    · rename_i hn
      subst h
      refine .lost f.config.resultPath (congrArg (Option.map _) hf) hn rfl (stage_keeps rfl h0) rfl fun F h1 => ?_
      show (Run.masterStep { st with fs := F } ch).bind _ = _
      rw [hm F]
      unfold Run.writeStep
      dsimp only
      rw [hf]
      dsimp only
      rw [h1]
      rfl
    · rename_i d hd
      subst h
      refine .write f.config.resultPath n c d ?_ (congrArg (Option.map _) hf) hd rfl (stage_keeps rfl h0) rfl ?_
      · show Prog.writing (.threaded st) = _
        unfold Prog.writing
        dsimp only
        rw [hpc, hf]
      · intro F d' h1
        show (Run.masterStep { st with fs := F } ch).bind _ = _
        rw [hm F]
        unfold Run.writeStep
        dsimp only
        rw [hf]
        dsimp only
        rw [h1]
        rfl

theorem access_load {st st' : Run.State} {ch : Run.Choice} {c : ConfigNode} {rest : List Cmd} (hpc : st.pc = .newStore)
    (htd : st.todo = .config c :: rest) (h : Run.newStoreStep st c = .ok st') :
    Access env (.threaded st) (.threaded (.master ch)) (.threaded st') := by
  have hm : ∀ F, Run.masterStep { st with fs := F } ch = some <$> Run.newStoreStep { st with fs := F } c := by
    intro F
    unfold Run.masterStep
    dsimp only
    rw [hpc, htd]
  have h0 : (Prog.threaded st).stage = 1 := by
    show pcStage st.pc = 1
    rw [hpc]
    rfl
  unfold Run.newStoreStep at h
  split at h
  · rename_i hn
    cases h
    refine .load c rest htd h0 rfl rfl rfl rfl fun F hF => ?_
    show (Run.masterStep { st with fs := F } ch).bind _ = _
    rw [hm F]
    unfold Run.newStoreStep
    dsimp only
    rw [hF, show (Prog.threaded st).fs = st.fs from rfl, hn]
    rfl
  · rename_i d hd
    obtain ⟨r, h1, h2⟩ := Res.bind_eq_ok.1 h
    cases h2
    refine .load c rest htd h0 rfl rfl rfl rfl fun F hF => ?_
    show (Run.masterStep { st with fs := F } ch).bind _ = _
    rw [hm F]
    unfold Run.newStoreStep
    dsimp only
    rw [hF, show (Prog.threaded st).fs = st.fs from rfl, hd]
    dsimp only
    rw [h1]
    rfl

theorem access_master {st st' : Run.State} {ch : Run.Choice} (h : Run.masterStep st ch = .ok (some st')) :
    Access env (.threaded st) (.threaded (.master ch)) (.threaded st') := by
  obtain ⟨M, hM⟩ : ∃ M : Run.State → Res (Option Run.State), ∀ y, M y = Run.masterStep y ch := ⟨_, fun _ => rfl⟩
  have qm : ∀ {x : Run.State}, (∀ F, M { st with fs := F } = .ok (some { x with fs := F })) → x.fs = st.fs →
      x.fileStore = st.fileStore → Keeps (.threaded st) (.threaded x) →
      Access env (.threaded st) (.threaded (.master ch)) (.threaded x) :=
    fun hF => quiet_master fun F => (hM _).symm.trans (hF F)
  have hm : ∀ y, y.pc = st.pc → M y = Run.masterStep y ch := fun y _ => hM y
  unfold Run.masterStep at h hm
  have keep : ∀ {x : Run.State}, x.todo = st.todo → pcStage x.pc = pcStage st.pc → Keeps (.threaded st) (.threaded x) :=
    fun h1 h2 => stage_keeps h1 h2
  split at h <;> rename_i hpc <;> simp +contextual only [hpc] at hm keep
  · exact access_main hpc (Run.some_map_ok h)
  · rename_i k
    have h1 := Run.some_map_ok h
    unfold Run.waitStep at h1
    obtain ⟨x, h2, h3⟩ := Res.bind_eq_ok.1 h1
    cases h3
    obtain ⟨h4, h5, h6⟩ := flushFinished_fs h2
    refine qm (fun F => ?_) h4 h6 (keep h5 ?_)
    · rw [hm { st with fs := F } hpc]
      unfold Run.waitStep
      rw [flushFinished_key, h2]
      rfl
    · dsimp only
      split <;> rfl
  · exact access_save hpc (Res.ok.inj h)
  · rename_i k
    cases h
    exact qm (fun F => hm { st with fs := F } hpc) rfl rfl (keep rfl (pcStage_afterSave k))
  · exact access_write hpc (Option.some.inj (Res.ok.inj h))
  · split at h
    · rename_i c rest htd
      exact access_load hpc htd (Run.some_map_ok h)
    · cases h
  · split at h
    · rename_i c rest htd
      cases h
      refine qm (fun F => ?_) rfl rfl (Or.inr ⟨_, htd, nofun⟩)
      rw [hm { st with fs := F } hpc, htd]
      rfl
    · cases h
  · split at h
    · rename_i b rest htd
      have h1 := Run.some_map_ok h
      unfold Run.containsStep at h1
      split at h1
      · cases h1
      · rename_i f hf
        split at h1
        · rename_i hc
          cases h1
          refine qm (fun F => ?_) rfl rfl (Or.inr ⟨_, htd, nofun⟩)
          rw [hm { st with fs := F } hpc, htd]
          unfold Run.containsStep
          dsimp only
          rw [hf]
          dsimp only
          rw [if_pos hc]
          rfl
        · rename_i hc
          split at h1
          · rename_i ho
            cases h1
            refine qm (fun F => ?_) rfl rfl (keep rfl rfl)
            rw [hm { st with fs := F } hpc, htd]
            unfold Run.containsStep
            dsimp only
            rw [hf]
            dsimp only
            rw [if_neg hc, if_pos ho]
            rfl
          · rename_i ho
            cases h1
            refine qm (fun F => ?_) rfl rfl (keep rfl rfl)
            rw [hm { st with fs := F } hpc, htd]
            unfold Run.containsStep
            dsimp only
            rw [hf]
            dsimp only
            rw [if_neg hc, if_neg ho]
            rfl
    · cases h
  · obtain ⟨x, h2, h3⟩ := Res.bind_eq_ok.1 h
    cases h3
    obtain ⟨h4, h5, h6⟩ := flushFinished_fs h2
    refine qm (fun F => ?_) h4 h6 (keep h5 rfl)
    rw [hm { st with fs := F } hpc, flushFinished_key, h2]
    rfl
  · cases h
    refine qm (fun F => hm { st with fs := F } hpc) rfl rfl (keep rfl ?_)
    unfold Run.fillReadyStep
    dsimp only
    split <;> rfl
  · split at h
    · rename_i b rest htd
      obtain ⟨h1, h2, h3, ⟨i, h4⟩, h5⟩ := takeStep_fs (Run.some_map_ok h)
      refine qm (fun F => ?_) h1 h3 (Or.inr ⟨.assign b, htd.trans (congrArg _ h2.symm), ?_⟩)
      · rw [hm { st with fs := F } hpc, htd]
        have h6 := h5 F
        rw [htd] at h6
        dsimp only
        rw [h6]
        rfl
      · show pcStage st'.pc ≠ 1
        rw [h4]
        nofun
    · cases h
  · rename_i i b
    cases h
    obtain ⟨h4, h5, h6⟩ := wake_fs st i
    refine qm (fun F => ?_) h4 h6 (keep h5 rfl)
    rw [hm { st with fs := F } hpc, wake_key]
  · cases h
    exact qm (fun F => hm { st with fs := F } hpc) rfl rfl (keep rfl rfl)
  · split at h
    · rename_i hi
      cases h
      refine qm (fun F => ?_) rfl rfl (keep rfl rfl)
      rw [hm { st with fs := F } hpc, if_pos hi]
      rfl
    · rename_i hi
      cases h
      refine qm (fun F => ?_) rfl rfl (keep rfl rfl)
      rw [hm { st with fs := F } hpc, if_neg hi]
  · rename_i i
    cases h
    obtain ⟨h4, h5, h6⟩ := wake_fs st i
    refine qm (fun F => ?_) h4 h6 (keep h5 rfl)
    rw [hm { st with fs := F } hpc, wake_key]
  · split at h
    · rename_i hi
      cases h
      refine qm (fun F => ?_) rfl rfl (keep rfl rfl)
      rw [hm { st with fs := F } hpc, if_pos hi]
    · cases h
  · cases h

theorem access_threaded {st st' : Run.State} {l : Run.Label} (h : Run.step env st l = .ok (some st')) :
    Access env (.threaded st) (.threaded l) (.threaded st') := by
  cases l with
  | thread i =>
    have hs : (if i < st.size then Run.threadStep env st i else .ok none) = .ok (some st') := h
    split at hs
    · rename_i hi
      obtain ⟨h1, h2, h3, h4⟩ := threadStep_fs hs
      refine quiet_threaded (fun F => ?_) h1 h4 (keeps_threaded h2 h3)
      show (if i < st.size then Run.threadStep env { st with fs := F } i else .ok none) = _
      rw [if_pos hi, threadStep_key, hs]
      rfl
    · cases hs
  | master ch => exact access_master h
  | spurious i =>
    have hs : (if i < st.size ∧ (st.thr i).phase = .sleep then Res.ok (some (Run.wake st i)) else .ok none) = .ok (some st') := h
    split at hs
    · rename_i hi
      have h5 : Run.wake st i = st.setThread i { st.thr i with phase := .check } := if_pos hi.2
      cases hs
      refine quiet_threaded (fun F => ?_) (by rw [h5]; rfl) (by rw [h5]; rfl) (keeps_threaded (by rw [h5]; rfl) (by rw [h5]; rfl))
      show (if i < st.size ∧ (st.thr i).phase = .sleep then Res.ok (some (Run.wake { st with fs := F } i)) else .ok none) = _
      rw [if_pos hi, wake_key]
    · cases hs

/-! ### Several processes -/

theorem quiet_mpi {st st' : Mpi.State} {l : Mpi.Label}
    (hF : ∀ F, Mpi.step env { st with fs := F } l = .ok (some { st' with fs := F })) (hf : st'.fs = st.fs)
    (ht : st'.fileStore = st.fileStore) (hk : Keeps (.mpi st) (.mpi st')) :
    Access env (.mpi st) (.mpi l) (.mpi st') := by
  refine .quiet hf hk (by unfold Prog.target; rw [show (Prog.mpi st').fileStore = _ from ht]; rfl) fun F => ?_
  show (Mpi.step env { st with fs := F } l).bind _ = _
  rw [hF F]
  rfl

theorem stage_keeps_mpi {st st' : Mpi.State} (h1 : st'.todo = st.todo) (h2 : mpiStage st'.pc = mpiStage st.pc) :
    Keeps (.mpi st) (.mpi st') := Or.inl ⟨h1, h2.ge, fun h => h2.symm.trans h⟩

theorem quiet_mpi_master {st st' : Mpi.State} {ch : Run.Choice}
    (hF : ∀ F, Mpi.masterStep { st with fs := F } ch = .ok (some { st' with fs := F })) (hf : st'.fs = st.fs)
    (ht : st'.fileStore = st.fileStore) (hk : Keeps (.mpi st) (.mpi st')) :
    Access env (.mpi st) (.mpi (.master ch)) (.mpi st') :=
  quiet_mpi (l := .master ch) hF hf ht hk

theorem access_main_mpi {st st' : Mpi.State} {ch : Run.Choice} (hpc : st.pc = .main) (h : Mpi.mainStep st ch = .ok st') :
    Access env (.mpi st) (.mpi (.master ch)) (.mpi st') := by
  have hm : ∀ F, Mpi.step env { st with fs := F } (.master ch) = some <$> Mpi.mainStep { st with fs := F } ch := by
    intro F
    show Mpi.masterStep { st with fs := F } ch = _
    unfold Mpi.masterStep
    dsimp only
    rw [hpc]
  have h0 : (Prog.mpi st).stage = 0 := by
    show mpiStage st.pc = 0
    rw [hpc]
    rfl
  cases htd : st.todo with
  | nil =>
    have h1 : Mpi.mainStep st ch = .ok { st with pc := .flush (.wait .exit) } := by
      unfold Mpi.mainStep
      rw [htd]
    rw [h1] at h
    cases h
    refine quiet_mpi (st := st) (fun F => ?_) rfl rfl (Or.inl ⟨rfl, ?_, nofun⟩)
    · rw [hm F]
      unfold Mpi.mainStep
      dsimp only
      rw [htd]
      rfl
    · rw [h0]
      exact Nat.zero_le _
  | cons a rest =>
    cases a with
    | assign b =>
      have h1 : Mpi.mainStep st ch = .ok { st with pc := if ch.saveNow then .save .assign else .contains } := by
        unfold Mpi.mainStep
        rw [htd]
      rw [h1] at h
      cases h
      have h2 : mpiStage (if ch.saveNow then .save .assign else .contains) = 0 := by
        split <;> rfl
      refine quiet_mpi (st := st) (fun F => ?_) rfl rfl (Or.inl ⟨rfl, ?_, fun h3 => ?_⟩)
      · rw [hm F]
        unfold Mpi.mainStep
        dsimp only
        rw [htd]
        rfl
      · rw [h0]
        exact Nat.zero_le _
      · exact absurd (h2.symm.trans h3) (by decide)
    | config c =>
      have h1 : ∀ F, Mpi.mainStep { st with fs := F } ch = (do
          let v ← c.verify F (.ok ch.create)
          pure { st with fs := v.1, pc := if v.2 then .flush (.wait .config) else .flush (.wait .exit) }) := by
        intro F
        unfold Mpi.mainStep
        dsimp only
        rw [htd]
      rw [show Mpi.mainStep st ch = _ from h1 st.fs] at h
      by_cases hz : c.prime ≠ 0 ∧ c.primeExponent ≠ 0 ∧ c.genus ≠ 0 ∧ c.countExponent ≠ 0
      · have h2 : ∀ F : FileSystem, ((F c.resultPath).isSome = true ∨ ch.create = true) →
            c.verify F (.ok ch.create) = .ok (opened F c.resultPath, c.packageSize ≠ 0) := by
          intro F hF
          unfold ConfigNode.verify opened
          rw [if_pos hz]
          split
          · rfl
          · rename_i hn
            rw [Res.bind_ok, if_pos (hF.resolve_left hn)]
            rfl
        have key : ∀ F : FileSystem, ((F c.resultPath).isSome = true ∨ ch.create = true) →
            (Prog.withFs F (.mpi st)).step env (.mpi (.master ch)) = .ok (some (.mpi { st with
              fs := opened F c.resultPath, pc := if c.packageSize ≠ 0 then .flush (.wait .config) else .flush (.wait .exit) })) := by
          intro F hF
          show (Mpi.step env { st with fs := F } (.master ch)).bind _ = _
          rw [hm F, h1 F, h2 F hF]
          simp only [Res.bind_ok, decide_eq_true_eq]
          rfl
        by_cases hs : (st.fs c.resultPath).isSome = true ∨ ch.create = true
        · rw [h2 _ hs] at h
          simp only [Res.bind_ok, decide_eq_true_eq] at h
          cases h
          refine .verify c rest htd h0 rfl ?_ rfl rfl fun F hF => key F ?_
          · show 1 ≤ mpiStage (if c.packageSize ≠ 0 then .flush (.wait .config) else .flush (.wait .exit))
            split <;> decide
          · rcases hF with hF | hF
            · exact Or.inl hF
            · refine Or.inr (hs.resolve_left ?_)
              rw [show st.fs c.resultPath = none from hF]
              simp
        · have h3 : ∀ F : FileSystem, F c.resultPath = none → c.verify F (.ok ch.create) = .ok (F, false) := by
            intro F hF
            unfold ConfigNode.verify
            rw [if_pos hz, if_neg (by rw [hF]; simp), Res.bind_ok, if_neg fun h => hs (Or.inr h)]
            rfl
          have hn : st.fs c.resultPath = none := by
            by_contra hc
            exact hs (Or.inl (Option.isSome_iff_ne_none.2 hc))
          rw [h3 _ hn, Res.bind_ok] at h
          cases h
          refine .refuse c rest htd h0 rfl rfl rfl hn rfl fun F hF => ?_
          show (Mpi.step env { st with fs := F } (.master ch)).bind _ = _
          rw [hm F, h1 F, h3 F hF, Res.bind_ok]
          rfl
      · have h3 : ∀ F : FileSystem, c.verify F (.ok ch.create) = .ok (F, false) := by
          intro F
          unfold ConfigNode.verify
          rw [if_neg hz]
        rw [h3, Res.bind_ok] at h
        cases h
        refine quiet_mpi (st := st) (fun F => ?_) rfl rfl (Or.inl ⟨rfl, ?_, nofun⟩)
        · rw [hm F, h1 F, h3 F]
          rfl
        · rw [h0]
          exact Nat.zero_le _

theorem mpiStage_afterSave (k : Cont) : mpiStage (Mpi.afterSave k) = contStage k := by cases k <;> rfl

theorem mpiStage_afterFlush (c : Mpi.Caller) : mpiStage (Mpi.afterFlush c) = callerStage c := by cases c <;> rfl

/-- The part of a save that depends on the file system; `st₁` is the state after the data has been taken. -/
theorem access_fileSave {st st₁ st' : Mpi.State} {ch : Run.Choice} {f : FileStoreObj} {s : List Char × List Char} {ix : Nat}
    {k : Cont} (hm : ∀ F, Mpi.masterStep { st with fs := F } ch = .ok (Mpi.fileSave { st₁ with fs := F } f ch.id s ix k))
    (hf : st.fileStore = some f) (h1 : st₁.fs = st.fs) (h2 : st₁.todo = st.todo) (h3 : st₁.fileStore = st.fileStore)
    (h0 : mpiStage st.pc = contStage k) (h : Mpi.fileSave st₁ f ch.id s ix k = some st') :
    Access env (.mpi st) (.mpi (.master ch)) (.mpi st') := by
  have htg : ∀ {x : Mpi.State}, x.fileStore = st₁.fileStore → (Prog.mpi x).target = (Prog.mpi st).target := by
    intro x hx
    show x.fileStore.map _ = st.fileStore.map _
    rw [hx, h3]
  unfold Mpi.fileSave at h
  split at h
  · rename_i hv
    split at h
    · rename_i hn
      cases h
      refine .lost f.config.resultPath (congrArg (Option.map _) hf) ((congrFun h1 _).symm.trans hn) h1
        (stage_keeps_mpi h2 h0.symm) (htg rfl) fun F h4 => ?_
      show (Mpi.masterStep { st with fs := F } ch).bind _ = _
      rw [hm F]
      unfold Mpi.fileSave
      rw [if_pos hv]
      dsimp only
      rw [h4]
      rfl
    · rename_i d hd
      split at h
      · rename_i hi
        cases h
        refine .save f.config.resultPath ch.id d (congrArg (Option.map _) hf) ((congrFun h1 _).symm.trans hd) hi h1
          (stage_keeps_mpi h2 h0.symm) (htg rfl) fun F d' h4 h5 => ?_
        show (Mpi.masterStep { st with fs := F } ch).bind _ = _
        rw [hm F]
        unfold Mpi.fileSave
        rw [if_pos hv]
        dsimp only
        rw [h4]
        dsimp only
        rw [if_pos h5]
        rfl
      · cases h
  · rename_i hv
    cases h
    refine quiet_mpi_master (fun F => ?_) h1 h3 (stage_keeps_mpi h2 h0.symm)
    rw [hm F]
    unfold Mpi.fileSave
    rw [if_neg hv]

theorem access_write_mpi {st st' : Mpi.State} {ch : Run.Choice} {n c : List Char} {ws : List (List Char × List Char)}
    {ix : Nat} {k : Cont} (hpc : st.pc = .write ((n, c) :: ws) ix k) (h : Mpi.writeStep st n c ws ix k = st') :
    Access env (.mpi st) (.mpi (.master ch)) (.mpi st') := by
  have hm : ∀ F, Mpi.masterStep { st with fs := F } ch = .ok (some (Mpi.writeStep { st with fs := F } n c ws ix k)) := by
    intro F
    unfold Mpi.masterStep
    dsimp only
    rw [hpc]
  have h0 : mpiStage (.write ws ix k) = mpiStage st.pc := by
    rw [hpc]
    rfl
  unfold Mpi.writeStep at h
  split at h
  · rename_i hf
    subst h
    refine quiet_mpi_master (fun F => ?_) rfl rfl (stage_keeps_mpi rfl h0)
    rw [hm F]
    unfold Mpi.writeStep
    dsimp only
    rw [hf]
  · rename_i f hf
    split at h
    · rename_i hn
      subst h
      refine .lost f.config.resultPath (congrArg (Option.map _) hf) hn rfl (stage_keeps_mpi rfl h0) rfl fun F h1 => ?_
      show (Mpi.masterStep { st with fs := F } ch).bind _ = _
      rw [hm F]
      unfold Mpi.writeStep
      dsimp only
      rw [hf]
      dsimp only
      rw [h1]
      rfl
    · rename_i d hd
      subst h
      refine .write f.config.resultPath n c d ?_ (congrArg (Option.map _) hf) hd rfl (stage_keeps_mpi rfl h0) rfl ?_
      · show Prog.writing (.mpi st) = _
        unfold Prog.writing
        dsimp only
        rw [hpc, hf]
      · intro F d' h1
        show (Mpi.masterStep { st with fs := F } ch).bind _ = _
        rw [hm F]
        unfold Mpi.writeStep
        dsimp only
        rw [hf]
        dsimp only
        rw [h1]
        rfl

theorem access_load_mpi {st st' : Mpi.State} {ch : Run.Choice} {c : ConfigNode} {rest : List Cmd} (hpc : st.pc = .newStore)
    (htd : st.todo = .config c :: rest) (h : Mpi.newStoreStep st c = .ok st') :
    Access env (.mpi st) (.mpi (.master ch)) (.mpi st') := by
  have hm : ∀ F, Mpi.masterStep { st with fs := F } ch = some <$> Mpi.newStoreStep { st with fs := F } c := by
    intro F
    unfold Mpi.masterStep
    dsimp only
    rw [hpc, htd]
  have h0 : (Prog.mpi st).stage = 1 := by
    show mpiStage st.pc = 1
    rw [hpc]
    rfl
  unfold Mpi.newStoreStep at h
  split at h
  · rename_i hn
    cases h
    refine .load c rest htd h0 rfl rfl rfl rfl fun F hF => ?_
    show (Mpi.masterStep { st with fs := F } ch).bind _ = _
    rw [hm F]
    unfold Mpi.newStoreStep
    dsimp only
    rw [hF, show (Prog.mpi st).fs = st.fs from rfl, hn]
    rfl
  · rename_i d hd
    obtain ⟨r, h1, h2⟩ := Res.bind_eq_ok.1 h
    cases h2
    refine .load c rest htd h0 rfl rfl rfl rfl fun F hF => ?_
    show (Mpi.masterStep { st with fs := F } ch).bind _ = _
    rw [hm F]
    unfold Mpi.newStoreStep
    dsimp only
    rw [hF, show (Prog.mpi st).fs = st.fs from rfl, hd]
    dsimp only
    rw [h1]
    rfl

theorem finishedBlocks_key (st : Mpi.State) (ix : Nat) (bs : List Block) (F : FileSystem) :
    Mpi.finishedBlocks { st with fs := F } ix bs = (Mpi.finishedBlocks st ix bs).bind fun x => .ok { x with fs := F } := by
  unfold Mpi.finishedBlocks
  dsimp only
  cases Run.eraseFinished bs (st.assigned ix) <;> rfl

theorem finishedBlocks_fs {st st' : Mpi.State} {ix : Nat} {bs : List Block} (h : Mpi.finishedBlocks st ix bs = .ok st') :
    st'.fs = st.fs ∧ st'.todo = st.todo ∧ st'.fileStore = st.fileStore := by
  unfold Mpi.finishedBlocks at h
  obtain ⟨a, _, h2⟩ := Res.bind_eq_ok.1 h
  cases h2
  exact ⟨rfl, rfl, rfl⟩

theorem passBlock_fs {st st' : Mpi.State} {ix : Nat} {b : Block} {o : Bool} (h : Mpi.passBlock st ix b o = .ok st') :
    st'.fs = st.fs ∧ st'.todo = st.todo ∧ st'.fileStore = st.fileStore ∧ mpiStage st'.pc = 0 ∧
      ∀ F, Mpi.passBlock { st with fs := F } ix b o = .ok { st' with fs := F } := by
  unfold Mpi.passBlock at h
  split at h
  · rename_i hi
    obtain ⟨r, h1, h2⟩ := Res.bind_eq_ok.1 h
    cases h2
    refine ⟨rfl, rfl, rfl, rfl, fun F => ?_⟩
    unfold Mpi.passBlock
    rw [if_pos hi]
    dsimp only
    rw [h1]
    rfl
  · rename_i hi
    cases h
    refine ⟨rfl, rfl, rfl, rfl, fun F => ?_⟩
    unfold Mpi.passBlock
    rw [if_neg hi]
    rfl

theorem takeStep_mpi_fs {st st' : Mpi.State} {b : Block} {rest : List Cmd} (h : Mpi.takeStep st b rest = .ok st') :
    st'.fs = st.fs ∧ st'.todo = rest ∧ st'.fileStore = st.fileStore ∧ mpiStage st'.pc = 0 ∧
      ∀ F, Mpi.takeStep { st with fs := F } b rest = .ok { st' with fs := F } := by
  unfold Mpi.takeStep at h
  split at h
  · rename_i ix q hq
    obtain ⟨h1, h2, h3, h4, h5⟩ := passBlock_fs h
    refine ⟨h1, h2, h3, h4, fun F => ?_⟩
    unfold Mpi.takeStep
    dsimp only
    rw [hq]
    exact h5 F
  · rename_i hq
    split at h
    · rename_i ix q hq'
      obtain ⟨h1, h2, h3, h4, h5⟩ := passBlock_fs h
      refine ⟨h1, h2, h3, h4, fun F => ?_⟩
      have h6 := h5 F
      unfold Mpi.takeStep
      dsimp only
      dsimp only at h6
      rw [hq, hq']
      rw [hq] at h6
      exact h6
    · cases h

theorem access_mpi_master {st st' : Mpi.State} {ch : Run.Choice} (h : Mpi.masterStep st ch = .ok (some st')) :
    Access env (.mpi st) (.mpi (.master ch)) (.mpi st') := by
  obtain ⟨M, hM⟩ : ∃ M : Mpi.State → Res (Option Mpi.State), ∀ y, M y = Mpi.masterStep y ch := ⟨_, fun _ => rfl⟩
  have qm : ∀ {x : Mpi.State}, (∀ F, M { st with fs := F } = .ok (some { x with fs := F })) → x.fs = st.fs →
      x.fileStore = st.fileStore → Keeps (.mpi st) (.mpi x) → Access env (.mpi st) (.mpi (.master ch)) (.mpi x) :=
    fun hF => quiet_mpi_master fun F => (hM _).symm.trans (hF F)
  have hm : ∀ y, y.pc = st.pc → M y = Mpi.masterStep y ch := fun y _ => hM y
  unfold Mpi.masterStep at h hm
  have keep : ∀ {x : Mpi.State}, x.todo = st.todo → mpiStage x.pc = mpiStage st.pc → Keeps (.mpi st) (.mpi x) :=
    fun h1 h2 => stage_keeps_mpi h1 h2
  split at h <;> rename_i hpc <;> simp +contextual only [hpc] at hm keep
  -- main
  · exact access_main_mpi hpc (Run.some_map_ok h)
  -- flush
  · have h1 := Run.some_map_ok h
    unfold Mpi.flushStep at h1
    obtain ⟨x, h2, h3⟩ := Res.bind_eq_ok.1 h1
    cases h3
    obtain ⟨h4, h5, h6⟩ := finishedBlocks_fs h2
    refine qm (fun F => ?_) h4 h6 (keep h5 rfl)
    rw [hm { st with fs := F } hpc]
    unfold Mpi.flushStep
    have h7 := finishedBlocks_key (st.setProc 0 (st.procs 0).flushFinished.1) 0 (st.procs 0).flushFinished.2 F
    rw [h2] at h7
    show some <$> (Mpi.finishedBlocks { st.setProc 0 (st.procs 0).flushFinished.1 with fs := F } 0
      (st.procs 0).flushFinished.2 >>= _) = _
    rw [h7]
    rfl
  -- flushSend
  · rename_i ix c
    split at h
    · rename_i hi
      cases h
      refine qm (fun F => ?_) rfl rfl (keep rfl rfl)
      rw [hm { st with fs := F } hpc, if_pos hi]
      rfl
    · rename_i hi
      cases h
      refine qm (fun F => ?_) rfl rfl (keep rfl (mpiStage_afterFlush c))
      rw [hm { st with fs := F } hpc, if_neg hi]
  -- flushRecv
  · rename_i ix c
    unfold Mpi.flushRecvStep at h
    split at h
    · cases h
    · rename_i bs rest ho
      obtain ⟨x, h2, h3⟩ := Res.bind_eq_ok.1 h
      cases h3
      obtain ⟨h4, h5, h6⟩ := finishedBlocks_fs h2
      refine qm (fun F => ?_) h4 h6 (keep h5 rfl)
      rw [hm { st with fs := F } hpc]
      unfold Mpi.flushRecvStep
      dsimp only
      rw [ho]
      have h7 := finishedBlocks_key (st.setProc ix { st.procs ix with finishedOut := rest }) ix bs F
      rw [h2] at h7
      show (Mpi.finishedBlocks { st.setProc ix { st.procs ix with finishedOut := rest } with fs := F } ix bs >>= _) = _
      rw [h7]
      rfl
  -- waited
  · rename_i k
    cases h
    refine qm (fun F => hm { st with fs := F } hpc) rfl rfl (keep rfl ?_)
    unfold Mpi.waitedStep
    dsimp only
    split <;> rfl
  -- ready
  · cases h
    exact qm (fun F => hm { st with fs := F } hpc) rfl rfl (keep rfl rfl)
  -- readySend
  · split at h
    · rename_i hi
      cases h
      refine qm (fun F => ?_) rfl rfl (keep rfl rfl)
      rw [hm { st with fs := F } hpc, if_pos hi]
      rfl
    · rename_i hi
      cases h
      refine qm (fun F => ?_) rfl rfl (keep rfl rfl)
      rw [hm { st with fs := F } hpc, if_neg hi]
  -- readyRecv
  · have h1 := Res.ok.inj h
    unfold Mpi.readyRecvStep at h1
    split at h1
    · cases h1
    · rename_i n rest ho
      cases h1
      refine qm (fun F => ?_) rfl rfl (keep rfl rfl)
      rw [hm { st with fs := F } hpc]
      unfold Mpi.readyRecvStep
      dsimp only
      rw [ho]
      rfl
  -- filled
  · cases h
    refine qm (fun F => hm { st with fs := F } hpc) rfl rfl (keep rfl ?_)
    dsimp only
    split <;> rfl
  -- save
  · rename_i k
    have h1 := Res.ok.inj h
    unfold Mpi.saveStep at h1
    split at h1
    · rename_i hf
      cases h1
      refine qm (fun F => ?_) rfl rfl (keep rfl (mpiStage_afterSave k))
      rw [hm { st with fs := F } hpc]
      unfold Mpi.saveStep
      dsimp only
      rw [hf]
    · rename_i f hf
      refine access_fileSave (st₁ := st.setProc 0 (st.procs 0).flushStatic.1) (s := (st.procs 0).flushStatic.2)
        (fun F => ?_) hf rfl rfl rfl (by rw [hpc]; rfl) h1
      rw [← hM, hm { st with fs := F } hpc]
      unfold Mpi.saveStep
      dsimp only
      split
      · rename_i hc
        rw [hf] at hc
        cases hc
      · rename_i g hg
        rw [hf] at hg
        cases hg
        rfl
  -- saveSend
  · rename_i ix k
    split at h
    · rename_i hi
      cases h
      refine qm (fun F => ?_) rfl rfl (keep rfl rfl)
      rw [hm { st with fs := F } hpc, if_pos hi]
      rfl
    · rename_i hi
      cases h
      refine qm (fun F => ?_) rfl rfl (keep rfl (mpiStage_afterSave k))
      rw [hm { st with fs := F } hpc, if_neg hi]
  -- saveRecv
  · rename_i ix k
    unfold Mpi.saveRecvStep at h
    split at h
    · cases h
    · rename_i s rest ho
      split at h
      · cases h
      · rename_i f hf
        refine access_fileSave (st₁ := st.setProc ix { st.procs ix with saveOut := rest }) (s := s)
          (fun F => ?_) hf rfl rfl rfl (by rw [hpc]; rfl) (Res.ok.inj h)
        rw [← hM, hm { st with fs := F } hpc]
        unfold Mpi.saveRecvStep
        dsimp only
        rw [ho]
        dsimp only
        split
        · rename_i hc
          rw [hf] at hc
          cases hc
        · rename_i g hg
          rw [hf] at hg
          cases hg
          rfl
  -- write
  · cases h
    exact qm (fun F => hm { st with fs := F } hpc) rfl rfl (keep rfl rfl)
  · exact access_write_mpi hpc (Option.some.inj (Res.ok.inj h))
  -- newStore
  · split at h
    · rename_i c rest htd
      exact access_load_mpi hpc htd (Run.some_map_ok h)
    · cases h
  -- update
  · split at h
    · rename_i c rest htd
      cases h
      refine qm (fun F => ?_) rfl rfl (keep rfl rfl)
      rw [hm { st with fs := F } hpc]
      dsimp only
      split
      · rename_i c' rest' htd'
        rw [htd] at htd'
        cases htd'
        rfl
      · rename_i hne
        exact absurd htd (hne _ _)
    · cases h
  -- configSend
  · split at h
    · rename_i c rest htd
      split at h
      · rename_i hi
        cases h
        refine qm (fun F => ?_) rfl rfl (keep rfl rfl)
        rw [hm { st with fs := F } hpc]
        dsimp only
        split
        · rename_i c' rest' htd'
          rw [htd] at htd'
          cases htd'
          rw [if_pos hi]
          rfl
        · rename_i hne
          exact absurd htd (hne _ _)
      · rename_i hi
        cases h
        refine qm (fun F => ?_) rfl rfl (Or.inr ⟨_, htd, nofun⟩)
        rw [hm { st with fs := F } hpc]
        dsimp only
        split
        · rename_i c' rest' htd'
          rw [htd] at htd'
          cases htd'
          rw [if_neg hi]
        · rename_i hne
          exact absurd htd (hne _ _)
    · cases h
  -- contains
  · split at h
    · rename_i b rest htd
      have h1 := Run.some_map_ok h
      unfold Mpi.containsStep at h1
      split at h1
      · cases h1
      · rename_i f hf
        split at h1
        · rename_i hc
          cases h1
          refine qm (fun F => ?_) rfl rfl (Or.inr ⟨_, htd, nofun⟩)
          rw [hm { st with fs := F } hpc, htd]
          unfold Mpi.containsStep
          dsimp only
          rw [hf]
          dsimp only
          rw [if_pos hc]
          rfl
        · rename_i hc
          split at h1
          · rename_i ho
            cases h1
            refine qm (fun F => ?_) rfl rfl (keep rfl rfl)
            rw [hm { st with fs := F } hpc, htd]
            unfold Mpi.containsStep
            dsimp only
            rw [hf]
            dsimp only
            rw [if_neg hc, if_pos ho]
            rfl
          · rename_i ho
            cases h1
            refine qm (fun F => ?_) rfl rfl (keep rfl rfl)
            rw [hm { st with fs := F } hpc, htd]
            unfold Mpi.containsStep
            dsimp only
            rw [hf]
            dsimp only
            rw [if_neg hc, if_neg ho]
            rfl
    · cases h
  -- take
  · split at h
    · rename_i b rest htd
      obtain ⟨h1, h2, h3, h4, h5⟩ := takeStep_mpi_fs (Run.some_map_ok h)
      refine qm (fun F => ?_) h1 h3 (Or.inr ⟨.assign b, htd.trans (congrArg _ h2.symm), ?_⟩)
      · rw [hm { st with fs := F } hpc, htd]
        have h6 := h5 F
        rw [htd] at h6
        dsimp only
        rw [h6]
        rfl
      · show mpiStage st'.pc ≠ 1
        rw [h4]
        nofun
    · cases h
  -- notify
  · cases h
    exact qm (fun F => hm { st with fs := F } hpc) rfl rfl (keep rfl rfl)
  -- insert
  · cases h
    exact qm (fun F => hm { st with fs := F } hpc) rfl rfl (keep rfl rfl)
  -- stopSend
  · split at h
    · rename_i hi
      cases h
      refine qm (fun F => ?_) rfl rfl (keep rfl rfl)
      rw [hm { st with fs := F } hpc, if_pos hi]
      rfl
    · rename_i hi
      cases h
      refine qm (fun F => ?_) rfl rfl (keep rfl rfl)
      rw [hm { st with fs := F } hpc, if_neg hi]
  -- shutdown
  · split at h
    · rename_i hi
      cases h
      refine qm (fun F => ?_) rfl rfl (keep rfl rfl)
      rw [hm { st with fs := F } hpc, if_pos hi]
      rfl
    · rename_i hi
      cases h
      refine qm (fun F => ?_) rfl rfl (keep rfl rfl)
      rw [hm { st with fs := F } hpc, if_neg hi]
  -- shutNotify
  · cases h
    exact qm (fun F => hm { st with fs := F } hpc) rfl rfl (keep rfl rfl)
  -- join
  · split at h
    · rename_i hi
      cases h
      refine qm (fun F => ?_) rfl rfl (keep rfl rfl)
      rw [hm { st with fs := F } hpc, if_pos hi]
    · cases h
  · cases h

theorem access_mpi {st st' : Mpi.State} {l : Mpi.Label} (h : Mpi.step env st l = .ok (some st')) :
    Access env (.mpi st) (.mpi l) (.mpi st') := by
  have hq : ∀ {ix : Nat} {x : Mpi.Proc} {l : Mpi.Label}, (∀ F, Mpi.step env { st with fs := F } l =
      .ok (some { st.setProc ix x with fs := F })) → Access env (.mpi st) (.mpi l) (.mpi (st.setProc ix x)) :=
    fun hF => quiet_mpi hF rfl rfl (stage_keeps_mpi rfl rfl)
  cases l with
  | thread ix i =>
    have hs : (if ix < st.nprocs ∧ i < (st.procs ix).size then (do
        let p ← (st.procs ix).threadStep env i
        pure (p.map (st.setProc ix))) else .ok none) = Res.ok (some st') := h
    split at hs
    · rename_i hi
      obtain ⟨o, h1, h2⟩ := Res.bind_eq_ok.1 hs
      cases o with
      | none => cases h2
      | some x =>
        cases h2
        refine hq fun F => ?_
        show (if ix < st.nprocs ∧ i < (st.procs ix).size then (do
          let p ← (st.procs ix).threadStep env i
          pure (p.map (Mpi.State.setProc { st with fs := F } ix))) else .ok none) = _
        rw [if_pos hi, h1]
        rfl
    · cases hs
  | master ch => exact access_mpi_master h
  | worker ix =>
    have hs : (if 0 < ix ∧ ix < st.nprocs then (do
        let p ← (st.procs ix).workerStep
        pure (p.map (st.setProc ix))) else .ok none) = Res.ok (some st') := h
    split at hs
    · rename_i hi
      obtain ⟨o, h1, h2⟩ := Res.bind_eq_ok.1 hs
      cases o with
      | none => cases h2
      | some x =>
        cases h2
        refine hq fun F => ?_
        show (if 0 < ix ∧ ix < st.nprocs then (do
          let p ← (st.procs ix).workerStep
          pure (p.map (Mpi.State.setProc { st with fs := F } ix))) else .ok none) = _
        rw [if_pos hi, h1]
        rfl
    · cases hs
  | spurious ix i =>
    have hs : (if ix < st.nprocs ∧ i < (st.procs ix).size ∧ ((st.procs ix).thr i).phase = .sleep then
      Res.ok (some (st.setProc ix ((st.procs ix).wake i))) else .ok none) = .ok (some st') := h
    split at hs
    · rename_i hi
      cases hs
      refine hq fun F => ?_
      show (if ix < st.nprocs ∧ i < (st.procs ix).size ∧ ((st.procs ix).thr i).phase = .sleep then
        Res.ok (some (Mpi.State.setProc { st with fs := F } ix ((st.procs ix).wake i))) else .ok none) = _
      rw [if_pos hi]
      rfl
    · cases hs

/-- Every step of a run. -/
theorem access {s s' : Prog} {l : Move} (h : s.step env l = .ok (some s')) : Access env s l s' := by
  cases s with
  | threaded st =>
    cases l with
    | threaded l =>
      obtain ⟨o, h1, h2⟩ := Res.bind_eq_ok.1 (show (Run.step env st l >>= fun o => Res.ok (o.map Prog.threaded)) = _ from h)
      cases o with
      | none => cases h2
      | some x =>
        cases h2
        exact access_threaded h1
    | mpi l => cases h
  | mpi st =>
    cases l with
    | threaded l => cases h
    | mpi l =>
      obtain ⟨o, h1, h2⟩ := Res.bind_eq_ok.1 (show (Mpi.step env st l >>= fun o => Res.ok (o.map Prog.mpi)) = _ from h)
      cases o with
      | none => cases h2
      | some x =>
        cases h2
        exact access_mpi h1

end

end Parallel
end Hycu
