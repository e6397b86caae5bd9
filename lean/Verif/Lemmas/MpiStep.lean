import Verif.Lemmas.MpiProc

/-!
The possible steps of a run with several processes, one by one.
-/

namespace Hycu
namespace Mpi

open Run (Tables Job Phase Thread ThreadPool FileStoreObj Cmd Cont Choice Env eraseFinished Book)

/-- Steps of the main thread of a worker. -/
inductive WStep (p : Proc) : Proc → Prop
  | config (c : ConfigNode) (ms : List Msg) (hi : p.inbox = .config c :: ms) : WStep p ({ p with inbox := ms }.update c)
  | assign (o : Bool) (b : Block) (ms : List Msg) (hi : p.inbox = .assign o b :: ms) (r : Proc × Nat)
      (hr : { p with inbox := ms }.assign b o = .ok r) : WStep p { r.1 with pc := .notify r.2 }
  | ready (ms : List Msg) (hi : p.inbox = .readyThreads :: ms) :
      WStep p { p.flushReady.1 with inbox := ms, readyOut := p.readyOut ++ [p.flushReady.2] }
  | save (ms : List Msg) (hi : p.inbox = .save :: ms) :
      WStep p { p with
        inbox := ms, static := ⟨[], []⟩,
        saveOut := p.saveOut ++ [(Record.print p.static.record, Store.print p.static.store)] }
  | finished (ms : List Msg) (hi : p.inbox = .finishedBlocks :: ms) :
      WStep p { p.flushFinished.1 with inbox := ms, finishedOut := p.finishedOut ++ [p.pool.finished] }
  | shutdown (ms : List Msg) (hi : p.inbox = .shutdown :: ms) : WStep p { p with inbox := ms, pc := .shutdown 0 }
  | wake (i : Nat) (pc : WorkerPc) : WStep p { p.wake i with pc := pc }
  | stop (i : Nat) (pc : WorkerPc) : WStep p { p.stop i with pc := pc }
  | pc (pc : WorkerPc) : WStep p { p with pc := pc }

theorem workerStep_cases {p p' : Proc} (h : p.workerStep = .ok (some p')) : WStep p p' := by
  unfold Proc.workerStep at h
  split at h
  · split at h
    · cases h
    · rename_i m ms hi
      cases m with
      | config c =>
        cases h
        exact .config c ms hi
      | assign o b =>
        unfold Proc.handle at h
        simp only at h
        obtain ⟨r, hr, h⟩ := Res.bind_eq_ok.1 (Run.some_map_ok h)
        cases h
        exact .assign o b ms hi r hr
      | readyThreads =>
        cases h
        exact .ready ms hi
      | save =>
        cases h
        exact .save ms hi
      | finishedBlocks =>
        cases h
        exact .finished ms hi
      | shutdown =>
        cases h
        exact .shutdown ms hi
  · rename_i i hp
    cases h
    exact .wake i _
  · split at h
    · rename_i i _ hi
      cases h
      exact .stop i _
    · cases h
      exact .pc _
  · rename_i i hp
    cases h
    exact .wake i _
  · split at h
    · cases h
      exact .pc _
    · cases h
  · cases h

/-- Steps of the main thread of the master. -/
inductive MStep (st : State) : State → Prop
  | mainEnd (hpc : st.pc = .main) (ht : st.todo = []) : MStep st { st with pc := .flush (.wait .exit) }
  | mainConfig (hpc : st.pc = .main) (c : ConfigNode) (rest : List Cmd) (ht : st.todo = .config c :: rest)
      (create : Bool) (v : FileSystem × Bool) (hv : c.verify st.fs (.ok create) = .ok v) :
      MStep st { st with fs := v.1, pc := if v.2 then .flush (.wait .config) else .flush (.wait .exit) }
  | mainAssign (hpc : st.pc = .main) (b : Block) (rest : List Cmd) (ht : st.todo = .assign b :: rest) (now : Bool) :
      MStep st { st with pc := if now then .save .assign else .contains }
  | flush (c : Caller) (hpc : st.pc = .flush c) (a : OSet Block)
      (ha : eraseFinished (st.procs 0).pool.finished (st.assigned 0) = .ok a) :
      MStep st { st.setProc 0 (st.procs 0).flushFinished.1 with
        assigned := Function.update st.assigned 0 a, pc := .flushSend 1 c }
  | flushSend (ix : Nat) (c : Caller) (hpc : st.pc = .flushSend ix c) (hi : ix < st.nprocs) :
      MStep st { st.send ix .finishedBlocks with pc := .flushRecv ix c }
  | flushEnd (ix : Nat) (c : Caller) (hpc : st.pc = .flushSend ix c) (hi : ¬ ix < st.nprocs) :
      MStep st { st with pc := afterFlush c }
  | flushRecv (ix : Nat) (c : Caller) (hpc : st.pc = .flushRecv ix c) (bs : List Block) (rest : List (List Block))
      (ho : (st.procs ix).finishedOut = bs :: rest) (a : OSet Block)
      (ha : eraseFinished bs (st.assigned ix) = .ok a) :
      MStep st { st.setProc ix { st.procs ix with finishedOut := rest } with
        assigned := Function.update st.assigned ix a, pc := .flushSend (ix + 1) c }
  | waited (k : Cont) (hpc : st.pc = .waited k) (h : ∀ ix, ix < st.nprocs → st.assigned ix = []) :
      MStep st { st with pc := .save k }
  | waitOn (k : Cont) (hpc : st.pc = .waited k) : MStep st { st with pc := .flush (.wait k) }
  | ready (hpc : st.pc = .ready) : MStep st (readyStep st)
  | readySend (ix : Nat) (hpc : st.pc = .readySend ix) (hi : ix < st.nprocs) :
      MStep st { st.send ix .readyThreads with pc := .readyRecv ix }
  | readyEnd (ix : Nat) (hpc : st.pc = .readySend ix) (hi : ¬ ix < st.nprocs) : MStep st { st with pc := .filled }
  | readyRecv (ix : Nat) (hpc : st.pc = .readyRecv ix) (n : Nat × Nat) (rest : List (Nat × Nat))
      (ho : (st.procs ix).readyOut = n :: rest) :
      MStep st { pushIdle (st.setProc ix { st.procs ix with readyOut := rest }) ix n with pc := .readySend (ix + 1) }
  | fillOn (hpc : st.pc = .filled) : MStep st { st with pc := .flush .fill }
  | filled (hpc : st.pc = .filled) (h : ¬ (st.cpuQueue = [] ∧ st.openclQueue = [])) : MStep st { st with pc := .take }
  | saveNone (k : Cont) (hpc : st.pc = .save k) (hf : st.fileStore = none) : MStep st { st with pc := afterSave k }
  | saveLost (k : Cont) (hpc : st.pc = .save k) (f : FileStoreObj) (hf : st.fileStore = some f)
      (h : f.valid = false ∨ st.fs f.config.resultPath = none) :
      MStep st { st.setProc 0 { st.procs 0 with static := ⟨[], []⟩ } with pc := .saveSend 1 k }
  | saveStart (k : Cont) (hpc : st.pc = .save k) (f : FileStoreObj) (hf : st.fileStore = some f)
      (hv : f.valid = true) (d : Dir) (hd : st.fs f.config.resultPath = some d) (id : Nat)
      (hid : FileStore.fresh d id = true) :
      MStep st { st.setProc 0 { st.procs 0 with static := ⟨[], []⟩ } with
        pc := .write (FileStore.saveWrites id
          (Record.print (st.procs 0).static.record, Store.print (st.procs 0).static.store)) 0 k }
  | saveSend (ix : Nat) (k : Cont) (hpc : st.pc = .saveSend ix k) (hi : ix < st.nprocs) :
      MStep st { st.send ix .save with pc := .saveRecv ix k }
  | saveEnd (ix : Nat) (k : Cont) (hpc : st.pc = .saveSend ix k) (hi : ¬ ix < st.nprocs) :
      MStep st { st with pc := afterSave k }
  | recvLost (ix : Nat) (k : Cont) (hpc : st.pc = .saveRecv ix k) (s : List Char × List Char)
      (rest : List (List Char × List Char)) (ho : (st.procs ix).saveOut = s :: rest) (f : FileStoreObj)
      (hf : st.fileStore = some f) (h : f.valid = false ∨ st.fs f.config.resultPath = none) :
      MStep st { st.setProc ix { st.procs ix with saveOut := rest } with pc := .saveSend (ix + 1) k }
  | recvStart (ix : Nat) (k : Cont) (hpc : st.pc = .saveRecv ix k) (s : List Char × List Char)
      (rest : List (List Char × List Char)) (ho : (st.procs ix).saveOut = s :: rest) (f : FileStoreObj)
      (hf : st.fileStore = some f) (hv : f.valid = true) (d : Dir) (hd : st.fs f.config.resultPath = some d) (id : Nat)
      (hid : FileStore.fresh d id = true) :
      MStep st { st.setProc ix { st.procs ix with saveOut := rest } with pc := .write (FileStore.saveWrites id s) ix k }
  | writeEnd (ix : Nat) (k : Cont) (hpc : st.pc = .write [] ix k) : MStep st { st with pc := .saveSend (ix + 1) k }
  | writeLost (ix : Nat) (k : Cont) (n c : List Char) (ws : List (List Char × List Char))
      (hpc : st.pc = .write ((n, c) :: ws) ix k)
      (h : ∀ f, st.fileStore = some f → st.fs f.config.resultPath = none) : MStep st { st with pc := .write ws ix k }
  | write (ix : Nat) (k : Cont) (n c : List Char) (ws : List (List Char × List Char))
      (hpc : st.pc = .write ((n, c) :: ws) ix k) (f : FileStoreObj) (hf : st.fileStore = some f) (d : Dir)
      (hd : st.fs f.config.resultPath = some d) :
      MStep st { st with fs := st.fs.set f.config.resultPath (d.write n c), pc := .write ws ix k }
  | newStoreInvalid (hpc : st.pc = .newStore) (c : ConfigNode) (rest : List Cmd) (ht : st.todo = .config c :: rest)
      (hd : st.fs c.resultPath = none) : MStep st { st with fileStore := some ⟨c, false, []⟩, pc := .update }
  | newStore (hpc : st.pc = .newStore) (c : ConfigNode) (rest : List Cmd) (ht : st.todo = .config c :: rest)
      (d : Dir) (hd : st.fs c.resultPath = some d) (r : OSet Block) (hr : FileStore.initialRecord d = .ok r) :
      MStep st { st with fileStore := some ⟨c, true, r⟩, pc := .update }
  | update (hpc : st.pc = .update) (c : ConfigNode) (rest : List Cmd) (ht : st.todo = .config c :: rest) :
      MStep st { st.setProc 0 ((st.procs 0).update c) with pc := .configSend 1 }
  | configSend (ix : Nat) (hpc : st.pc = .configSend ix) (c : ConfigNode) (rest : List Cmd)
      (ht : st.todo = .config c :: rest) (hi : ix < st.nprocs) :
      MStep st { st.send ix (.config c) with pc := .configSend (ix + 1) }
  | configEnd (ix : Nat) (hpc : st.pc = .configSend ix) (c : ConfigNode) (rest : List Cmd)
      (ht : st.todo = .config c :: rest) (hi : ¬ ix < st.nprocs) : MStep st { st with todo := rest, pc := .main }
  | skip (hpc : st.pc = .contains) (b : Block) (rest : List Cmd) (ht : st.todo = .assign b :: rest)
      (f : FileStoreObj) (hf : st.fileStore = some f) (hc : FileStore.contains f.initial b = true) :
      MStep st { st with todo := rest, pc := .main }
  | fill (hpc : st.pc = .contains) (b : Block) (rest : List Cmd) (ht : st.todo = .assign b :: rest)
      (f : FileStoreObj) (hf : st.fileStore = some f) (hc : FileStore.contains f.initial b = false) :
      MStep st { st with pc := .flush .fill }
  | noFill (hpc : st.pc = .contains) (b : Block) (rest : List Cmd) (ht : st.todo = .assign b :: rest)
      (f : FileStoreObj) (hf : st.fileStore = some f) (hc : FileStore.contains f.initial b = false)
      (ho : st.openclQueue ≠ []) : MStep st { st with pc := .take }
  | takeLocal (hpc : st.pc = .take) (b : Block) (rest : List Cmd) (ht : st.todo = .assign b :: rest) (o : Bool)
      (cq oq : List Nat) (hq : (o = true ∧ st.openclQueue = 0 :: oq ∧ cq = st.cpuQueue) ∨
        (o = false ∧ st.cpuQueue = 0 :: cq ∧ oq = st.openclQueue)) (r : Proc × Nat)
      (hr : (st.procs 0).assign b o = .ok r) :
      MStep st { st.setProc 0 r.1 with cpuQueue := cq, openclQueue := oq, todo := rest, pc := .notify r.2 b }
  | takeRemote (hpc : st.pc = .take) (b : Block) (rest : List Cmd) (ht : st.todo = .assign b :: rest) (o : Bool)
      (ix : Nat) (hix : ix ≠ 0) (cq oq : List Nat)
      (hq : (o = true ∧ st.openclQueue = ix :: oq ∧ cq = st.cpuQueue) ∨
        (o = false ∧ st.cpuQueue = ix :: cq ∧ oq = st.openclQueue)) :
      MStep st { st.send ix (.assign o b) with cpuQueue := cq, openclQueue := oq, todo := rest, pc := .insert ix b }
  | notify (i : Nat) (b : Block) (hpc : st.pc = .notify i b) :
      MStep st { st.setProc 0 ((st.procs 0).wake i) with pc := .insert 0 b }
  | insert (ix : Nat) (b : Block) (hpc : st.pc = .insert ix b) :
      MStep st { st with assigned := Function.update st.assigned ix (OSet.insert (st.assigned ix) b), pc := .main }
  | stopSend (ix : Nat) (hpc : st.pc = .stopSend ix) (hi : ix < st.nprocs) :
      MStep st { st.send ix .shutdown with pc := .stopSend (ix + 1) }
  | stopEnd (ix : Nat) (hpc : st.pc = .stopSend ix) (hi : ¬ ix < st.nprocs) : MStep st { st with pc := .shutdown 0 }
  | shutdown (i : Nat) (hpc : st.pc = .shutdown i) (hi : i < (st.procs 0).size) :
      MStep st { st.setProc 0 ((st.procs 0).stop i) with pc := .shutNotify i }
  | shutdownEnd (i : Nat) (hpc : st.pc = .shutdown i) (hi : ¬ i < (st.procs 0).size) : MStep st { st with pc := .finished }
  | shutNotify (i : Nat) (hpc : st.pc = .shutNotify i) :
      MStep st { st.setProc 0 ((st.procs 0).wake i) with pc := .join i }
  | join (i : Nat) (hpc : st.pc = .join i) (hp : ((st.procs 0).thr i).phase = .done) :
      MStep st { st with pc := .shutdown (i + 1) }

theorem passBlock_cases {st st' : State} {ix : Nat} {b : Block} {o : Bool} (h : passBlock st ix b o = .ok st') :
    (ix = 0 ∧ ∃ r, (st.procs 0).assign b o = .ok r ∧ st' = { st.setProc 0 r.1 with pc := .notify r.2 b }) ∨
    (ix ≠ 0 ∧ st' = { st.send ix (.assign o b) with pc := .insert ix b }) := by
  unfold passBlock at h
  split at h
  · rename_i h0
    obtain ⟨r, hr, h⟩ := Res.bind_eq_ok.1 h
    cases h
    exact Or.inl ⟨h0, r, hr, rfl⟩
  · rename_i h0
    cases h
    exact Or.inr ⟨h0, rfl⟩

theorem masterStep_cases {st st' : State} {ch : Choice} (h : masterStep st ch = .ok (some st')) : MStep st st' := by
  unfold masterStep at h
  split at h
  · rename_i hpc
    have hs := Run.some_map_ok h
    unfold mainStep at hs
    split at hs
    · rename_i ht
      cases hs
      exact .mainEnd hpc ht
    · rename_i c rest ht
      obtain ⟨v, hv, hs⟩ := Res.bind_eq_ok.1 hs
      cases hs
      exact .mainConfig hpc c rest ht ch.create v hv
    · rename_i b rest ht
      cases hs
      exact .mainAssign hpc b rest ht ch.saveNow
  · rename_i c hpc
    have hs := Run.some_map_ok h
    unfold flushStep finishedBlocks at hs
    obtain ⟨s1, hs1, hs⟩ := Res.bind_eq_ok.1 hs
    obtain ⟨a, ha, hs1⟩ := Res.bind_eq_ok.1 hs1
    cases hs1
    cases hs
    exact .flush c hpc a ha
  · rename_i ix c hpc
    split at h
    · rename_i hi
      cases h
      exact .flushSend ix c hpc hi
    · rename_i hi
      cases h
      exact .flushEnd ix c hpc hi
  · rename_i ix c hpc
    unfold flushRecvStep finishedBlocks at h
    split at h
    · cases h
    · rename_i bs rest ho
      obtain ⟨s1, hs1, h⟩ := Res.bind_eq_ok.1 h
      obtain ⟨a, ha, hs1⟩ := Res.bind_eq_ok.1 hs1
      cases hs1
      cases h
      exact .flushRecv ix c hpc bs rest ho a ha
  · rename_i k hpc
    cases h
    unfold waitedStep
    split
    · rename_i hw
      exact .waited k hpc fun ix hix => hw ix (List.mem_range.2 hix)
    · exact .waitOn k hpc
  · rename_i hpc
    cases h
    exact .ready hpc
  · rename_i ix hpc
    split at h
    · rename_i hi
      cases h
      exact .readySend ix hpc hi
    · rename_i hi
      cases h
      exact .readyEnd ix hpc hi
  · rename_i ix hpc
    unfold readyRecvStep at h
    split at h
    · cases h
    · rename_i n rest ho
      cases h
      exact .readyRecv ix hpc n rest ho
  · rename_i hpc
    cases h
    split
    · exact .fillOn hpc
    · rename_i hq
      exact .filled hpc hq
  · rename_i k hpc
    unfold saveStep at h
    split at h
    · rename_i hf
      cases h
      exact .saveNone k hpc hf
    · rename_i f hf
      unfold fileSave at h
      simp only at h
      split at h
      · rename_i hv
        split at h
        · rename_i hd
          cases h
          exact .saveLost k hpc f hf (Or.inr hd)
        · rename_i d hd
          split at h
          · rename_i hid
            cases h
            exact .saveStart k hpc f hf hv d hd ch.id hid
          · cases h
      · rename_i hv
        cases h
        exact .saveLost k hpc f hf (Or.inl (by simpa using hv))
  · rename_i ix k hpc
    split at h
    · rename_i hi
      cases h
      exact .saveSend ix k hpc hi
    · rename_i hi
      cases h
      exact .saveEnd ix k hpc hi
  · rename_i ix k hpc
    unfold saveRecvStep at h
    split at h
    · cases h
    · rename_i s rest ho
      split at h
      · cases h
      · rename_i f hf
        unfold fileSave at h
        simp only at h
        split at h
        · rename_i hv
          split at h
          · rename_i hd
            cases h
            exact .recvLost ix k hpc s rest ho f hf (Or.inr hd)
          · rename_i d hd
            split at h
            · rename_i hid
              cases h
              exact .recvStart ix k hpc s rest ho f hf hv d hd ch.id hid
            · cases h
        · rename_i hv
          cases h
          exact .recvLost ix k hpc s rest ho f hf (Or.inl (by simpa using hv))
  · rename_i ix k hpc
    cases h
    exact .writeEnd ix k hpc
  · rename_i n c ws ix k hpc
    cases h
    unfold writeStep
    split
    · rename_i hf
      exact .writeLost ix k n c ws hpc fun f hf' => by rw [hf] at hf'; cases hf'
    · rename_i f hf
      split
      · rename_i hd
        exact .writeLost ix k n c ws hpc fun f' hf' => by rw [hf] at hf'; cases hf'; exact hd
      · rename_i d hd
        exact .write ix k n c ws hpc f hf d hd
  · rename_i hpc
    split at h
    · rename_i c rest ht
      have hs := Run.some_map_ok h
      unfold newStoreStep at hs
      split at hs
      · rename_i hd
        cases hs
        exact .newStoreInvalid hpc c rest ht hd
      · rename_i d hd
        obtain ⟨r, hr, hs⟩ := Res.bind_eq_ok.1 hs
        cases hs
        exact .newStore hpc c rest ht d hd r hr
    · cases h
  · rename_i hpc
    split at h
    · rename_i c rest ht
      cases h
      exact .update hpc c rest ht
    · cases h
  · rename_i ix hpc
    split at h
    · rename_i c rest ht
      split at h
      · rename_i hi
        cases h
        exact .configSend ix hpc c rest ht hi
      · rename_i hi
        cases h
        exact .configEnd ix hpc c rest ht hi
    · cases h
  · rename_i hpc
    split at h
    · rename_i b rest ht
      have hs := Run.some_map_ok h
      unfold containsStep at hs
      split at hs
      · cases hs
      · rename_i f hf
        split at hs
        · rename_i hc
          cases hs
          exact .skip hpc b rest ht f hf hc
        · rename_i hc
          split at hs
          · cases hs
            exact .fill hpc b rest ht f hf (by simpa using hc)
          · rename_i ho
            cases hs
            exact .noFill hpc b rest ht f hf (by simpa using hc) ho
    · cases h
  · rename_i hpc
    split at h
    · rename_i b rest ht
      have hs := Run.some_map_ok h
      unfold takeStep at hs
      split at hs
      · rename_i ix q hq
        rcases passBlock_cases hs with ⟨rfl, r, hr, rfl⟩ | ⟨hix, rfl⟩
        · exact .takeLocal hpc b rest ht true st.cpuQueue q (Or.inl ⟨rfl, hq, rfl⟩) r hr
        · exact .takeRemote hpc b rest ht true ix hix st.cpuQueue q (Or.inl ⟨rfl, hq, rfl⟩)
      · rename_i ho
        split at hs
        · rename_i ix q hq
          rcases passBlock_cases hs with ⟨rfl, r, hr, rfl⟩ | ⟨hix, rfl⟩
          · exact .takeLocal hpc b rest ht false q st.openclQueue (Or.inr ⟨rfl, hq, rfl⟩) r hr
          · exact .takeRemote hpc b rest ht false ix hix q st.openclQueue (Or.inr ⟨rfl, hq, rfl⟩)
        · cases hs
    · cases h
  · rename_i i b hpc
    cases h
    exact .notify i b hpc
  · rename_i ix b hpc
    cases h
    exact .insert ix b hpc
  · rename_i ix hpc
    split at h
    · rename_i hi
      cases h
      exact .stopSend ix hpc hi
    · rename_i hi
      cases h
      exact .stopEnd ix hpc hi
  · rename_i i hpc
    split at h
    · rename_i hi
      cases h
      exact .shutdown i hpc hi
    · rename_i hi
      cases h
      exact .shutdownEnd i hpc hi
  · rename_i i hpc
    cases h
    exact .shutNotify i hpc
  · rename_i i hpc
    split at h
    · rename_i hp
      cases h
      exact .join i hpc hp
    · cases h
  · cases h

/-- All steps. -/
inductive Trans (env : Env) (st : State) : State → Prop
  | thread (ix : Nat) (hx : ix < st.nprocs) (i : Nat) (hi : i < (st.procs ix).size) (p : Proc)
      (h : Proc.TStep env (st.procs ix) i p) : Trans env st (st.setProc ix p)
  | worker (ix : Nat) (h0 : 0 < ix) (hx : ix < st.nprocs) (p : Proc) (h : WStep (st.procs ix) p) :
      Trans env st (st.setProc ix p)
  | master (st' : State) (h : MStep st st') : Trans env st st'

theorem step_trans {env : Env} {st st' : State} {l : Label} (h : step env st l = .ok (some st')) :
    Trans env st st' := by
  unfold step at h
  split at h
  · rename_i ix i
    split at h
    · rename_i hi
      obtain ⟨p, hp, h⟩ := Res.bind_eq_ok.1 h
      cases p with
      | none => cases h
      | some p =>
        cases h
        exact .thread ix hi.1 i hi.2 p (Proc.threadStep_cases hp)
    · cases h
  · exact .master st' (masterStep_cases h)
  · rename_i ix
    split at h
    · rename_i hi
      obtain ⟨p, hp, h⟩ := Res.bind_eq_ok.1 h
      cases p with
      | none => cases h
      | some p =>
        cases h
        exact .worker ix hi.1 hi.2 p (workerStep_cases hp)
    · cases h
  · rename_i ix i
    split at h
    · rename_i hi
      cases h
      refine .thread ix hi.1 i hi.2.1 _ ?_
      unfold Proc.wake
      rw [if_pos hi.2.2]
      exact .phase _ rfl rfl rfl rfl (by rw [hi.2.2]; rfl) (by intro h; cases h)
    · cases h

end Mpi
end Hycu
