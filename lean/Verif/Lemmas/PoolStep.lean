import Verif.Model.Pool

/-!
The possible steps of a run, one by one.
-/

namespace Hycu
namespace Run

/-- Who makes the step: a worker thread (also if it wakes up), or the main thread. -/
def Label.actor : Label → Option Nat
  | .thread i => some i
  | .master _ => none
  | .spurious i => some i

/-- The possible steps, with the thread that makes it, `none` for the main thread. -/
inductive Trans (env : Env) (st : State) : Option Nat → State → Prop
  | checkDone (i : Nat) (hi : i < st.size) (hp : (st.thr i).phase = .check) (hs : (st.thr i).stop = true) :
      Trans env st (some i) (st.setThread i { st.thr i with phase := .done })
  | checkWait (i : Nat) (hi : i < st.size) (hp : (st.thr i).phase = .check) (hs : (st.thr i).stop = false)
      (hq : (st.thr i).queue = []) : Trans env st (some i) (st.setThread i { st.thr i with phase := .wait })
  | checkPop (i : Nat) (hi : i < st.size) (hp : (st.thr i).phase = .check) (hs : (st.thr i).stop = false)
      (hq : (st.thr i).queue ≠ []) : Trans env st (some i) (st.setThread i { st.thr i with phase := .pop })
  | doze (i : Nat) (hi : i < st.size) (hp : (st.thr i).phase = .wait) :
      Trans env st (some i) (st.setThread i { st.thr i with phase := .sleep })
  | pop (i : Nat) (hi : i < st.size) (hp : (st.thr i).phase = .pop) (j : Job) (q : List Job)
      (hq : (st.thr i).queue = j :: q) :
      Trans env st (some i) { st.setThread i { st.thr i with queue := q, phase := .compute j } with
        log := .taken i j :: st.log }
  | compute (i : Nat) (hi : i < st.size) (j : Job) (hp : (st.thr i).phase = .compute j) (tb : Tables)
      (ht : j.tables = some tb) (m : StoreMap) (hm : env.compute tb.cfg j.block = .ok m)
      (p : Store.Static × StoreMap) (hf : Store.flushToStatic st.static m j.block = .ok p) :
      Trans env st (some i) { st.setThread i { st.thr i with phase := .report j } with
        static := p.1, log := .flushed i j :: st.log }
  | report (i : Nat) (hi : i < st.size) (j : Job) (hp : (st.thr i).phase = .report j) (p : ThreadPool)
      (hf : st.pool.finishedBlock j.block = .ok p) :
      Trans env st (some i) { st.setThread i { st.thr i with phase := .check } with pool := p, log := .reported i j :: st.log }
  | spurious (i : Nat) (hi : i < st.size) (hp : (st.thr i).phase = .sleep) :
      Trans env st (some i) (st.setThread i { st.thr i with phase := .check })
  | mainEnd (hpc : st.pc = .main) (ht : st.todo = []) : Trans env st none { st with pc := .wait .exit }
  | mainConfig (hpc : st.pc = .main) (c : ConfigNode) (rest : List Cmd) (ht : st.todo = .config c :: rest)
      (create : Bool) (v : FileSystem × Bool) (hv : c.verify st.fs (.ok create) = .ok v) :
      Trans env st none { st with fs := v.1, pc := if v.2 then .wait .config else .wait .exit }
  | mainAssign (hpc : st.pc = .main) (b : Block) (rest : List Cmd) (ht : st.todo = .assign b :: rest) (now : Bool) :
      Trans env st none { st with pc := if now then .save .assign else .contains }
  | wait (k : Cont) (hpc : st.pc = .wait k) (a : OSet Block)
      (ha : eraseFinished st.pool.finished st.assigned = .ok a) :
      Trans env st none { st with
        assigned := a, pool := { st.pool with finished := [] },
        log := (st.pool.finished.map fun b => Event.erased ⟨b, st.current⟩).reverse ++ st.log,
        pc := if a = [] then .save k else .wait k }
  | saveNone (k : Cont) (hpc : st.pc = .save k) (hf : st.fileStore = none) :
      Trans env st none { st with pc := afterSave k }
  | saveLost (k : Cont) (hpc : st.pc = .save k) (f : FileStoreObj) (hf : st.fileStore = some f)
      (h : f.valid = false ∨ st.fs f.config.resultPath = none) :
      Trans env st none { st with static := ⟨[], []⟩, pc := afterSave k, log := .saved none st.static :: st.log }
  | saveStart (k : Cont) (hpc : st.pc = .save k) (f : FileStoreObj) (hf : st.fileStore = some f)
      (hv : f.valid = true) (d : Dir) (hd : st.fs f.config.resultPath = some d) (id : Nat)
      (hid : FileStore.fresh d id = true) :
      Trans env st none { st with
        static := ⟨[], []⟩
        pc := .write (FileStore.saveWrites id (Record.print st.static.record, Store.print st.static.store)) k
        log := .saved (some f.config.resultPath) st.static :: st.log }
  | writeEnd (k : Cont) (hpc : st.pc = .write [] k) : Trans env st none { st with pc := afterSave k }
  | writeLost (k : Cont) (n c : List Char) (ws : List (List Char × List Char)) (hpc : st.pc = .write ((n, c) :: ws) k)
      (h : ∀ f, st.fileStore = some f → st.fs f.config.resultPath = none) :
      Trans env st none { st with pc := .write ws k }
  | write (k : Cont) (n c : List Char) (ws : List (List Char × List Char)) (hpc : st.pc = .write ((n, c) :: ws) k)
      (f : FileStoreObj) (hf : st.fileStore = some f) (d : Dir) (hd : st.fs f.config.resultPath = some d) :
      Trans env st none { st with fs := st.fs.set f.config.resultPath (d.write n c), pc := .write ws k }
  | newStoreInvalid (hpc : st.pc = .newStore) (c : ConfigNode) (rest : List Cmd) (ht : st.todo = .config c :: rest)
      (hd : st.fs c.resultPath = none) : Trans env st none { st with fileStore := some ⟨c, false, []⟩, pc := .update }
  | newStore (hpc : st.pc = .newStore) (c : ConfigNode) (rest : List Cmd) (ht : st.todo = .config c :: rest)
      (d : Dir) (hd : st.fs c.resultPath = some d) (r : OSet Block) (hr : FileStore.initialRecord d = .ok r) :
      Trans env st none { st with fileStore := some ⟨c, true, r⟩, pc := .update }
  | update (hpc : st.pc = .update) (c : ConfigNode) (rest : List Cmd) (ht : st.todo = .config c :: rest) :
      Trans env st none (updateStep st c rest)
  | skip (hpc : st.pc = .contains) (b : Block) (rest : List Cmd) (ht : st.todo = .assign b :: rest)
      (f : FileStoreObj) (hf : st.fileStore = some f) (hc : FileStore.contains f.initial b = true) :
      Trans env st none { st with todo := rest, pc := .main }
  | fill (hpc : st.pc = .contains) (b : Block) (rest : List Cmd) (ht : st.todo = .assign b :: rest)
      (f : FileStoreObj) (hf : st.fileStore = some f) (hc : FileStore.contains f.initial b = false)
      (ho : st.nmbOpencl = 0) : Trans env st none { st with pc := .fillFinished }
  | noFill (hpc : st.pc = .contains) (b : Block) (rest : List Cmd) (ht : st.todo = .assign b :: rest)
      (f : FileStoreObj) (hf : st.fileStore = some f) (hc : FileStore.contains f.initial b = false)
      (ho : st.nmbOpencl ≠ 0) : Trans env st none { st with pc := .take }
  | fillFinished (hpc : st.pc = .fillFinished) (a : OSet Block)
      (ha : eraseFinished st.pool.finished st.assigned = .ok a) :
      Trans env st none { st with
        assigned := a, pool := { st.pool with finished := [] },
        log := (st.pool.finished.map fun b => Event.erased ⟨b, st.current⟩).reverse ++ st.log, pc := .fillReady }
  | fillReady (hpc : st.pc = .fillReady) : Trans env st none (fillReadyStep st)
  | takeOpencl (hpc : st.pc = .take) (b : Block) (rest : List Cmd) (ht : st.todo = .assign b :: rest)
      (ho : st.nmbOpencl ≠ 0) (p : ThreadPool × Nat)
      (hp : st.pool.assign (fun i => (st.thr i).opencl) b true = .ok p) :
      Trans env st none (pushJob { st with nmbOpencl := u32sub st.nmbOpencl 1, pool := p.1, todo := rest } p.2 b)
  | takeCpu (hpc : st.pc = .take) (b : Block) (rest : List Cmd) (ht : st.todo = .assign b :: rest)
      (ho : st.nmbOpencl = 0) (p : ThreadPool × Nat)
      (hp : st.pool.assign (fun i => (st.thr i).opencl) b false = .ok p) :
      Trans env st none (pushJob { st with nmbCpu := u32sub st.nmbCpu 1, pool := p.1, todo := rest } p.2 b)
  | notify (i : Nat) (b : Block) (hpc : st.pc = .notify i b) : Trans env st none { wake st i with pc := .insert b }
  | insert (b : Block) (hpc : st.pc = .insert b) :
      Trans env st none { st with assigned := OSet.insert st.assigned b, pc := .main }
  | shutdown (i : Nat) (hpc : st.pc = .shutdown i) (hi : i < st.size) :
      Trans env st none { st.setThread i { st.thr i with stop := true } with pc := .shutNotify i }
  | shutdownEnd (i : Nat) (hpc : st.pc = .shutdown i) (hi : ¬ i < st.size) : Trans env st none { st with pc := .finished }
  | shutNotify (i : Nat) (hpc : st.pc = .shutNotify i) : Trans env st none { wake st i with pc := .join i }
  | join (i : Nat) (hpc : st.pc = .join i) (hp : (st.thr i).phase = .done) :
      Trans env st none { st with pc := .shutdown (i + 1) }

theorem threadStep_trans {env : Env} {st st' : State} {i : Nat} (hi : i < st.size)
    (h : threadStep env st i = .ok (some st')) : Trans env st (some i) st' := by
  unfold threadStep at h
  simp only at h
  split at h
  · rename_i hp
    split at h
    · rename_i hs
      cases h
      exact .checkDone i hi hp hs
    · rename_i hs
      split at h
      · rename_i hq
        cases h
        exact .checkWait i hi hp (by simpa using hs) hq
      · rename_i hq
        cases h
        exact .checkPop i hi hp (by simpa using hs) hq
  · rename_i hp
    cases h
    exact .doze i hi hp
  · cases h
  · rename_i hp
    split at h
    · cases h
    · rename_i j q hq
      cases h
      exact .pop i hi hp j q hq
  · rename_i j hp
    split at h
    · cases h
    · rename_i tb ht
      obtain ⟨m, hm, h⟩ := Res.bind_eq_ok.1 h
      obtain ⟨p, hf, h⟩ := Res.bind_eq_ok.1 h
      cases h
      exact .compute i hi j hp tb ht m hm p hf
  · rename_i j hp
    obtain ⟨p, hf, h⟩ := Res.bind_eq_ok.1 h
    cases h
    exact .report i hi j hp p hf
  · cases h

theorem some_map_ok {α : Type} {x : Res α} {a : α} (h : (some <$> x) = Res.ok (some a)) : x = .ok a := by
  cases x with
  | ok b => cases h; rfl
  | _ => cases h

theorem masterStep_trans {env : Env} {st st' : State} {ch : Choice} (h : masterStep st ch = .ok (some st')) :
    Trans env st none st' := by
  unfold masterStep at h
  split at h
  · rename_i hpc
    have h := some_map_ok h
    unfold mainStep at h
    split at h
    · rename_i ht
      cases h
      exact .mainEnd hpc ht
    · rename_i c rest ht
      obtain ⟨v, hv, h⟩ := Res.bind_eq_ok.1 h
      cases h
      exact .mainConfig hpc c rest ht _ v hv
    · rename_i b rest ht
      cases h
      exact .mainAssign hpc b rest ht _
  · rename_i k hpc
    have h := some_map_ok h
    unfold waitStep flushFinished at h
    obtain ⟨st1, h1, h⟩ := Res.bind_eq_ok.1 h
    obtain ⟨a, ha, h1⟩ := Res.bind_eq_ok.1 h1
    cases h1
    cases h
    exact .wait k hpc a ha
  · rename_i k hpc
    have h := Res.ok.inj h
    unfold saveStep at h
    split at h
    · rename_i hf
      cases h
      exact .saveNone k hpc hf
    · rename_i f hf
      simp only at h
      split at h
      · rename_i hv
        split at h
        · rename_i hd
          cases h
          exact .saveLost k hpc f hf (Or.inr hd)
        · rename_i d hd
          split at h
          · rename_i hid
            cases h
            exact .saveStart k hpc f hf hv d hd _ hid
          · cases h
      · rename_i hv
        cases h
        exact .saveLost k hpc f hf (Or.inl (by simpa using hv))
  · rename_i k hpc
    cases h
    exact .writeEnd k hpc
  · rename_i n c ws k hpc
    obtain rfl := Option.some.inj (Res.ok.inj h)
    unfold writeStep
    split
    · rename_i hf
      exact .writeLost k n c ws hpc fun f hf' => by rw [hf] at hf'; cases hf'
    · rename_i f hf
      split
      · rename_i hd
        exact .writeLost k n c ws hpc fun f' hf' => by rw [hf] at hf'; cases hf'; exact hd
      · rename_i d hd
        exact .write k n c ws hpc f hf d hd
  · rename_i hpc
    split at h
    · rename_i c rest ht
      have h := some_map_ok h
      unfold newStoreStep at h
      split at h
      · rename_i hd
        cases h
        exact .newStoreInvalid hpc c rest ht hd
      · rename_i d hd
        obtain ⟨r, hr, h⟩ := Res.bind_eq_ok.1 h
        cases h
        exact .newStore hpc c rest ht d hd r hr
    · cases h
  · rename_i hpc
    split at h
    · rename_i c rest ht
      cases h
      exact .update hpc c rest ht
    · cases h
  · rename_i hpc
    split at h
    · rename_i b rest ht
      have h := some_map_ok h
      unfold containsStep at h
      split at h
      · cases h
      · rename_i f hf
        split at h
        · rename_i hc
          cases h
          exact .skip hpc b rest ht f hf hc
        · rename_i hc
          have hc : FileStore.contains f.initial b = false := by simpa using hc
          split at h
          · rename_i ho
            cases h
            exact .fill hpc b rest ht f hf hc ho
          · rename_i ho
            cases h
            exact .noFill hpc b rest ht f hf hc ho
    · cases h
  · rename_i hpc
    obtain ⟨st1, h1, h⟩ := Res.bind_eq_ok.1 h
    unfold flushFinished at h1
    obtain ⟨a, ha, h1⟩ := Res.bind_eq_ok.1 h1
    cases h1
    cases h
    exact .fillFinished hpc a ha
  · rename_i hpc
    cases h
    exact .fillReady hpc
  · rename_i hpc
    split at h
    · rename_i b rest ht
      have h := some_map_ok h
      unfold takeStep at h
      split at h
      · rename_i ho
        obtain ⟨p, hp, h⟩ := Res.bind_eq_ok.1 h
        cases h
        exact .takeOpencl hpc b rest ht ho p hp
      · rename_i ho
        obtain ⟨p, hp, h⟩ := Res.bind_eq_ok.1 h
        cases h
        exact .takeCpu hpc b rest ht (by omega) p hp
    · cases h
  · rename_i i b hpc
    cases h
    exact .notify i b hpc
  · rename_i b hpc
    cases h
    exact .insert b hpc
  · rename_i i hpc
    split at h
    · rename_i hi
      cases h
      exact .shutdown i hpc hi
    · rename_i hi
      cases h
      exact .shutdownEnd i hpc hi
  · rename_i i hpc
    cases h
    exact .shutNotify i hpc
  · rename_i i hpc
    split at h
    · rename_i hp
      cases h
      exact .join i hpc hp
    · cases h
  · cases h

theorem step_trans {env : Env} {st st' : State} {l : Label} (h : step env st l = .ok (some st')) :
    Trans env st l.actor st' := by
  cases l with
  | thread i =>
    simp only [step] at h
    split at h
    · rename_i hi
      exact threadStep_trans hi h
    · cases h
  | master ch => exact masterStep_trans h
  | spurious i =>
    simp only [step] at h
    split at h
    · rename_i hi
      cases h
      unfold wake
      rw [if_pos hi.2]
      exact .spurious i hi.1 hi.2
    · cases h

end Run
end Hycu
