import Verif.Model.TestPool
import Verif.Props.Resume
import Verif.Lemmas.PoolDone

/-!
A test with a pool of threads and a run of `hycu-threaded` in an empty directory make the same steps, except that the run
writes files and begins with the verification of the configuration.
-/

namespace Hycu
namespace Reference

open Run

/-- The parts of the states that both have in common. -/
structure Agree (a b : Run.State) : Prop where
  size : a.size = b.size
  thr : a.thr = b.thr
  pool : a.pool = b.pool
  cpu : a.nmbCpu = b.nmbCpu
  opencl : a.nmbOpencl = b.nmbOpencl
  assigned : a.assigned = b.assigned
  todo : a.todo = b.todo
  serial : a.serial = b.serial
  current : a.current = b.current

/-- Where the main thread can be after `update_config`, with `bs` the blocks that are still to be assigned. -/
def Later (bs : List Block) : Pc → Prop
  | .main | .contains | .fillFinished | .fillReady | .take | .notify _ _ | .insert _ | .save .assign => True
  | .wait .exit | .save .exit | .shutdown _ | .shutNotify _ | .join _ | .finished => bs = []
  | _ => False

/-- Where the main threads of the test `a` and of the run `b` are. -/
inductive Stage (c : ConfigNode) (blocks : List Block) (a b : Run.State) : Prop
  | verify (h1 : b.todo = .config c :: blocks.map .assign) (h2 : a.fileStore = none) (h3 : b.fileStore = none)
      (h4 : b.fs c.resultPath = some []) (h5 : b.pc = .main) (h6 : a.pc = .wait .config)
  | config (h1 : b.todo = .config c :: blocks.map .assign) (h2 : a.fileStore = none) (h3 : b.fileStore = none)
      (h4 : b.fs c.resultPath = some []) (h5 : a.pc = b.pc)
      (h6 : b.pc = .wait .config ∨ b.pc = .save .config ∨ b.pc = .newStore)
  | update (h1 : b.todo = .config c :: blocks.map .assign) (h2 : a.fileStore = some ⟨c, false, []⟩)
      (h3 : b.fileStore = some ⟨c, true, []⟩) (h4 : (b.fs c.resultPath).isSome) (h5 : a.pc = .update) (h6 : b.pc = .update)
  | later (bs : List Block) (h1 : b.todo = bs.map .assign) (h2 : a.fileStore = some ⟨c, false, []⟩)
      (h3 : b.fileStore = some ⟨c, true, []⟩) (h4 : (b.fs c.resultPath).isSome) (h5 : a.pc = b.pc) (h6 : Later bs b.pc)
  | write (bs : List Block) (ws : List (List Char × List Char)) (k : Cont) (h1 : b.todo = bs.map .assign)
      (h2 : a.fileStore = some ⟨c, false, []⟩) (h3 : b.fileStore = some ⟨c, true, []⟩)
      (h4 : (b.fs c.resultPath).isSome) (h5 : b.pc = .write ws k) (h6 : a.pc = afterSave k) (h7 : Later bs (.save k))

/-- The blocks that are still to be assigned. -/
def todoBlocks (l : List Cmd) : List Block := l.filterMap fun x => match x with | .assign b => some b | _ => none

/-- Blocks flushed, in the order in which this was done. -/
def flushOrder (l : List Event) : List Block := ((flushedJobs l).map fun x => x.2.block).reverse

/-- Blocks assigned, in the order in which this was done. -/
def assignOrder (l : List Event) : List Block := ((assignedJobs l).map fun x => x.2.block).reverse

/-- Computing and flushing blocks one after the other. -/
def flushAll (env : Env) (c : ConfigNode) (order : List Block) : Res StoreMap :=
  order.foldlM (fun s b => do
    let m ← env.compute c b
    flush s m) []

/-- The state of a test and a state of a run that correspond to each other. -/
structure Sim (env : Env) (c : ConfigNode) (blocks : List Block) (s : PoolState) (st : Run.State) : Prop where
  agree : Agree s.run st
  absent : s.run.fs c.resultPath = none
  stage : Stage c blocks s.run st
  calls : assignOrder st.log ++ todoBlocks st.todo = blocks
  test : flushAll env c (flushOrder st.log) = .ok s.test

theorem todoBlocks_map (bs : List Block) : todoBlocks (bs.map .assign) = bs := by
  unfold todoBlocks
  induction bs with
  | nil => rfl
  | cons b bs ih => simp

theorem todoBlocks_config (c : ConfigNode) (l : List Cmd) : todoBlocks (.config c :: l) = todoBlocks l := rfl

theorem flushAll_snoc (env : Env) (c : ConfigNode) (o : List Block) (b : Block) {m : StoreMap}
    (h : flushAll env c o = .ok m) : flushAll env c (o ++ [b]) = (do
      let r ← env.compute c b
      flush m r) := by
  unfold flushAll at h ⊢
  rw [List.foldlM_append, h, Res.bind_ok, List.foldlM_cons]
  cases env.compute c b with
  | ok r => simp only [Res.bind_ok]; cases flush m r <;> rfl
  | _ => rfl

theorem sim_initial (env : Env) (kinds : List Bool) (fs : FileSystem) (c : ConfigNode) (blocks : List Block)
    (h : fs c.resultPath = none) : Sim env c blocks (poolInitial kinds fs c blocks)
      (initial kinds (fs.set c.resultPath []) (program [⟨c, blocks⟩])) where
  agree := by constructor <;> simp [poolInitial, initial, program]
  absent := h
  stage := .verify (by simp [initial, program]) rfl rfl (by simp [initial, FileSystem.set]) rfl rfl
  calls := by simp [initial, program, assignOrder, assignedJobs, todoBlocks_config, todoBlocks_map]
  test := rfl

theorem Stage.congr {c : ConfigNode} {blocks : List Block} {a b a' b' : Run.State} (h : Stage c blocks a b)
    (h1 : b'.todo = b.todo) (h2 : a'.fileStore = a.fileStore) (h3 : b'.fileStore = b.fileStore) (h4 : b'.fs = b.fs)
    (h5 : a'.pc = a.pc) (h6 : b'.pc = b.pc) : Stage c blocks a' b' := by
  cases h with
  | verify g1 g2 g3 g4 g5 g6 => exact .verify (h1 ▸ g1) (h2 ▸ g2) (h3 ▸ g3) (h4 ▸ g4) (h6 ▸ g5) (h5 ▸ g6)
  | config g1 g2 g3 g4 g5 g6 =>
    exact .config (h1 ▸ g1) (h2 ▸ g2) (h3 ▸ g3) (h4 ▸ g4) (by rw [h5, h6, g5]) (by rw [h6]; exact g6)
  | update g1 g2 g3 g4 g5 g6 => exact .update (h1 ▸ g1) (h2 ▸ g2) (h3 ▸ g3) (h4 ▸ g4) (h5 ▸ g5) (h6 ▸ g6)
  | later bs g1 g2 g3 g4 g5 g6 =>
    exact .later bs (h1 ▸ g1) (h2 ▸ g2) (h3 ▸ g3) (h4 ▸ g4) (by rw [h5, h6, g5]) (h6 ▸ g6)
  | write bs ws k g1 g2 g3 g4 g5 g6 g7 =>
    exact .write bs ws k (h1 ▸ g1) (h2 ▸ g2) (h3 ▸ g3) (h4 ▸ g4) (h6 ▸ g5) (h5 ▸ g6) g7

/-- Results of a step of a run and of the same step of a test. -/
def Rel (env : Env) (c : ConfigNode) (blocks : List Block) : Option Run.State → Option PoolState → Prop
  | none, none => True
  | some st, some s => Sim env c blocks s st
  | _, _ => False

/-- What is needed about the job of a thread that computes. -/
def CanFlush (env : Env) (c : ConfigNode) (test : StoreMap) (j : Job) : Prop :=
  ∃ tb, j.tables = some tb ∧ tb.cfg = c ∧ ∃ m t, env.compute c j.block = .ok m ∧ flush test m = .ok t

theorem thread_pair {env : Env} {c : ConfigNode} {blocks : List Block} {s : PoolState} {st : Run.State}
    (h : Sim env c blocks s st) {i : Nat} {o : Option Run.State} (hs : threadStep env st i = .ok o)
    (hc : ∀ j, (st.thr i).phase = .compute j → CanFlush env c s.test j) :
    ∃ o', poolThread env s i = .ok o' ∧ Rel env c blocks o o' := by
  obtain ⟨⟨a1, a2, a3, a4, a5, a6, a7, a8, a9⟩, hab, hst, hca, hte⟩ := h
  obtain ⟨a, test⟩ := s
  dsimp only at *
  have keep : ∀ (t : Run.Thread) (p q : ThreadPool) (la lb : List Event), p = q → assignOrder lb = assignOrder st.log →
      flushOrder lb = flushOrder st.log →
      Sim env c blocks ⟨{ a.setThread i t with pool := p, log := la }, test⟩ { st.setThread i t with pool := q, log := lb } := by
    intro t p q la lb hpq h1 h2
    exact ⟨⟨a1, by simp [State.setThread, a2], hpq, a4, a5, a6, a7, a8, a9⟩, hab, hst.congr rfl rfl rfl rfl rfl rfl,
      by rw [h1]; exact hca, by rw [h2]; exact hte⟩
  unfold poolThread
  unfold threadStep at hs
  dsimp only at hs ⊢
  rw [a2]
  cases hp : (st.thr i).phase with
  | check =>
    simp only [hp] at hs
    simp only [PoolState.lift, threadStep, a2, hp]
    split_ifs at hs ⊢ <;> obtain rfl := Res.ok.inj hs <;>
      exact ⟨_, rfl, keep _ _ _ _ _ a3 rfl rfl⟩
  | wait =>
    simp only [hp] at hs
    simp only [PoolState.lift, threadStep, a2, hp]
    obtain rfl := Res.ok.inj hs
    exact ⟨_, rfl, keep _ _ _ _ _ a3 rfl rfl⟩
  | sleep =>
    simp only [hp] at hs
    simp only [PoolState.lift, threadStep, a2, hp]
    obtain rfl := Res.ok.inj hs
    exact ⟨_, rfl, trivial⟩
  | pop =>
    simp only [hp] at hs
    simp only [PoolState.lift, threadStep, a2, hp]
    cases hq : (st.thr i).queue with
    | nil => simp [hq] at hs
    | cons j q =>
      simp only [hq] at hs ⊢
      obtain rfl := Res.ok.inj hs
      exact ⟨_, rfl, keep _ _ _ _ _ a3 rfl rfl⟩
  | compute j =>
    obtain ⟨tb, h1, h2, m, t, h3, h4⟩ := hc j hp
    simp only [hp, h1, h2, h3, Res.bind_ok] at hs
    simp only [flushStep, h1, h2, h3, h4, Res.bind_ok]
    cases hf : Store.flushToStatic st.static m j.block with
    | ok r =>
      rw [hf] at hs
      obtain rfl := Res.ok.inj hs
      refine ⟨_, rfl, ⟨a1, by simp [State.setThread, a2], a3, a4, a5, a6, a7, a8, a9⟩, hab,
        hst.congr rfl rfl rfl rfl rfl rfl, hca, ?_⟩
      show flushAll env c (flushOrder (.flushed i j :: st.log)) = _
      have : flushOrder (.flushed i j :: st.log) = flushOrder st.log ++ [j.block] := by
        simp [flushOrder, flushedJobs]
      rw [this, flushAll_snoc env c _ _ hte, h3, Res.bind_ok, h4]
    | _ => rw [hf] at hs; exact absurd hs (by simp [bind, Res.bind])
  | report j =>
    simp only [hp] at hs
    simp only [PoolState.lift, threadStep, a2, a3, hp]
    cases hf : st.pool.finishedBlock j.block with
    | ok p =>
      rw [hf] at hs
      obtain rfl := Res.ok.inj hs
      exact ⟨_, rfl, keep _ _ _ _ _ rfl rfl rfl⟩
    | _ => rw [hf] at hs; exact absurd hs (by simp [bind, Res.bind])
  | done =>
    simp only [hp] at hs
    simp only [PoolState.lift, threadStep, a2, hp]
    obtain rfl := Res.ok.inj hs
    exact ⟨_, rfl, trivial⟩

theorem wake_agree {a b : Run.State} (h : Agree a b) (i : Nat) : Agree (wake a i) (wake b i) := by
  unfold wake
  rw [h.thr]
  split_ifs
  · exact ⟨h.size, by simp [State.setThread, h.thr], h.pool, h.cpu, h.opencl, h.assigned, h.todo, h.serial, h.current⟩
  · exact h

theorem wake_keeps (a : Run.State) (i : Nat) : (wake a i).todo = a.todo ∧ (wake a i).fileStore = a.fileStore ∧
    (wake a i).fs = a.fs ∧ (wake a i).pc = a.pc ∧ (wake a i).log = a.log := by
  unfold wake
  split_ifs <;> simp [State.setThread]

theorem assignOrder_erased (l : List Block) (t : Option Tables) (g : List Event) :
    assignOrder ((l.map fun b => Event.erased ⟨b, t⟩).reverse ++ g) = assignOrder g := by
  have : assignedJobs (l.map fun b => Event.erased ⟨b, t⟩).reverse = [] := by
    simp [assignedJobs]
  unfold assignOrder
  rw [show ∀ x y : List Event, assignedJobs (x ++ y) = assignedJobs x ++ assignedJobs y from
    fun x y => List.filterMap_append, this, List.nil_append]

theorem flushOrder_erased (l : List Block) (t : Option Tables) (g : List Event) :
    flushOrder ((l.map fun b => Event.erased ⟨b, t⟩).reverse ++ g) = flushOrder g := by
  have : flushedJobs (l.map fun b => Event.erased ⟨b, t⟩).reverse = [] := by
    simp [flushedJobs]
  unfold flushOrder
  rw [show ∀ x y : List Event, flushedJobs (x ++ y) = flushedJobs x ++ flushedJobs y from
    fun x y => List.filterMap_append, this, List.nil_append]

theorem flushFinished_pair {a b : Run.State} (h : Agree a b) {b' : Run.State} (hb : flushFinished b = .ok b') :
    ∃ a', flushFinished a = .ok a' ∧ Agree a' b' ∧ a'.fs = a.fs ∧ a'.fileStore = a.fileStore ∧ b'.fs = b.fs ∧
      b'.fileStore = b.fileStore ∧ b'.todo = b.todo ∧ assignOrder b'.log = assignOrder b.log ∧
      flushOrder b'.log = flushOrder b.log := by
  unfold flushFinished at hb ⊢
  rw [h.pool, h.assigned]
  cases hx : eraseFinished b.pool.finished b.assigned with
  | ok x =>
    rw [hx] at hb
    obtain rfl := Res.ok.inj hb
    exact ⟨_, rfl, ⟨h.size, h.thr, rfl, h.cpu, h.opencl, rfl, h.todo, h.serial, h.current⟩, rfl, rfl, rfl, rfl, rfl,
      assignOrder_erased _ _ _, flushOrder_erased _ _ _⟩
  | _ => rw [hx] at hb; exact absurd hb (by simp [bind, Res.bind])

theorem pushJob_order (st : Run.State) (i : Nat) (b : Block) : assignOrder (pushJob st i b).log = assignOrder st.log ++ [b] ∧
    flushOrder (pushJob st i b).log = flushOrder st.log := by
  constructor
  · simp [pushJob, assignOrder, assignedJobs]
  · simp [pushJob, flushOrder, flushedJobs]

theorem pushJob_agree {a b : Run.State} (h : Agree a b) (i : Nat) (x : Block) : Agree (pushJob a i x) (pushJob b i x) := by
  obtain ⟨a1, a2, a3, a4, a5, a6, a7, a8, a9⟩ := h
  exact ⟨a1, by simp [pushJob, State.setThread, a2], a3, a4, a5, a6, a7, a8, a9⟩

theorem takeStep_pair {a b : Run.State} (h : Agree a b) {x : Block} {rest : List Cmd} {b' : Run.State}
    (hb : takeStep b x rest = .ok b') : ∃ a' i, takeStep a x rest = .ok a' ∧ Agree a' b' ∧ a'.fs = a.fs ∧
      a'.fileStore = a.fileStore ∧ b'.fs = b.fs ∧ b'.fileStore = b.fileStore ∧ b'.todo = rest ∧ a'.pc = .notify i x ∧
      b'.pc = .notify i x ∧ assignOrder b'.log = assignOrder b.log ++ [x] ∧ flushOrder b'.log = flushOrder b.log := by
  obtain ⟨size, thr, pool, staA, fsA, cpu, ocl, asg, fstA, pcA, todo, ser, cur, logA⟩ := a
  obtain ⟨size', thr', pool', staB, fsB, cpu', ocl', asg', fstB, pcB, todo', ser', cur', logB⟩ := b
  obtain ⟨rfl, rfl, rfl, rfl, rfl, rfl, rfl, rfl, rfl⟩ := h
  unfold takeStep at hb ⊢
  dsimp only at hb ⊢
  split_ifs at hb ⊢
  all_goals
    revert hb
    generalize ThreadPool.assign _ _ x _ = r
    intro hb
    cases r with
    | ok q =>
      obtain rfl := Res.ok.inj hb
      refine ⟨_, q.2, rfl, pushJob_agree ?_ _ _, rfl, rfl, rfl, rfl, rfl, rfl, rfl, ?_, ?_⟩
      · exact ⟨rfl, rfl, rfl, rfl, rfl, rfl, rfl, rfl, rfl⟩
      · exact (pushJob_order _ _ _).1
      · exact (pushJob_order _ _ _).2
    | _ => exact absurd hb (by simp [bind, Res.bind])

theorem main_nil {a : Run.State} {ch : Choice} (h : a.pc = .main) (ht : a.todo = [].map Cmd.assign) :
    masterStep a ch = .ok (some { a with pc := .wait .exit }) := by
  obtain ⟨size, thr, pool, sta, fs, cpu, ocl, asg, fst, pc, todo, ser, cur, log⟩ := a
  dsimp only at h ht
  subst h ht
  rfl

theorem main_assign {a : Run.State} {ch : Choice} {b : Block} {bs : List Block} (h : a.pc = .main)
    (ht : a.todo = (b :: bs).map Cmd.assign) :
    masterStep a ch = .ok (some { a with pc := if ch.saveNow then .save .assign else .contains }) := by
  obtain ⟨size, thr, pool, sta, fs, cpu, ocl, asg, fst, pc, todo, ser, cur, log⟩ := a
  dsimp only at h ht
  subst h ht
  rfl

theorem contains_nil {a : Run.State} {ch : Choice} (h : a.pc = .contains) (ht : a.todo = [].map Cmd.assign) :
    masterStep a ch = .ok none := by
  obtain ⟨size, thr, pool, sta, fs, cpu, ocl, asg, fst, pc, todo, ser, cur, log⟩ := a
  dsimp only at h ht
  subst h ht
  rfl

theorem contains_assign {a : Run.State} {ch : Choice} {b : Block} {bs : List Block} {c : ConfigNode} {v : Bool}
    (h : a.pc = .contains) (ht : a.todo = (b :: bs).map Cmd.assign) (hf : a.fileStore = some ⟨c, v, []⟩)
    {n : Nat} (hn : a.nmbOpencl = n) : masterStep a ch = .ok (some { a with pc := if n = 0 then .fillFinished else .take }) := by
  obtain ⟨size, thr, pool, sta, fs, cpu, ocl, asg, fst, pc, todo, ser, cur, log⟩ := a
  dsimp only at h ht hf hn
  subst h ht hf hn
  have hcn : FileStore.contains [] b = false := by simp [FileStore.contains, OSet.contains]
  simp only [masterStep, List.map_cons, containsStep, hcn, Bool.false_eq_true, if_false]
  split_ifs <;> rfl

theorem take_nil {a : Run.State} {ch : Choice} (h : a.pc = .take) (ht : a.todo = [].map Cmd.assign) :
    masterStep a ch = .ok none := by
  obtain ⟨size, thr, pool, sta, fs, cpu, ocl, asg, fst, pc, todo, ser, cur, log⟩ := a
  dsimp only at h ht
  subst h ht
  rfl

theorem take_assign {a : Run.State} {ch : Choice} {b : Block} {bs : List Block} (h : a.pc = .take)
    (ht : a.todo = (b :: bs).map Cmd.assign) : masterStep a ch = some <$> takeStep a b (bs.map .assign) := by
  obtain ⟨size, thr, pool, sta, fs, cpu, ocl, asg, fst, pc, todo, ser, cur, log⟩ := a
  dsimp only at h ht
  subst h ht
  rfl

theorem master_pair {env : Env} {c : ConfigNode} {blocks : List Block} {s : PoolState} {st : Run.State}
    (h : Sim env c blocks s st) (hpc : s.run.pc = st.pc) (hns : ∀ k, st.pc ≠ .save k) {ch : Choice}
    {o : Option Run.State} (hs : masterStep st ch = .ok o) :
    ∃ o', s.lift (masterStep s.run ch) = .ok o' ∧ Rel env c blocks o o' := by
  obtain ⟨hag, hab, hst, hca, hte⟩ := h
  obtain ⟨a, test⟩ := s
  dsimp only at *
  cases hst with
  | verify h1 h2 h3 h4 h5 h6 => rw [h5, h6] at hpc; cases hpc
  | write bs ws k h1 h2 h3 h4 h5 h6 h7 => rw [h5, h6] at hpc; cases k <;> cases hpc
  | config h1 h2 h3 h4 h5 h6 =>
    rcases h6 with h6 | h6 | h6
    · simp only [masterStep, h6, waitStep] at hs
      cases hf : flushFinished st with
      | ok st1 =>
        obtain ⟨a1, g1, g2, g3, g4, g5, g6, g7, g8, g9⟩ := flushFinished_pair hag hf
        rw [hf] at hs
        obtain rfl := Res.ok.inj hs
        simp only [PoolState.lift, masterStep, hpc, h6, waitStep, g1]
        refine ⟨_, rfl, ⟨g2.size, g2.thr, g2.pool, g2.cpu, g2.opencl, g2.assigned, g2.todo, g2.serial, g2.current⟩,
          g3 ▸ hab, .config (g7 ▸ h1) (g4 ▸ h2) (g6 ▸ h3) (g5 ▸ h4) ?_ ?_, ?_, ?_⟩
        · show (if a1.assigned = [] then _ else _) = if st1.assigned = [] then _ else _
          rw [g2.assigned]
        · show (if st1.assigned = [] then Pc.save .config else .wait .config) = _ ∨ (if _ then _ else _) = _ ∨ _
          split_ifs <;> simp
        · show assignOrder st1.log ++ todoBlocks st1.todo = _
          rw [g8, g7]; exact hca
        · show flushAll env c (flushOrder st1.log) = _
          rw [g9]; exact hte
      | _ => rw [hf] at hs; exact absurd hs (by simp [bind, Res.bind, Functor.map])
    · exact absurd h6 (hns _)
    · obtain ⟨size, thr, pool, staA, fsA, cpu, ocl, asg, fstA, pcA, todo, ser, cur, logA⟩ := a
      obtain ⟨size', thr', pool', staB, fsB, cpu', ocl', asg', fstB, pcB, todo', ser', cur', logB⟩ := st
      obtain ⟨rfl, rfl, rfl, rfl, rfl, rfl, rfl, rfl, rfl⟩ := hag
      dsimp only at *
      subst h1 h2 h3 h5 h6
      simp only [masterStep, newStoreStep, h4] at hs
      obtain rfl := Res.ok.inj hs
      simp only [PoolState.lift, masterStep, newStoreStep, hab]
      exact ⟨_, rfl, ⟨rfl, rfl, rfl, rfl, rfl, rfl, rfl, rfl, rfl⟩, hab,
        .update rfl rfl rfl (by show (fsB _).isSome; rw [h4]; rfl) rfl rfl, hca, hte⟩
  | update h1 h2 h3 h4 h5 h6 =>
    obtain ⟨size, thr, pool, staA, fsA, cpu, ocl, asg, fstA, pcA, todo, ser, cur, logA⟩ := a
    obtain ⟨size', thr', pool', staB, fsB, cpu', ocl', asg', fstB, pcB, todo', ser', cur', logB⟩ := st
    obtain ⟨rfl, rfl, rfl, rfl, rfl, rfl, rfl, rfl, rfl⟩ := hag
    dsimp only at *
    subst h1 h2 h3 h5 h6
    simp only [masterStep] at hs
    obtain rfl := Res.ok.inj hs
    exact ⟨_, rfl, ⟨rfl, rfl, rfl, rfl, rfl, rfl, rfl, rfl, rfl⟩, hab, .later blocks rfl rfl rfl h4 rfl trivial, hca, hte⟩
  | later bs h1 h2 h3 h4 h5 h6 =>
    have same : ∀ (p : Pc), Later bs p → Sim env c blocks ⟨{ a with pc := p }, test⟩ { st with pc := p } := fun p hp =>
      ⟨⟨hag.size, hag.thr, hag.pool, hag.cpu, hag.opencl, hag.assigned, hag.todo, hag.serial, hag.current⟩, hab,
        .later bs h1 h2 h3 h4 rfl hp, hca, hte⟩
    have sameWake : ∀ (i : Nat) (p : Pc), Later bs p →
        Sim env c blocks ⟨{ wake a i with pc := p }, test⟩ { wake st i with pc := p } := fun i p hp => by
      have g := wake_agree hag i
      obtain ⟨k1, k2, k3, k4, k5⟩ := wake_keeps st i
      obtain ⟨l1, l2, l3, l4, l5⟩ := wake_keeps a i
      exact ⟨⟨g.size, g.thr, g.pool, g.cpu, g.opencl, g.assigned, g.todo, g.serial, g.current⟩, by
        show (wake a i).fs _ = _; rw [l3]; exact hab,
        .later bs (k1.trans h1) (l2.trans h2) (k2.trans h3) (by show ((wake st i).fs _).isSome; rw [k3]; exact h4) rfl hp,
        by show assignOrder (wake st i).log ++ todoBlocks (wake st i).todo = _; rw [k5, k1]; exact hca,
        by show flushAll env c (flushOrder (wake st i).log) = _; rw [k5]; exact hte⟩
    cases hp : st.pc with
    | main =>
      have h1a := hag.todo.trans h1
      have hpa := hpc.trans hp
      cases bs with
      | nil =>
        rw [main_nil hp h1] at hs
        obtain rfl := Res.ok.inj hs
        rw [main_nil hpa h1a]
        exact ⟨_, rfl, same _ rfl⟩
      | cons b bs =>
        rw [main_assign hp h1] at hs
        obtain rfl := Res.ok.inj hs
        rw [main_assign hpa h1a]
        refine ⟨_, rfl, same _ ?_⟩
        cases ch.saveNow <;> trivial
    | wait k =>
      rw [hp] at h6
      simp only [masterStep, hp, waitStep] at hs
      cases hf : flushFinished st with
      | ok st1 =>
        obtain ⟨a1, g1, g2, g3, g4, g5, g6, g7, g8, g9⟩ := flushFinished_pair hag hf
        rw [hf] at hs
        obtain rfl := Res.ok.inj hs
        simp only [PoolState.lift, masterStep, hpc, hp, waitStep, g1]
        refine ⟨_, rfl, ⟨g2.size, g2.thr, g2.pool, g2.cpu, g2.opencl, g2.assigned, g2.todo, g2.serial, g2.current⟩,
          g3 ▸ hab, .later bs (g7 ▸ h1) (g4 ▸ h2) (g6 ▸ h3) (g5 ▸ h4) ?_ ?_, ?_, ?_⟩
        · show (if a1.assigned = [] then _ else _) = if st1.assigned = [] then _ else _
          rw [g2.assigned]
        · show Later bs (if st1.assigned = [] then Pc.save k else .wait k)
          cases k <;> split_ifs <;> first | exact h6 | exact h6.elim
        · show assignOrder st1.log ++ todoBlocks st1.todo = _
          rw [g8, g7]; exact hca
        · show flushAll env c (flushOrder st1.log) = _
          rw [g9]; exact hte
      | _ => rw [hf] at hs; exact absurd hs (by simp [bind, Res.bind, Functor.map])
    | save k => exact absurd hp (hns k)
    | write ws k => rw [hp] at h6; exact h6.elim
    | newStore => rw [hp] at h6; exact h6.elim
    | update => rw [hp] at h6; exact h6.elim
    | contains =>
      have h1a := hag.todo.trans h1
      have hpa := hpc.trans hp
      cases bs with
      | nil =>
        rw [contains_nil hp h1] at hs
        obtain rfl := Res.ok.inj hs
        rw [contains_nil hpa h1a]
        exact ⟨_, rfl, trivial⟩
      | cons b bs =>
        rw [contains_assign hp h1 h3 rfl] at hs
        obtain rfl := Res.ok.inj hs
        rw [contains_assign hpa h1a h2 hag.opencl]
        refine ⟨_, rfl, same _ ?_⟩
        split_ifs <;> trivial
    | fillFinished =>
      simp only [masterStep, hp] at hs
      cases hf : flushFinished st with
      | ok st1 =>
        obtain ⟨a1, g1, g2, g3, g4, g5, g6, g7, g8, g9⟩ := flushFinished_pair hag hf
        rw [hf] at hs
        obtain rfl := Res.ok.inj hs
        simp only [PoolState.lift, masterStep, hpc, hp, g1]
        exact ⟨_, rfl, ⟨g2.size, g2.thr, g2.pool, g2.cpu, g2.opencl, g2.assigned, g2.todo, g2.serial, g2.current⟩,
          g3 ▸ hab, .later bs (g7 ▸ h1) (g4 ▸ h2) (g6 ▸ h3) (g5 ▸ h4) rfl trivial,
          by show assignOrder st1.log ++ todoBlocks st1.todo = _; rw [g8, g7]; exact hca,
          by show flushAll env c (flushOrder st1.log) = _; rw [g9]; exact hte⟩
      | _ => rw [hf] at hs; exact absurd hs (by simp [bind, Res.bind])
    | fillReady =>
      obtain ⟨size, thr, pool, staA, fsA, cpu, ocl, asg, fstA, pcA, todo, ser, cur, logA⟩ := a
      obtain ⟨size', thr', pool', staB, fsB, cpu', ocl', asg', fstB, pcB, todo', ser', cur', logB⟩ := st
      obtain ⟨rfl, rfl, rfl, rfl, rfl, rfl, rfl, rfl, rfl⟩ := hag
      dsimp only at *
      subst hpc hp
      simp only [masterStep] at hs
      obtain rfl := Res.ok.inj hs
      refine ⟨_, rfl, ⟨rfl, rfl, rfl, rfl, rfl, rfl, rfl, rfl, rfl⟩, hab, .later bs h1 h2 h3 h4 rfl ?_, hca, hte⟩
      simp only [fillReadyStep]
      split_ifs <;> trivial
    | take =>
      have h1a := hag.todo.trans h1
      have hpa := hpc.trans hp
      cases bs with
      | nil =>
        rw [take_nil hp h1] at hs
        obtain rfl := Res.ok.inj hs
        rw [take_nil hpa h1a]
        exact ⟨_, rfl, trivial⟩
      | cons b bs =>
        rw [take_assign hp h1] at hs
        rw [take_assign hpa h1a]
        cases hf : takeStep st b (bs.map .assign) with
        | ok st1 =>
          obtain ⟨a1, i, g1, g2, g3, g4, g5, g6, g7, g8, g9, g10, g11⟩ := takeStep_pair hag hf
          rw [hf] at hs
          obtain rfl := Res.ok.inj hs
          rw [g1]
          refine ⟨some ⟨a1, test⟩, rfl, g2, g3 ▸ hab, .later bs g7 (g4 ▸ h2) (g6 ▸ h3) (g5 ▸ h4) (g8.trans g9.symm)
            (by rw [g9]; trivial), ?_, g11 ▸ hte⟩
          rw [g10, g7, todoBlocks_map, List.append_assoc]
          rw [h1, todoBlocks_map] at hca
          exact hca
        | _ => rw [hf] at hs; exact absurd hs (by simp [Functor.map, Res.bind])
    | notify i b =>
      simp only [masterStep, hp] at hs
      obtain rfl := Res.ok.inj hs
      simp only [PoolState.lift, masterStep, hpc, hp]
      exact ⟨_, rfl, sameWake _ _ trivial⟩
    | insert b =>
      simp only [masterStep, hp] at hs
      obtain rfl := Res.ok.inj hs
      simp only [PoolState.lift, masterStep, hpc, hp]
      exact ⟨_, rfl, ⟨hag.size, hag.thr, hag.pool, hag.cpu, hag.opencl, by show OSet.insert _ _ = _; rw [hag.assigned],
        hag.todo, hag.serial, hag.current⟩, hab, .later bs h1 h2 h3 h4 rfl trivial, hca, hte⟩
    | shutdown i =>
      obtain ⟨size, thr, pool, staA, fsA, cpu, ocl, asg, fstA, pcA, todo, ser, cur, logA⟩ := a
      obtain ⟨size', thr', pool', staB, fsB, cpu', ocl', asg', fstB, pcB, todo', ser', cur', logB⟩ := st
      obtain ⟨rfl, rfl, rfl, rfl, rfl, rfl, rfl, rfl, rfl⟩ := hag
      dsimp only at *
      subst hpc hp
      simp only [masterStep] at hs
      simp only [PoolState.lift, masterStep]
      split_ifs at hs ⊢
      · obtain rfl := Res.ok.inj hs
        exact ⟨_, rfl, ⟨rfl, rfl, rfl, rfl, rfl, rfl, rfl, rfl, rfl⟩, hab, .later bs h1 h2 h3 h4 rfl h6, hca, hte⟩
      · obtain rfl := Res.ok.inj hs
        exact ⟨_, rfl, same .finished h6⟩
    | shutNotify i =>
      rw [hp] at h6
      simp only [masterStep, hp] at hs
      obtain rfl := Res.ok.inj hs
      simp only [PoolState.lift, masterStep, hpc, hp]
      exact ⟨_, rfl, sameWake _ _ h6⟩
    | join i =>
      obtain ⟨size, thr, pool, staA, fsA, cpu, ocl, asg, fstA, pcA, todo, ser, cur, logA⟩ := a
      obtain ⟨size', thr', pool', staB, fsB, cpu', ocl', asg', fstB, pcB, todo', ser', cur', logB⟩ := st
      obtain ⟨rfl, rfl, rfl, rfl, rfl, rfl, rfl, rfl, rfl⟩ := hag
      dsimp only at *
      subst hpc hp
      simp only [masterStep] at hs
      simp only [PoolState.lift, masterStep]
      split_ifs at hs ⊢
      · obtain rfl := Res.ok.inj hs
        exact ⟨_, rfl, same (.shutdown (i + 1)) h6⟩
      · obtain rfl := Res.ok.inj hs
        exact ⟨_, rfl, trivial⟩
    | finished =>
      simp only [masterStep, hp] at hs
      obtain rfl := Res.ok.inj hs
      simp only [PoolState.lift, masterStep, hpc, hp]
      exact ⟨_, rfl, trivial⟩

theorem later_afterSave {bs : List Block} {k : Cont} (h : Later bs (.save k)) : Later bs (afterSave k) := by
  cases k with
  | config => exact h.elim
  | assign => trivial
  | exit => exact h

/-- Saving is one step of the test, whatever the choices are. -/
theorem save_pair {env : Env} {c : ConfigNode} {blocks : List Block} {s : PoolState} {st : Run.State}
    (h : Sim env c blocks s st) (hpc : s.run.pc = st.pc) {k : Cont} (hk : st.pc = .save k) :
    ∃ s', (∀ ch, s.lift (masterStep s.run ch) = .ok (some s')) ∧
      (∀ ch st', masterStep st ch = .ok (some st') → Sim env c blocks s' st') ∧
      ∃ ch st', masterStep st ch = .ok (some st') := by
  obtain ⟨hag, hab, hst, hca, hte⟩ := h
  obtain ⟨a, test⟩ := s
  obtain ⟨size, thr, pool, staA, fsA, cpu, ocl, asg, fstA, pcA, todo, ser, cur, logA⟩ := a
  obtain ⟨size', thr', pool', staB, fsB, cpu', ocl', asg', fstB, pcB, todo', ser', cur', logB⟩ := st
  obtain ⟨h1, h2, h3, h4, h5, h6, h7, h8, h9⟩ := hag
  dsimp only at *
  subst h1 h2 h3 h4 h5 h6 h7 h8 h9 hk hpc
  cases hst with
  | verify h1 h2 h3 h4 h5 h6 => exact absurd h5 (by simp)
  | write bs ws k h1 h2 h3 h4 h5 h6 h7 => exact absurd h5 (by simp)
  | update h1 h2 h3 h4 h5 h6 => exact absurd h5 (by simp)
  | config h1 h2 h3 h4 h5 h6 =>
    dsimp only at *
    subst h2 h3
    obtain rfl : k = .config := by simpa using h6
    refine ⟨_, fun ch => rfl, fun ch st' hs => ?_, ⟨false, false, 0⟩, _, rfl⟩
    obtain rfl := Option.some.inj (Res.ok.inj hs)
    exact ⟨⟨rfl, rfl, rfl, rfl, rfl, rfl, rfl, rfl, rfl⟩, hab, .config h1 rfl rfl h4 rfl (.inr (.inr rfl)), hca, hte⟩
  | later bs h1 h2 h3 h4 h5 h6 =>
    dsimp only at *
    subst h2 h3
    obtain ⟨d, hd⟩ := Option.isSome_iff_exists.1 h4
    refine ⟨_, fun ch => rfl, fun ch st' hs => ?_, ?_⟩
    · simp only [masterStep, saveStep, hd, if_true] at hs
      split_ifs at hs
      · obtain rfl := Option.some.inj (Res.ok.inj hs)
        exact ⟨⟨rfl, rfl, rfl, rfl, rfl, rfl, rfl, rfl, rfl⟩, hab, .write bs _ k h1 rfl rfl h4 rfl rfl h6, hca, hte⟩
      · exact absurd (Res.ok.inj hs) (by simp)
    · obtain ⟨id, hid⟩ := exists_fresh d
      refine ⟨⟨false, false, id⟩, ?_⟩
      simp only [masterStep, saveStep, hd, if_true, hid]
      exact ⟨_, rfl⟩

/-- A step of the main thread of the run that the test does not have: verification and writes. -/
theorem extra_step {env : Env} {c : ConfigNode} {blocks : List Block} {s : PoolState} {st : Run.State} (hz : Nonzero c)
    (h : Sim env c blocks s st) (hpc : s.run.pc ≠ st.pc) (ch : Choice) :
    ∃ st', masterStep st ch = .ok (some st') ∧ Sim env c blocks s st' ∧
      ((∃ ws k, st.pc = .write ws k ∧ ∀ ws' k', st'.pc = .write ws' k' → ws'.length < ws.length) ∨ s.run.pc = st'.pc) := by
  obtain ⟨hag, hab, hst, hca, hte⟩ := h
  cases hst with
  | config h1 h2 h3 h4 h5 h6 => exact absurd h5 hpc
  | update h1 h2 h3 h4 h5 h6 => exact absurd (h5.trans h6.symm) hpc
  | later bs h1 h2 h3 h4 h5 h6 => exact absurd h5 hpc
  | verify h1 h2 h3 h4 h5 h6 =>
    have hv : c.verify st.fs (.ok ch.create) = .ok (st.fs, true) := by
      unfold ConfigNode.verify
      rw [if_pos ⟨hz.prime, hz.exponent, hz.genus, hz.count⟩, if_pos (by rw [h4]; rfl)]
      simp [hz.package]
    refine ⟨{ st with pc := .wait .config }, ?_,
      ⟨⟨hag.size, hag.thr, hag.pool, hag.cpu, hag.opencl, hag.assigned, hag.todo, hag.serial, hag.current⟩, hab,
        .config h1 h2 h3 h4 h6 (.inl rfl), hca, hte⟩, .inr h6⟩
    obtain ⟨size, thr, pool, staB, fsB, cpu, ocl, asg, fstB, pcB, todo, ser, cur, logB⟩ := st
    dsimp only at *
    subst h1 h5
    simp only [masterStep, mainStep, hv]
    rfl
  | write bs ws k h1 h2 h3 h4 h5 h6 h7 =>
    cases ws with
    | nil =>
      refine ⟨{ st with pc := afterSave k }, by simp only [masterStep, h5],
        ⟨⟨hag.size, hag.thr, hag.pool, hag.cpu, hag.opencl, hag.assigned, hag.todo, hag.serial, hag.current⟩, hab,
          .later bs h1 h2 h3 h4 h6 (later_afterSave h7), hca, hte⟩, .inr h6⟩
    | cons w ws =>
      obtain ⟨d, hd⟩ := Option.isSome_iff_exists.1 h4
      refine ⟨{ st with fs := st.fs.set c.resultPath (d.write w.1 w.2), pc := .write ws k },
        by simp only [masterStep, h5, writeStep, h3, hd],
        ⟨⟨hag.size, hag.thr, hag.pool, hag.cpu, hag.opencl, hag.assigned, hag.todo, hag.serial, hag.current⟩, hab,
          .write bs ws k h1 h2 h3 (by simp [FileSystem.set]) rfl h6 h7, hca, hte⟩, .inl ⟨w :: ws, k, h5, ?_⟩⟩
      intro ws' k' hw
      obtain ⟨rfl, _⟩ := Pc.write.inj hw
      simp

/-- The run can make these steps until it is where the test is. -/
theorem drain {env : Env} {c : ConfigNode} {blocks : List Block} {s : PoolState} {st₀ st : Run.State} (hz : Nonzero c)
    (h : Sim env c blocks s st) (hr : Reachable env st₀ st) :
    ∃ st', Reachable env st₀ st' ∧ Sim env c blocks s st' ∧ s.run.pc = st'.pc := by
  have key : ∀ (n : Nat) (st : Run.State), Sim env c blocks s st → Reachable env st₀ st →
      (∀ ws k, st.pc = .write ws k → ws.length < n) → ∃ st', Reachable env st₀ st' ∧ Sim env c blocks s st' ∧ s.run.pc = st'.pc := by
    intro n
    induction n with
    | zero =>
      intro st h hr hn
      by_cases hpc : s.run.pc = st.pc
      · exact ⟨st, hr, h, hpc⟩
      obtain ⟨st', h1, h2, ⟨ws, k, h3, _⟩ | h3⟩ := extra_step hz h hpc ⟨false, true, 0⟩
      · exact absurd (hn ws k h3) (by simp)
      · exact ⟨st', .step (.master _) hr h1, h2, h3⟩
    | succ n ih =>
      intro st h hr hn
      by_cases hpc : s.run.pc = st.pc
      · exact ⟨st, hr, h, hpc⟩
      obtain ⟨st', h1, h2, ⟨ws, k, h3, h4⟩ | h3⟩ := extra_step hz h hpc ⟨false, true, 0⟩
      · exact ih st' h2 (.step (.master _) hr h1) fun ws' k' hw =>
          lt_of_lt_of_le (h4 ws' k' hw) (Nat.lt_succ_iff.1 (hn ws k h3))
      · exact ⟨st', .step (.master _) hr h1, h2, h3⟩
  by_cases hw : ∃ ws k, st.pc = .write ws k
  · obtain ⟨ws, k, hw⟩ := hw
    refine key (ws.length + 1) st h hr fun ws' k' h' => ?_
    obtain ⟨rfl, _⟩ := Pc.write.inj (hw.symm.trans h')
    exact Nat.lt_succ_self _
  · exact key 0 st h hr fun ws k h' => absurd ⟨ws, k, h'⟩ hw

theorem exists_suffix {i : Nat} {j : Job} : ∀ {l : List Event}, (i, j) ∈ assignedJobs l → ∃ l', .assigned i j :: l' <:+ l := by
  intro l
  induction l with
  | nil => intro h; simp [assignedJobs] at h
  | cons e l ih =>
    intro h
    by_cases he : e = .assigned i j
    · exact ⟨l, he ▸ List.suffix_refl _⟩
    · have : (i, j) ∈ assignedJobs l := by
        unfold assignedJobs at h ⊢
        rw [List.mem_filterMap] at h ⊢
        obtain ⟨x, hx, hx'⟩ := h
        refine ⟨x, (List.mem_cons.1 hx).resolve_left ?_, hx'⟩
        rintro rfl
        cases x <;> simp_all
      obtain ⟨l', h'⟩ := ih this
      exact ⟨l', h'.trans (List.suffix_cons _ _)⟩

theorem flush_ok (t : StoreMap) : ∀ (m : StoreMap), (∀ e ∈ m, Small e.2) → ∃ t', flush t m = .ok t' := by
  intro m
  unfold flush
  induction m generalizing t with
  | nil => intro _; exact ⟨t, rfl⟩
  | cons e m ih =>
    intro h
    obtain ⟨t1, h1⟩ : ∃ t1, Store.addEntry t e.1 e.2 = .ok t1 := by
      unfold Store.addEntry
      cases OMap.find? t e.1 with
      | some w => exact ⟨_, rfl⟩
      | none => rw [copyCount_small (h e (by simp))]; exact ⟨_, rfl⟩
    obtain ⟨t2, h2⟩ := ih t1 fun x hx => h x (by simp [hx])
    exact ⟨t2, by rw [List.foldlM_cons, h1, Res.bind_ok]; exact h2⟩

section

variable {env : Env} {c : ConfigNode} {blocks : List Block} {result : ConfigNode → Block → StoreMap} {kinds : List Bool}
  {fs : FileSystem}

/-- The run in an empty directory with which a test is compared. -/
abbrev shadow (kinds : List Bool) (fs : FileSystem) (c : ConfigNode) (blocks : List Block) : Run.State :=
  initial kinds (fs.set c.resultPath []) (program [⟨c, blocks⟩])

theorem shadow_past : Past env [⟨c, blocks⟩] (fs.set c.resultPath []) := by
  refine .start _ fun s hs d hd => ?_
  rw [List.mem_singleton] at hs
  subst hs
  obtain rfl : d = [] := by simpa [FileSystem.set] using hd.symm
  exact ⟨by simp [Dir.NamesDiffer], fun e he => absurd he (by simp), fun e he => absurd he (by simp)⟩

theorem shadow_input (hi : Tasks env [⟨c, blocks⟩] result) : Input env [⟨c, blocks⟩] result :=
  { hi with paths := by simp }

theorem canFlush (hi : Tasks env [⟨c, blocks⟩] result) (hk : kinds.length < 4294967296) {st : Run.State}
    (hr : Reachable env (shadow kinds fs c blocks) st) {i : Nat} {j : Job} (hp : (st.thr i).phase = .compute j)
    (t : StoreMap) : CanFlush env c t j := by
  obtain ⟨h1, h2⟩ := C41_tables hk hi.blocks hr
  obtain ⟨l, hl⟩ := exists_suffix (h2 i j hp)
  obtain ⟨tb, _, h3, s, hs, h4, h5⟩ := h1 i j l hl
  rw [List.mem_singleton] at hs
  subst hs
  obtain ⟨t', ht⟩ := flush_ok t (result c j.block) (hi.entry_small (s := ⟨c, blocks⟩) (by simp) h5)
  exact ⟨tb, h3, h4, _, t', hi.compute _ (by simp) _ h5, ht⟩

/-- All steps except for saving, and except for those that only the run has. -/
theorem step_pair (hi : Tasks env [⟨c, blocks⟩] result) (hk : kinds.length < 4294967296) {s : PoolState} {st : Run.State}
    (hr : Reachable env (shadow kinds fs c blocks) st) (h : Sim env c blocks s st) {l : Label} {o : Option Run.State}
    (hl : ∀ ch, l = .master ch → s.run.pc = st.pc ∧ ∀ k, st.pc ≠ .save k) (hs : Run.step env st l = .ok o) :
    ∃ o', poolStep env s l = .ok o' ∧ Rel env c blocks o o' := by
  cases l with
  | thread i =>
    simp only [Run.step, poolStep, h.agree.size] at hs ⊢
    split_ifs at hs ⊢
    · exact thread_pair h hs fun j hj => canFlush hi hk hr hj _
    · obtain rfl := Res.ok.inj hs
      exact ⟨_, rfl, trivial⟩
  | master ch => exact master_pair h (hl ch rfl).1 (hl ch rfl).2 hs
  | spurious i =>
    simp only [Run.step, poolStep, PoolState.lift, h.agree.size, h.agree.thr] at hs ⊢
    split_ifs at hs ⊢
    · obtain rfl := Res.ok.inj hs
      obtain ⟨k1, k2, k3, k4, k5⟩ := wake_keeps st i
      obtain ⟨l1, l2, l3, l4, l5⟩ := wake_keeps s.run i
      exact ⟨_, rfl, wake_agree h.agree i, by show (wake s.run i).fs _ = _; rw [l3]; exact h.absent,
        h.stage.congr k1 l2 k2 k3 l4 k4, by rw [k5, k1]; exact h.calls, by rw [k5]; exact h.test⟩
    · obtain rfl := Res.ok.inj hs
      exact ⟨_, rfl, trivial⟩

/-- Every step of a test succeeds, and the run can follow. -/
theorem forward (hi : Tasks env [⟨c, blocks⟩] result) (hz : Nonzero c) (hk : kinds.length < 4294967296) {s : PoolState}
    {st : Run.State} (hr : Reachable env (shadow kinds fs c blocks) st) (h : Sim env c blocks s st) (l : Label) :
    ∃ o, poolStep env s l = .ok o ∧ ∀ s', o = some s' →
      ∃ st', Reachable env (shadow kinds fs c blocks) st' ∧ Sim env c blocks s' st' := by
  obtain ⟨st1, hr1, h1, hpc⟩ := drain hz h hr
  by_cases hsv : ∃ ch k, l = .master ch ∧ st1.pc = .save k
  · obtain ⟨ch, k, rfl, hk'⟩ := hsv
    obtain ⟨s', g1, g2, ch', st2, g3⟩ := save_pair h1 hpc hk'
    refine ⟨some s', g1 ch, fun x hx => ?_⟩
    obtain rfl := Option.some.inj hx
    exact ⟨st2, .step (.master ch') hr1 g3, g2 _ _ g3⟩
  · obtain ⟨o, ho⟩ := C38_safe (shadow_input hi) shadow_past hk hr1 l
    obtain ⟨o', g1, g2⟩ := step_pair hi hk hr1 h1
      (fun ch hch => ⟨hpc, fun k hk' => hsv ⟨ch, k, hch, hk'⟩⟩) ho
    refine ⟨o', g1, fun x hx => ?_⟩
    subst hx
    cases o with
    | none => exact g2.elim
    | some st2 => exact ⟨st2, .step l hr1 ho, g2⟩

/-- Every state of a test corresponds to one of the run. -/
theorem exists_sim (hi : Tasks env [⟨c, blocks⟩] result) (hz : Nonzero c) (hk : kinds.length < 4294967296)
    (hf : fs c.resultPath = none) {s : PoolState} (hr : PoolReachable env (poolInitial kinds fs c blocks) s) :
    ∃ st, Reachable env (shadow kinds fs c blocks) st ∧ Sim env c blocks s st := by
  induction hr with
  | refl => exact ⟨_, .refl, sim_initial env kinds fs c blocks hf⟩
  | step l _ hs ih =>
    obtain ⟨st, h1, h2⟩ := ih
    obtain ⟨o, h3, h4⟩ := forward hi hz hk h1 h2 l
    rw [hs] at h3
    exact h4 _ (Res.ok.inj h3).symm

/-- Every state of the run corresponds to one of a test. -/
theorem backward (hi : Tasks env [⟨c, blocks⟩] result) (hz : Nonzero c) (hk : kinds.length < 4294967296)
    (hf : fs c.resultPath = none) {st : Run.State} (hr : Reachable env (shadow kinds fs c blocks) st) :
    ∃ s, PoolReachable env (poolInitial kinds fs c blocks) s ∧ Sim env c blocks s st := by
  induction hr with
  | refl => exact ⟨_, .refl, sim_initial env kinds fs c blocks hf⟩
  | @step st st' l hr hs ih =>
    obtain ⟨s, h1, h2⟩ := ih
    by_cases hx : ∃ ch, l = .master ch ∧ s.run.pc ≠ st.pc
    · obtain ⟨ch, rfl, hpc⟩ := hx
      obtain ⟨st1, g1, g2, _⟩ := extra_step hz h2 hpc ch
      obtain rfl := Option.some.inj (Res.ok.inj (g1.symm.trans hs))
      exact ⟨s, h1, g2⟩
    push Not at hx
    by_cases hsv : ∃ ch k, l = .master ch ∧ st.pc = .save k
    · obtain ⟨ch, k, rfl, hk'⟩ := hsv
      obtain ⟨s', g1, g2, _⟩ := save_pair h2 (hx ch rfl) hk'
      exact ⟨s', .step (.master ch) h1 (g1 ch), g2 _ _ hs⟩
    · obtain ⟨o', g1, g2⟩ := step_pair hi hk hr h2 (fun ch hch => ⟨hx ch hch, fun k hk' => hsv ⟨ch, k, hch, hk'⟩⟩) hs
      cases o' with
      | none => exact g2.elim
      | some s' => exact ⟨s', .step l h1 g1, g2⟩

/-- At the end all blocks have been flushed, each once. -/
theorem pool_end (hi : Tasks env [⟨c, blocks⟩] result) (hz : Nonzero c) (hk : kinds.length < 4294967296)
    (hf : fs c.resultPath = none) {s : PoolState} (hr : PoolReachable env (poolInitial kinds fs c blocks) s)
    (he : s.run.pc = .finished) : ∃ order : List Block, order.Perm blocks ∧ flushAll env c order = .ok s.test := by
  obtain ⟨st0, hr0, h0⟩ := exists_sim hi hz hk hf hr
  obtain ⟨st, hr1, h, hpc⟩ := drain hz h0 hr0
  refine ⟨_, ?_, h.test⟩
  have hp : st.pc = .finished := hpc.symm.trans he
  obtain ⟨_, h1, _⟩ := C38_end hk hi.blocks hr1 hp
  have ht : todoBlocks st.todo = [] := by
    cases h.stage with
    | verify _ _ _ _ g5 _ => rw [hp] at g5; cases g5
    | config _ _ _ _ _ g6 => rw [hp] at g6; simp at g6
    | update _ _ _ _ _ g6 => rw [hp] at g6; cases g6
    | later bs g1 _ _ _ _ g6 =>
      rw [hp] at g6
      rw [g1, todoBlocks_map]
      exact g6
    | write _ _ _ _ _ _ _ g5 _ _ => rw [hp] at g5; cases g5
  have h2 := h.calls
  rw [ht, List.append_nil] at h2
  rw [← h2]
  unfold flushOrder assignOrder
  exact (List.reverse_perm _).trans ((h1.map _).trans (List.reverse_perm _).symm)

end

end Reference
end Hycu
