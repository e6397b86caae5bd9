import Mathlib.Algebra.BigOperators.Group.Finset.Piecewise
import Mathlib.Algebra.Order.BigOperators.Group.Finset
import Verif.Lemmas.RunData
import Verif.Lemmas.MpiLive

/-!
How many files a run can still write.
-/

namespace Hycu

/-- The number of files in some directories. -/
def FileSystem.files (fs : FileSystem) (S : Finset (List Char)) : Nat :=
  ∑ p ∈ S, (match fs p with | some d => d.length | none => 0)

theorem Dir.write_length (d : Dir) (n c : List Char) : (d.write n c).length ≤ d.length + 1 := by
  induction d with
  | nil => exact Nat.le_refl _
  | cons e d ih =>
    obtain ⟨m, e⟩ := e
    unfold Dir.write
    split
    · split <;> exact Nat.le_succ _
    · exact Nat.succ_le_succ ih

theorem FileSystem.files_write {fs : FileSystem} {p : List Char} {d : Dir} (h : fs p = some d) (n c : List Char)
    (S : Finset (List Char)) : (fs.set p (d.write n c)).files S ≤ fs.files S + if p ∈ S then 1 else 0 := by
  have h1 : (fs.set p (d.write n c)).files S ≤
      ∑ q ∈ S, ((match fs q with | some d => d.length | none => 0) + if q = p then 1 else 0) := by
    refine Finset.sum_le_sum fun q _ => ?_
    by_cases hq : q = p
    · subst hq
      simp only [FileSystem.set, if_true, h]
      exact d.write_length n c
    · simp only [FileSystem.set, if_neg hq]
      exact Nat.le_refl _
  refine h1.trans ?_
  rw [Finset.sum_add_distrib]
  refine Nat.add_le_add_left ?_ _
  rw [Finset.sum_ite_eq']

theorem FileSystem.files_verify {c : ConfigNode} {fs : FileSystem} {create : Bool} {v : FileSystem × Bool}
    (h : c.verify fs (.ok create) = .ok v) (S : Finset (List Char)) : v.1.files S = fs.files S := by
  obtain ⟨h1, h2, -⟩ := Run.verify_fs h
  refine Finset.sum_congr rfl fun p _ => ?_
  cases hp : fs p with
  | some d => rw [h1 p d hp]
  | none =>
    rcases h2 p hp with h | h
    · rw [h]
    · rw [h]
      rfl

/-- How often a list of calls can save in directories of `S`, where `b` tells whether the directory in use is one of
them: once in each call, and at the end. -/
def saves (S : Finset (List Char)) : List Run.Cmd → Bool → Nat
  | [], b => b.toNat
  | .config c :: rest, b => b.toNat + saves S rest (decide (c.resultPath ∈ S))
  | .assign _ :: rest, b => b.toNat + saves S rest b

/-- The same after the first call has saved. -/
def later (S : Finset (List Char)) : List Run.Cmd → Bool → Nat
  | [], _ => 0
  | .config c :: rest, _ => saves S rest (decide (c.resultPath ∈ S))
  | .assign _ :: rest, b => saves S rest b

theorem saves_later (S : Finset (List Char)) (l : List Run.Cmd) (b : Bool) : saves S l b = b.toNat + later S l b := by
  cases l with
  | nil => rfl
  | cons c l => cases c <;> rfl

theorem saves_assign (S : Finset (List Char)) (bs : List Block) (l : List Run.Cmd) (b : Bool) :
    saves S (bs.map .assign ++ l) b = bs.length * b.toNat + saves S l b := by
  induction bs with
  | nil => simp
  | cons c bs ih =>
    show b.toNat + saves S (bs.map .assign ++ l) b = _
    rw [ih, List.length_cons, Nat.succ_mul]
    omega

theorem saves_program (S : Finset (List Char)) (ss : List Run.Sect) (b : Bool) : saves S (Run.program ss) b =
    b.toNat + (ss.map fun s => if s.cfg.resultPath ∈ S then s.blocks.length + 1 else 0).sum := by
  induction ss generalizing b with
  | nil => rfl
  | cons s ss ih =>
    show saves S (.config s.cfg :: (s.blocks.map .assign ++ Run.program ss)) b = _
    rw [saves, saves_assign, ih, List.map_cons, List.sum_cons]
    by_cases h : s.cfg.resultPath ∈ S
    · simp [h]
      omega
    · simp [h]

/-- The directory in use is one of `S`. -/
def inUse (S : Finset (List Char)) : Option Run.FileStoreObj → Bool
  | none => false
  | some f => decide (f.config.resultPath ∈ S)

/-- Files that are still to be written: `w` for each time that the following calls can save, and `o` in the current one. -/
def owed (S : Finset (List Char)) (w : Nat) (todo : List Run.Cmd) (store : Option Run.FileStoreObj) (o : Nat) : Nat :=
  w * later S todo (inUse S store) + if inUse S store then o else 0

theorem owed_mono {S : Finset (List Char)} {w : Nat} {todo : List Run.Cmd} {store : Option Run.FileStoreObj} {o o' : Nat}
    (h : o' ≤ o) : owed S w todo store o' ≤ owed S w todo store o := by
  unfold owed
  split <;> omega

theorem owed_full {S : Finset (List Char)} {w : Nat} {todo : List Run.Cmd} {store : Option Run.FileStoreObj} :
    owed S w todo store w = w * saves S todo (inUse S store) := by
  rw [saves_later, Nat.mul_add]
  unfold owed
  cases inUse S store
  · simp
  · simp only [if_true, Bool.toNat_true]
    omega

theorem owed_assign {S : Finset (List Char)} {w : Nat} {b : Block} {rest todo : List Run.Cmd} (ht : todo = .assign b :: rest)
    {store : Option Run.FileStoreObj} {o : Nat} : owed S w rest store w ≤ owed S w todo store o := by
  rw [owed_full, ht]
  exact Nat.le_add_right _ _

theorem owed_config {S : Finset (List Char)} {w : Nat} {c : ConfigNode} {rest todo : List Run.Cmd}
    (ht : todo = .config c :: rest) {store : Option Run.FileStoreObj} (hs : ∃ f, store = some f ∧ f.config = c) {o : Nat} :
    owed S w rest store w ≤ owed S w todo store o := by
  obtain ⟨f, rfl, rfl⟩ := hs
  rw [owed_full, ht]
  exact Nat.le_add_right _ _

theorem owed_store {S : Finset (List Char)} {w : Nat} {c : ConfigNode} {rest todo : List Run.Cmd}
    (ht : todo = .config c :: rest) {store store' : Option Run.FileStoreObj} {o : Nat} :
    owed S w todo store' 0 ≤ owed S w todo store o := by
  rw [ht]
  unfold owed
  rw [ite_self]
  exact Nat.le_add_right _ _

namespace Run

/-- What the current call can still write. -/
def Pc.owes : Pc → Nat
  | .main => 2
  | .wait _ => 2
  | .save _ => 2
  | .write ws _ => ws.length
  | .notify _ _ => 2
  | .insert _ => 2
  | _ => 0

theorem owes_afterSave (k : Cont) : (afterSave k).owes = 0 := by cases k <;> rfl

/-- The files and those that are to come are at most `N`; the tables of a configuration are made after its store. -/
structure Owing (S : Finset (List Char)) (N : Nat) (st : State) : Prop where
  store : st.pc = .update → ∀ c rest, st.todo = .config c :: rest → ∃ f, st.fileStore = some f ∧ f.config = c
  files : st.fs.files S + owed S 2 st.todo st.fileStore st.pc.owes ≤ N

theorem Owing.trans {env : Env} {S : Finset (List Char)} {N : Nat} {a : Option Nat} {st st' : State} (h : Owing S N st)
    (ht : Trans env st a st') : Owing S N st' := by
  have hN := h.files
  have step : ∀ s : State, s.pc ≠ .update → s.fs.files S = st.fs.files S →
      owed S 2 s.todo s.fileStore s.pc.owes ≤ owed S 2 st.todo st.fileStore st.pc.owes → Owing S N s :=
    fun s h0 h1 h2 => ⟨fun h => absurd h h0, by omega⟩
  cases ht with
  | mainEnd hpc => exact step _ nofun rfl (owed_mono (by rw [hpc]; exact Nat.le_refl _))
  | mainConfig hpc c rest ht create v hv =>
    refine step _ (by simp only; split <;> exact nofun) (FileSystem.files_verify hv S) (owed_mono ?_)
    rw [hpc]
    simp only
    split <;> exact Nat.le_refl _
  | mainAssign hpc b rest ht now =>
    refine step _ (by simp only; split <;> exact nofun) rfl (owed_mono ?_)
    rw [hpc]
    simp only
    split
    · exact Nat.le_refl _
    · exact Nat.zero_le _
  | wait k hpc a ha =>
    refine step _ (by simp only; split <;> exact nofun) rfl (owed_mono ?_)
    rw [hpc]
    simp only
    split <;> exact Nat.le_refl _
  | saveNone k => exact step _ (by cases k <;> exact nofun) rfl (owed_mono (by simp only [owes_afterSave]; exact Nat.zero_le _))
  | saveLost k => exact step _ (by cases k <;> exact nofun) rfl (owed_mono (by simp only [owes_afterSave]; exact Nat.zero_le _))
  | saveStart k hpc => exact step _ nofun rfl (owed_mono (by rw [hpc]; exact Nat.le_refl _))
  | writeEnd k => exact step _ (by cases k <;> exact nofun) rfl (owed_mono (by simp only [owes_afterSave]; exact Nat.zero_le _))
  | writeLost k n c ws hpc => exact step _ nofun rfl (owed_mono (by rw [hpc]; exact Nat.le_succ _))
  | write k n c ws hpc f hf d hd =>
    have := FileSystem.files_write hd n c S
    refine ⟨nofun, ?_⟩
    show (st.fs.set f.config.resultPath (d.write n c)).files S +
      owed S 2 st.todo st.fileStore (Pc.write ws k).owes ≤ N
    unfold owed at hN ⊢
    rw [hpc, hf] at hN
    rw [hf]
    simp only [Pc.owes, List.length_cons, inUse, decide_eq_true_eq] at hN ⊢
    split at this <;> rename_i hm <;> simp only [hm, if_true, if_false] at hN ⊢ <;> omega
  | newStoreInvalid hpc c rest ht hd =>
    refine ⟨fun _ c' rest' e => ?_, (Nat.add_le_add_left (owed_store ht) _).trans hN⟩
    have e : st.todo = .config c' :: rest' := e
    rw [ht] at e
    cases e
    exact ⟨_, rfl, rfl⟩
  | newStore hpc c rest ht d hd r hr =>
    refine ⟨fun _ c' rest' e => ?_, (Nat.add_le_add_left (owed_store ht) _).trans hN⟩
    have e : st.todo = .config c' :: rest' := e
    rw [ht] at e
    cases e
    exact ⟨_, rfl, rfl⟩
  | update hpc c rest ht => exact step _ nofun rfl (owed_config ht (h.store hpc c rest ht))
  | skip hpc b rest ht => exact step _ nofun rfl (owed_assign ht)
  | fill => exact step _ nofun rfl (owed_mono (Nat.zero_le _))
  | noFill => exact step _ nofun rfl (owed_mono (Nat.zero_le _))
  | fillFinished => exact step _ nofun rfl (owed_mono (Nat.zero_le _))
  | fillReady =>
    refine step _ (by unfold fillReadyStep; simp only; split <;> exact nofun) rfl (owed_mono ?_)
    unfold fillReadyStep
    simp only
    split <;> exact Nat.zero_le _
  | takeOpencl hpc b rest ht => exact step _ nofun rfl (owed_assign ht)
  | takeCpu hpc b rest ht => exact step _ nofun rfl (owed_assign ht)
  | notify i b hpc =>
    have e : (wake st i).fs = st.fs ∧ (wake st i).todo = st.todo ∧ (wake st i).fileStore = st.fileStore := by
      unfold wake
      split <;> exact ⟨rfl, rfl, rfl⟩
    refine step _ nofun (by simp only [e.1]) ?_
    simp only [e.2.1, e.2.2]
    exact owed_mono (by rw [hpc]; exact Nat.le_refl _)
  | insert b hpc => exact step _ nofun rfl (owed_mono (by rw [hpc]; exact Nat.le_refl _))
  | shutdown => exact step _ nofun rfl (owed_mono (Nat.zero_le _))
  | shutdownEnd => exact step _ nofun rfl (owed_mono (Nat.zero_le _))
  | shutNotify i hpc =>
    have e : (wake st i).fs = st.fs ∧ (wake st i).todo = st.todo ∧ (wake st i).fileStore = st.fileStore := by
      unfold wake
      split <;> exact ⟨rfl, rfl, rfl⟩
    refine step _ nofun (by simp only [e.1]) ?_
    simp only [e.2.1, e.2.2]
    exact owed_mono (Nat.zero_le _)
  | join => exact step _ nofun rfl (owed_mono (Nat.zero_le _))
  | _ => exact ⟨h.store, h.files⟩

theorem Owing.reachable {env : Env} {kinds : List Bool} {fs : FileSystem} {todo : List Cmd} {st : State}
    (h : Reachable env (Run.initial kinds fs todo) st) (S : Finset (List Char)) :
    Owing S (fs.files S + 2 * saves S todo false) st := by
  induction h with
  | refl => exact ⟨nofun, Nat.add_le_add_left (le_of_eq owed_full) _⟩
  | step l _ hs ih => exact ih.trans (step_trans hs)

end Run

namespace Mpi

open Run (Env Cmd Cont)

/-- What the current call can still write, if there are `P` processes. -/
def Pc.owes (P : Nat) : Pc → Nat
  | .main => 2 * P
  | .flush (.wait _) => 2 * P
  | .flushSend _ (.wait _) => 2 * P
  | .flushRecv _ (.wait _) => 2 * P
  | .waited _ => 2 * P
  | .save _ => 2 * P
  | .saveSend ix _ => 2 * (P - ix)
  | .saveRecv ix _ => 2 * (P - ix)
  | .write ws ix _ => ws.length + 2 * (P - (ix + 1))
  | .notify _ _ => 2 * P
  | .insert _ _ => 2 * P
  | _ => 0

theorem owes_afterSave (P : Nat) (k : Cont) : (afterSave k).owes P = 0 := by cases k <;> rfl

/-- The master makes or sends the tables of a configuration. -/
def Pc.updating : Pc → Prop
  | .update => True
  | .configSend _ => True
  | _ => False

/-- The files and those that are to come are at most `N`; replies are only awaited from existing processes; a configuration
is sent after its store was made. -/
structure Owing (S : Finset (List Char)) (N : Nat) (st : State) : Prop where
  pos : 0 < st.nprocs
  recv : ∀ ix k, st.pc = .saveRecv ix k → ix < st.nprocs
  store : st.pc.updating → ∀ c rest, st.todo = .config c :: rest → ∃ f, st.fileStore = some f ∧ f.config = c
  files : st.fs.files S + owed S (2 * st.nprocs) st.todo st.fileStore (st.pc.owes st.nprocs) ≤ N

theorem Owing.master {S : Finset (List Char)} {N : Nat} {st st' : State} (h : Owing S N st)
    (hm : MStep st st') : Owing S N st' := by
  have hf := h.files
  have step : ∀ s : State, s.nprocs = st.nprocs → ¬ s.pc.updating → (∀ ix k, s.pc = .saveRecv ix k → ix < st.nprocs) →
      s.fs.files S = st.fs.files S →
      owed S (2 * st.nprocs) s.todo s.fileStore (s.pc.owes st.nprocs) ≤
        owed S (2 * st.nprocs) st.todo st.fileStore (st.pc.owes st.nprocs) → Owing S N s := by
    intro s h0 hu h1 h2 h3
    exact ⟨h0 ▸ h.pos, h0 ▸ h1, fun h => absurd h hu, by rw [h0]; omega⟩
  have hpos := h.pos
  cases hm with
  | mainEnd hpc => exact step _ rfl (fun h => h) nofun rfl (owed_mono (by rw [hpc]; exact Nat.le_refl _))
  | mainConfig hpc c rest ht create v hv =>
    refine step _ rfl (by simp only; split <;> exact fun h => h) ?_ (FileSystem.files_verify hv S) (owed_mono ?_)
    · intro ix k
      simp only
      split <;> exact nofun
    · rw [hpc]
      simp only
      split <;> exact Nat.le_refl _
  | mainAssign hpc b rest ht now =>
    refine step _ rfl (by simp only; split <;> exact fun h => h) ?_ rfl (owed_mono ?_)
    · intro ix k
      simp only
      split <;> exact nofun
    · rw [hpc]
      simp only
      split
      · exact Nat.le_refl _
      · exact Nat.zero_le _
  | flush c hpc => exact step _ rfl (fun h => h) nofun rfl (owed_mono (by rw [hpc]; cases c <;> exact Nat.le_refl _))
  | flushSend ix c hpc => exact step _ rfl (fun h => h) nofun rfl (owed_mono (by rw [hpc]; cases c <;> exact Nat.le_refl _))
  | flushEnd ix c hpc =>
    exact step _ rfl (by cases c <;> exact fun h => h) (by cases c <;> exact nofun) rfl (owed_mono (by rw [hpc]; cases c <;> exact Nat.le_refl _))
  | flushRecv ix c hpc => exact step _ rfl (fun h => h) nofun rfl (owed_mono (by rw [hpc]; cases c <;> exact Nat.le_refl _))
  | waited k hpc => exact step _ rfl (fun h => h) nofun rfl (owed_mono (by rw [hpc]; exact Nat.le_refl _))
  | waitOn k hpc => exact step _ rfl (fun h => h) nofun rfl (owed_mono (by rw [hpc]; exact Nat.le_refl _))
  | saveNone k =>
    exact step _ rfl (by cases k <;> exact fun h => h) (by cases k <;> exact nofun) rfl (owed_mono (by simp only [owes_afterSave]; exact Nat.zero_le _))
  | saveLost k hpc => exact step _ rfl (fun h => h) nofun rfl (owed_mono (by rw [hpc]; simp only [Pc.owes]; omega))
  | saveStart k hpc =>
    exact step _ rfl (fun h => h) nofun rfl (owed_mono (by
      rw [hpc]
      simp only [Pc.owes, FileStore.saveWrites, List.length_cons, List.length_nil]
      omega))
  | saveSend ix k hpc hi =>
    refine step _ rfl (fun h => h) ?_ rfl (owed_mono (by rw [hpc]; exact Nat.le_refl _))
    rintro _ _ ⟨⟩
    exact hi
  | saveEnd ix k =>
    exact step _ rfl (by cases k <;> exact fun h => h) (by cases k <;> exact nofun) rfl (owed_mono (by simp only [owes_afterSave]; exact Nat.zero_le _))
  | recvLost ix k hpc => exact step _ rfl (fun h => h) nofun rfl (owed_mono (by rw [hpc]; simp only [Pc.owes]; omega))
  | recvStart ix k hpc =>
    have := h.recv ix k hpc
    exact step _ rfl (fun h => h) nofun rfl (owed_mono (by
      rw [hpc]
      simp only [Pc.owes, FileStore.saveWrites, List.length_cons, List.length_nil]
      omega))
  | writeEnd ix k hpc => exact step _ rfl (fun h => h) nofun rfl (owed_mono (by rw [hpc]; simp only [Pc.owes, List.length_nil]; omega))
  | writeLost ix k n c ws hpc =>
    exact step _ rfl (fun h => h) nofun rfl (owed_mono (by rw [hpc]; simp only [Pc.owes, List.length_cons]; omega))
  | write ix k n c ws hpc f hs d hd =>
    have := FileSystem.files_write hd n c S
    refine ⟨hpos, nofun, fun h => h.elim, ?_⟩
    show (st.fs.set f.config.resultPath (d.write n c)).files S +
      owed S (2 * st.nprocs) st.todo st.fileStore ((Pc.write ws ix k).owes st.nprocs) ≤ N
    unfold owed at hf ⊢
    rw [hpc, hs] at hf
    rw [hs]
    simp only [Pc.owes, List.length_cons, inUse, decide_eq_true_eq] at hf ⊢
    split at this <;> rename_i hm <;> simp only [hm, if_true, if_false] at hf ⊢ <;> omega
  | newStoreInvalid hpc c rest ht hd =>
    refine ⟨hpos, nofun, fun _ c' rest' e => ?_, (Nat.add_le_add_left (owed_store ht) _).trans hf⟩
    have e : st.todo = .config c' :: rest' := e
    rw [ht] at e
    cases e
    exact ⟨_, rfl, rfl⟩
  | newStore hpc c rest ht d hd r hr =>
    refine ⟨hpos, nofun, fun _ c' rest' e => ?_, (Nat.add_le_add_left (owed_store ht) _).trans hf⟩
    have e : st.todo = .config c' :: rest' := e
    rw [ht] at e
    cases e
    exact ⟨_, rfl, rfl⟩
  | update hpc c rest ht =>
    exact ⟨hpos, nofun, fun _ => h.store (by rw [hpc]; trivial),
      (Nat.add_le_add_left (owed_mono (Nat.zero_le _)) _).trans hf⟩
  | configSend ix hpc c rest ht hi =>
    exact ⟨hpos, nofun, fun _ => h.store (by rw [hpc]; trivial),
      (Nat.add_le_add_left (owed_mono (Nat.zero_le _)) _).trans hf⟩
  | configEnd ix hpc c rest ht =>
    exact step _ rfl (fun h => h) nofun rfl (owed_config ht (h.store (by rw [hpc]; trivial) c rest ht))
  | skip hpc b rest ht => exact step _ rfl (fun h => h) nofun rfl (owed_assign ht)
  | takeLocal hpc b rest ht => exact step _ rfl (fun h => h) nofun rfl (owed_assign ht)
  | takeRemote hpc b rest ht => exact step _ rfl (fun h => h) nofun rfl (owed_assign ht)
  | notify i b hpc => exact step _ rfl (fun h => h) nofun rfl (owed_mono (by rw [hpc]; exact Nat.le_refl _))
  | insert ix b hpc => exact step _ rfl (fun h => h) nofun rfl (owed_mono (by rw [hpc]; exact Nat.le_refl _))
  | _ => exact step _ rfl (fun h => h) nofun rfl (owed_mono (Nat.zero_le _))

theorem Owing.trans {env : Env} {S : Finset (List Char)} {N : Nat} {st st' : State} (h : Owing S N st)
    (ht : Trans env st st') : Owing S N st' := by
  cases ht with
  | thread ix hx i hi p hp => exact ⟨h.pos, h.recv, h.store, h.files⟩
  | worker ix h0 hx p hp => exact ⟨h.pos, h.recv, h.store, h.files⟩
  | master st' hm => exact h.master hm

theorem Owing.reachable {env : Env} {kinds : List (List Bool)} {fs : FileSystem} {todo : List Cmd} {st : State}
    (h0 : kinds ≠ []) (h : Reachable env (Mpi.initial kinds fs todo) st) (S : Finset (List Char)) :
    Owing S (fs.files S + 2 * kinds.length * saves S todo false) st := by
  induction h with
  | refl => exact ⟨List.length_pos_iff.2 h0, nofun, fun h => h.elim, Nat.add_le_add_left (le_of_eq owed_full) _⟩
  | step l _ hs ih => exact ih.trans (step_trans hs)

end Mpi

end Hycu
