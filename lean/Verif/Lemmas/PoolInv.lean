import Verif.Lemmas.PoolBook

/-!
The invariant of a run: bookkeeping, flags, tables, and calls to be made.
-/

namespace Hycu
namespace Run

/-- The blocks that have been passed to a thread, but are not yet in the set of assigned blocks. -/
def Pc.inflight : Pc → List Block
  | .notify _ b => [b]
  | .insert b => [b]
  | _ => []

/-- The threads are being stopped. -/
def Pc.closing : Pc → Bool
  | .shutdown _ | .shutNotify _ | .join _ | .finished => true
  | _ => false

/-- After waiting for all blocks, and before new blocks are assigned. -/
def Pc.quiet : Pc → Bool
  | .save .config | .save .exit | .write _ .config | .write _ .exit => true
  | .newStore | .update | .shutdown _ | .shutNotify _ | .join _ | .finished => true
  | _ => false

/-- The call that is being executed is the first one in the list of calls. -/
def Pc.fits : Pc → List Cmd → Prop
  | .wait .assign, _ => False
  | .save .assign, l | .write _ .assign, l | .contains, l | .fillFinished, l | .fillReady, l | .take, l =>
    ∃ b rest, l = .assign b :: rest
  | .wait .config, l | .save .config, l | .write _ .config, l | .newStore, l | .update, l =>
    ∃ c rest, l = .config c :: rest
  | _, _ => True

/-- The blocks to be assigned before the next configuration. -/
def lead : List Cmd → List Block
  | .assign b :: l => b :: lead l
  | _ => []

/-- Blocks are assigned at most once between two configurations. -/
def Distinct : List Cmd → Prop
  | [] => True
  | .config _ :: l => Distinct l
  | .assign b :: l => b ∉ lead l ∧ Distinct l

theorem Distinct.nodup : ∀ {l : List Cmd}, Distinct l → (lead l).Nodup
  | [], _ => List.nodup_nil
  | .config _ :: _, _ => List.nodup_nil
  | .assign _ :: _, h => List.nodup_cons.2 ⟨h.1, h.2.nodup⟩

/-- The invariant. -/
structure Inv (st : State) : Prop where
  book : Book st.size (fun i => (st.thr i).opencl) (fun i => (st.thr i).jobs) st.pool st.nmbCpu st.nmbOpencl
    st.assigned st.pc.inflight
  pop : ∀ i, (st.thr i).phase = .pop → (st.thr i).queue ≠ []
  done : ∀ i, (st.thr i).phase = .done → (st.thr i).stop = true
  stop : st.pc.closing = false → ∀ i, (st.thr i).stop = false
  quiet : st.pc.quiet = true → st.assigned = []
  take : st.pc = .take → st.nmbOpencl ≠ 0 ∨ st.nmbCpu ≠ 0
  tables : ∀ i, (st.thr i).tables = st.current
  jobTables : ∀ i, i < st.size → ∀ j ∈ (st.thr i).jobs, j.tables = st.current ∧ st.current ≠ none
  distinct : Distinct st.todo
  fresh : ∀ b ∈ lead st.todo, b ∉ st.assigned ∧ b ∉ st.pc.inflight
  flFresh : ∀ b ∈ st.pc.inflight, b ∉ st.assigned
  store : lead st.todo ≠ [] → st.fileStore ≠ none ∧ st.current ≠ none
  fits : st.pc.fits st.todo
  made : st.pc = .update → ∃ f c rest, st.fileStore = some f ∧ st.todo = .config c :: rest ∧ f.config = c

theorem setThread_view {α : Type} (f : Thread → α) (st : State) (i : Nat) (t : Thread) (h : f t = f (st.thr i)) :
    (fun k => f ((st.setThread i t).thr k)) = fun k => f (st.thr k) := by
  funext k
  simp only [State.setThread]
  by_cases hk : k = i
  · subst hk; rw [Function.update_self, h]
  · rw [Function.update_of_ne hk]

theorem setThread_update {α : Type} (f : Thread → α) (st : State) (i : Nat) (t : Thread) :
    (fun k => f ((st.setThread i t).thr k)) = Function.update (fun k => f (st.thr k)) i (f t) := by
  funext k
  simp only [State.setThread]
  by_cases hk : k = i
  · subst hk; rw [Function.update_self, Function.update_self]
  · rw [Function.update_of_ne hk, Function.update_of_ne hk]

theorem setThread_cases {P : Nat → Thread → Prop} {st : State} {i : Nat} {t : Thread} (h : ∀ k, P k (st.thr k))
    (ht : P i t) : ∀ k, P k ((st.setThread i t).thr k) := by
  intro k
  simp only [State.setThread]
  by_cases hk : k = i
  · subst hk; rw [Function.update_self]; exact ht
  · rw [Function.update_of_ne hk]; exact h k

namespace Inv

variable {st : State}

/-- Change of the phase of a thread. -/
theorem thread (h : Inv st) (i : Nat) (t : Thread) (ho : t.opencl = (st.thr i).opencl)
    (hj : t.jobs = (st.thr i).jobs) (ht : t.tables = (st.thr i).tables) (hs : t.stop = (st.thr i).stop)
    (hp : t.phase = .pop → t.queue ≠ []) (hd : t.phase = .done → t.stop = true) (static : Store.Static)
    (log : List Event) : Inv { st.setThread i t with static := static, log := log } where
  book := by
    have h1 := setThread_view Thread.opencl st i t ho
    have h2 := setThread_view Thread.jobs st i t hj
    have := h.book
    rw [← h1, ← h2] at this
    exact this
  pop := setThread_cases (P := fun _ t => t.phase = .pop → t.queue ≠ []) h.pop hp
  done := setThread_cases (P := fun _ t => t.phase = .done → t.stop = true) h.done hd
  stop hc := setThread_cases (P := fun _ t => t.stop = false) (h.stop hc) (by rw [hs]; exact h.stop hc i)
  quiet := h.quiet
  take := h.take
  tables := setThread_cases (P := fun _ t => t.tables = st.current) h.tables (by rw [ht]; exact h.tables i)
  jobTables k hk j hj' := by
    have := congrFun (setThread_view Thread.jobs st i t hj) k
    rw [show ({ st.setThread i t with static := static, log := log } : State).thr k = (st.setThread i t).thr k from rfl,
      this] at hj'
    exact h.jobTables k hk j hj'
  distinct := h.distinct
  fresh := h.fresh
  flFresh := h.flFresh
  store := h.store
  fits := h.fits
  made := h.made

/-- Change of the phase and the queue of a thread. -/
theorem phase (h : Inv st) (i : Nat) (ph : Phase) (q : List Job) (hj : ph.jobs ++ q = (st.thr i).jobs)
    (hp : ph = .pop → q ≠ []) (hd : ph = .done → (st.thr i).stop = true) (static : Store.Static)
    (log : List Event) :
    Inv { st.setThread i { st.thr i with phase := ph, queue := q } with static := static, log := log } :=
  h.thread i { st.thr i with phase := ph, queue := q } rfl hj rfl rfl hp hd static log

/-- The main thread goes on. -/
theorem move (h : Inv st) (pc : Pc) (fs : FileSystem) (static : Store.Static) (f : Option FileStoreObj)
    (hf : st.fileStore ≠ none → f ≠ none)
    (h1 : pc.inflight = st.pc.inflight) (h2 : pc.closing = false → st.pc.closing = false)
    (h3 : pc.quiet = true → st.assigned = []) (h4 : pc = .take → st.nmbOpencl ≠ 0 ∨ st.nmbCpu ≠ 0)
    (h5 : pc.fits st.todo) (h6 : pc = .update → ∃ f' c rest, f = some f' ∧ st.todo = .config c :: rest ∧ f'.config = c)
    (log : List Event) :
    Inv { st with pc := pc, fs := fs, static := static, fileStore := f, log := log } where
  book := by
    have := h.book
    rw [← h1] at this
    exact this
  pop := h.pop
  done := h.done
  stop hc := h.stop (h2 hc)
  quiet := h3
  take := h4
  tables := h.tables
  jobTables := h.jobTables
  distinct := h.distinct
  fresh b hb := by
    have := h.fresh b hb
    rw [← h1] at this
    exact this
  flFresh b hb := h.flFresh b (by rw [← h1]; exact hb)
  store hl := ⟨hf (h.store hl).1, (h.store hl).2⟩
  fits := h5
  made := h6

theorem moveFs (h : Inv st) (pc : Pc) (fs : FileSystem)
    (h1 : pc.inflight = st.pc.inflight) (h2 : pc.closing = false → st.pc.closing = false)
    (h3 : pc.quiet = true → st.assigned = []) (h4 : pc = .take → st.nmbOpencl ≠ 0 ∨ st.nmbCpu ≠ 0)
    (h5 : pc.fits st.todo) (h6 : pc ≠ .update) : Inv { st with pc := pc, fs := fs } :=
  h.move pc fs st.static st.fileStore id h1 h2 h3 h4 h5 (fun h => absurd h h6) st.log

theorem movePc (h : Inv st) (pc : Pc)
    (h1 : pc.inflight = st.pc.inflight) (h2 : pc.closing = false → st.pc.closing = false)
    (h3 : pc.quiet = true → st.assigned = []) (h4 : pc = .take → st.nmbOpencl ≠ 0 ∨ st.nmbCpu ≠ 0)
    (h5 : pc.fits st.todo) (h6 : pc ≠ .update) : Inv { st with pc := pc } :=
  h.move pc st.fs st.static st.fileStore id h1 h2 h3 h4 h5 (fun h => absurd h h6) st.log

/-- Finished blocks are removed from the set of assigned blocks. -/
theorem flush (h : Inv st) (hfl : st.pc.inflight = []) (hcl : st.pc.closing = false) :
    ∃ a, eraseFinished st.pool.finished st.assigned = .ok a ∧ ∀ (pc : Pc) (log : List Event), pc.inflight = [] →
      (pc.quiet = true → a = []) → pc ≠ .take → pc.fits st.todo → pc ≠ .update →
      Inv { st with assigned := a, pool := { st.pool with finished := [] }, log := log, pc := pc } := by
  have hb := h.book
  rw [hfl] at hb
  obtain ⟨a, h1, h2, h3⟩ := hb.flushFinished
  refine ⟨a, h1, fun pc log hi hq ht hf hu => ⟨by rw [hi]; exact h3, h.pop, h.done, fun _ => h.stop hcl, hq,
    fun hp => absurd hp ht, h.tables, h.jobTables, h.distinct,
    fun b hb => ⟨fun hb' => (h.fresh b hb).1 (h2 b hb'), by rw [hi]; exact List.not_mem_nil⟩, ?_, h.store, hf,
    fun h => absurd h hu⟩⟩
  intro b hb
  rw [hi] at hb
  cases hb

theorem push (h : Inv st) (hpc : st.pc = .take) {b : Block} {rest : List Cmd} (ht : st.todo = .assign b :: rest)
    {p : ThreadPool} {i cpu ocl : Nat} (hj : (st.thr i).jobs = [])
    (hb : Book st.size (fun i => (st.thr i).opencl)
      (Function.update (fun i => (st.thr i).jobs) i [⟨b, (st.thr i).tables⟩]) p cpu ocl st.assigned [b]) :
    Inv (pushJob { st with nmbCpu := cpu, nmbOpencl := ocl, pool := p, todo := rest } i b) := by
  have hfr := h.fresh
  rw [ht] at hfr
  have hdi := h.distinct
  rw [ht] at hdi
  have hst := h.store
  rw [ht] at hst
  have hst := hst (by simp [lead])
  have hcl := h.stop (by rw [hpc]; rfl)
  have hja : (st.thr i).phase.jobs = [] ∧ (st.thr i).queue = [] := List.append_eq_nil_iff.1 hj
  have hnj : ({ st.thr i with queue := (st.thr i).queue ++ [⟨b, (st.thr i).tables⟩] } : Thread).jobs =
      [⟨b, (st.thr i).tables⟩] := by
    unfold Thread.jobs
    rw [hja.1, hja.2]
    rfl
  refine ⟨?_, ?_, ?_, ?_, ?_, ?_, ?_, ?_, hdi.2, ?_, ?_, fun _ => hst, trivial, by intro h; cases h⟩
  · rw [← hnj, ← setThread_update, ← setThread_view Thread.opencl st i
      { st.thr i with queue := (st.thr i).queue ++ [⟨b, (st.thr i).tables⟩] } rfl] at hb
    exact hb
  · refine setThread_cases (st := st) (P := fun _ t => t.phase = .pop → t.queue ≠ []) h.pop fun _ => ?_
    simp
  · exact setThread_cases (st := st) (P := fun _ t => t.phase = .done → t.stop = true) h.done (h.done i)
  · intro _
    exact setThread_cases (st := st) (P := fun _ t => t.stop = false) hcl (hcl i)
  · intro hq
    cases hq
  · intro hq
    cases hq
  · exact setThread_cases (st := st) (P := fun _ t => t.tables = st.current) h.tables (h.tables i)
  · refine setThread_cases (st := st) (P := fun k t => k < st.size → ∀ j ∈ t.jobs, j.tables = st.current ∧ st.current ≠ none)
      h.jobTables ?_
    intro _ j hj'
    rw [hnj, List.mem_singleton] at hj'
    rw [hj']
    exact ⟨h.tables i, hst.2⟩
  · intro x hx
    refine ⟨(hfr x (List.mem_cons_of_mem _ hx)).1, fun hx' => ?_⟩
    rw [List.mem_singleton.1 hx'] at hx
    exact hdi.1 hx
  · intro x hx
    rw [List.mem_singleton.1 hx]
    exact (hfr b List.mem_cons_self).1

/-- Taking an OpenCL thread does not fail. -/
theorem takeOpencl (h : Inv st) (hpc : st.pc = .take) {b : Block} {rest : List Cmd}
    (ht : st.todo = .assign b :: rest) (ho : st.nmbOpencl ≠ 0) :
    ∃ p, st.pool.assign (fun i => (st.thr i).opencl) b true = .ok p ∧ p.2 < st.size ∧ (st.thr p.2).jobs = [] ∧
      p.2 ∈ st.pool.idle ∧
      Inv (pushJob { st with nmbOpencl := u32sub st.nmbOpencl 1, pool := p.1, todo := rest } p.2 b) := by
  have hb := h.book
  rw [hpc] at hb
  have hfr := h.fresh b (by rw [ht]; exact List.mem_cons_self)
  obtain ⟨p, i, h1, h2, h3, h4, _⟩ := hb.take_opencl hfr.1 (st.thr 0).tables ho
  obtain ⟨p', i', h1', _, _, _, h5⟩ := hb.take_opencl hfr.1 (st.thr i).tables ho
  rw [h1] at h1'
  cases h1'
  exact ⟨(p, i), h1, h2, h3, h4, h.push hpc ht h3 h5⟩

/-- Taking a CPU thread does not fail. -/
theorem takeCpu (h : Inv st) (hpc : st.pc = .take) {b : Block} {rest : List Cmd}
    (ht : st.todo = .assign b :: rest) (ho : st.nmbOpencl = 0) :
    ∃ p, st.pool.assign (fun i => (st.thr i).opencl) b false = .ok p ∧ p.2 < st.size ∧ (st.thr p.2).jobs = [] ∧
      p.2 ∈ st.pool.idle ∧
      Inv (pushJob { st with nmbCpu := u32sub st.nmbCpu 1, pool := p.1, todo := rest } p.2 b) := by
  have hb := h.book
  rw [hpc] at hb
  have hfr := h.fresh b (by rw [ht]; exact List.mem_cons_self)
  have hc : st.nmbCpu ≠ 0 := (h.take hpc).resolve_left fun h => h ho
  obtain ⟨p, i, h1, h2, h3, h4, _⟩ := hb.take_cpu hfr.1 (st.thr 0).tables hc
  obtain ⟨p', i', h1', _, _, _, h5⟩ := hb.take_cpu hfr.1 (st.thr i).tables hc
  rw [h1] at h1'
  cases h1'
  exact ⟨(p, i), h1, h2, h3, h4, h.push hpc ht h3 h5⟩

/-- Reporting a block does not fail. -/
theorem report (h : Inv st) {i : Nat} (hi : i < st.size) {j : Job} (hp : (st.thr i).phase = .report j) :
    (st.thr i).queue = [] ∧ ∃ p, st.pool.finishedBlock j.block = .ok p ∧
      p = { st.pool with ready := st.pool.ready ++ [i], finished := st.pool.finished ++ [j.block],
                         busy := st.pool.busy.erase j.block } ∧
      ∀ log, Inv { st.setThread i { st.thr i with phase := .check } with pool := p, log := log } := by
  have hj : (st.thr i).jobs = [j] := by
    have hj' : (st.thr i).jobs = j :: (st.thr i).queue := by unfold Thread.jobs; rw [hp]; rfl
    rcases h.book.own i hi with ⟨h1, _⟩ | ⟨j', h1, _⟩
    · rw [hj'] at h1; cases h1
    · rw [hj'] at h1
      rw [hj', h1, (List.cons_eq_cons.1 h1).1]
  have hq : (st.thr i).queue = [] := by
    unfold Thread.jobs at hj
    rw [hp] at hj
    exact (List.cons_eq_cons.1 hj).2
  obtain ⟨p, h1, h2, h3⟩ := h.book.report hi hj
  refine ⟨hq, p, h1, h2, fun log => ⟨?_, ?_, ?_, ?_, h.quiet, h.take, ?_, ?_, h.distinct, h.fresh, h.flFresh, h.store,
    h.fits, h.made⟩⟩
  · have hnj : ({ st.thr i with phase := .check } : Thread).jobs = [] := hq
    rw [← hnj, ← setThread_update, ← setThread_view Thread.opencl st i { st.thr i with phase := .check } rfl] at h3
    exact h3
  · exact setThread_cases (P := fun _ t => t.phase = .pop → t.queue ≠ []) h.pop (by simp)
  · exact setThread_cases (P := fun _ t => t.phase = .done → t.stop = true) h.done (by simp)
  · exact fun hc => setThread_cases (P := fun _ t => t.stop = false) (h.stop hc) (h.stop hc i)
  · exact setThread_cases (P := fun _ t => t.tables = st.current) h.tables (h.tables i)
  · refine setThread_cases (P := fun k t => k < st.size → ∀ j ∈ t.jobs, j.tables = st.current ∧ st.current ≠ none)
      h.jobTables ?_
    intro _ j hj'
    rw [show ({ st.thr i with phase := .check } : Thread).jobs = [] from hq] at hj'
    cases hj'

/-- With nothing assigned all threads are without jobs. -/
theorem noJobs (h : Inv st) (hq : st.pc.quiet = true) :
    st.pool.busy = [] ∧ st.pool.finished = [] ∧ ∀ i, i < st.size → (st.thr i).jobs = [] := by
  have hb := h.book
  rw [h.quiet hq] at hb
  have hi : st.pc.inflight = [] := by
    revert hq
    cases st.pc <;> simp [Pc.quiet, Pc.inflight]
  rw [hi] at hb
  exact hb.quiet

theorem fits_some {pc : Pc} {l : List Cmd} (h : pc.fits l) (k : Cont) (hp : pc = .save k ∨ ∃ ws, pc = .write ws k) :
    (afterSave k).fits l := by
  rcases hp with rfl | ⟨ws, rfl⟩ <;> cases k <;> exact h

theorem quiet_some {pc : Pc} {a : OSet Block} (h : pc.quiet = true → a = []) (k : Cont)
    (hp : pc = .save k ∨ ∃ ws, pc = .write ws k) : (afterSave k).quiet = true → a = [] := by
  rcases hp with rfl | ⟨ws, rfl⟩ <;> cases k <;> exact h

theorem after (h : Inv st) (k : Cont) (hp : st.pc = .save k ∨ ∃ ws, st.pc = .write ws k) (static : Store.Static)
    (log : List Event) : Inv { st with static := static, pc := afterSave k, log := log } := by
  refine h.move _ st.fs static st.fileStore id ?_ ?_ (quiet_some h.quiet k hp) ?_ (fits_some h.fits k hp) ?_ log
  · rcases hp with hp | ⟨ws, hp⟩ <;> rw [hp] <;> cases k <;> rfl
  · rcases hp with hp | ⟨ws, hp⟩ <;> rw [hp] <;> cases k <;> exact fun _ => rfl
  · cases k <;> exact fun h => by cases h
  · cases k <;> exact fun h => by cases h

theorem wake_inv (h : Inv st) (i : Nat) : Inv (wake st i) := by
  unfold wake
  split
  · rename_i hp
    refine h.thread i { st.thr i with phase := .check } rfl ?_ rfl rfl (by simp) (by simp) st.static st.log
    simp [Thread.jobs, Phase.jobs, hp]
  · exact h

theorem wake_pc (st : State) (i : Nat) : (wake st i).pc = st.pc := by
  unfold wake; split <;> rfl

/-- The invariant is preserved. -/
theorem trans {env : Env} {a : Option Nat} {st' : State} (h : Inv st) (ht : Trans env st a st') : Inv st' := by
  cases ht with
  | checkDone i hi hp hs =>
    exact h.phase i .done _ (by simp [Thread.jobs, Phase.jobs, hp]) (by simp) (fun _ => hs) st.static st.log
  | checkWait i hi hp hs hq =>
    exact h.phase i .wait _ (by simp [Thread.jobs, Phase.jobs, hp]) (by simp) (by simp) st.static st.log
  | checkPop i hi hp hs hq =>
    exact h.phase i .pop _ (by simp [Thread.jobs, Phase.jobs, hp]) (fun _ => hq) (by simp) st.static st.log
  | doze i hi hp =>
    exact h.phase i .sleep _ (by simp [Thread.jobs, Phase.jobs, hp]) (by simp) (by simp) st.static st.log
  | pop i hi hp j q hq =>
    exact h.phase i (.compute j) q (by simp [Thread.jobs, Phase.jobs, hp, hq]) (by simp) (by simp) st.static _
  | compute i hi j hp tb htb m hm p hf =>
    exact h.phase i (.report j) _ (by simp [Thread.jobs, Phase.jobs, hp]) (by simp) (by simp) _ _
  | report i hi j hp p hf =>
    obtain ⟨_, p', h1, _, h2⟩ := h.report hi hp
    rw [hf] at h1
    cases h1
    exact h2 _
  | spurious i hi hp =>
    exact h.phase i .check _ (by simp [Thread.jobs, Phase.jobs, hp]) (by simp) (by simp) st.static st.log
  | mainEnd hpc ht =>
    refine h.movePc _ ?_ ?_ ?_ ?_ ?_ ?_ <;> simp [hpc, Pc.inflight, Pc.closing, Pc.quiet, Pc.fits]
  | mainConfig hpc c rest ht create v hv =>
    refine h.moveFs _ _ ?_ ?_ ?_ ?_ ?_ ?_ <;> split <;>
      simp [hpc, ht, Pc.inflight, Pc.closing, Pc.quiet, Pc.fits]
  | mainAssign hpc b rest ht now =>
    refine h.movePc _ ?_ ?_ ?_ ?_ ?_ ?_ <;> split <;>
      simp [hpc, ht, Pc.inflight, Pc.closing, Pc.quiet, Pc.fits]
  | wait k hpc a ha =>
    have hfit := h.fits
    obtain ⟨a', h1, h2⟩ := h.flush (by rw [hpc]; rfl) (by rw [hpc]; rfl)
    rw [ha] at h1
    cases h1
    rw [hpc] at hfit
    refine h2 _ _ ?_ ?_ ?_ ?_ (by split <;> simp)
    · split <;> rfl
    · split
      · rename_i ha'
        exact fun _ => ha'
      · simp [Pc.quiet]
    · split <;> simp
    · cases k
      · split <;> exact hfit
      · exact hfit.elim
      · split <;> exact hfit
  | saveNone k hpc hf => exact h.after k (Or.inl hpc) st.static st.log
  | saveLost k hpc f hf hl => exact h.after k (Or.inl hpc) ⟨[], []⟩ _
  | saveStart k hpc f hf hv d hd id' hid =>
    have hfit := h.fits
    have hq := h.quiet
    rw [hpc] at hfit hq
    refine h.move _ st.fs _ st.fileStore id ?_ ?_ ?_ ?_ ?_ (by simp) _
    · rw [hpc]; rfl
    · rw [hpc]; exact fun h => h
    · cases k <;> exact hq
    · exact fun h => by cases h
    · cases k <;> exact hfit
  | writeEnd k hpc => exact h.after k (Or.inr ⟨_, hpc⟩) st.static st.log
  | writeLost k n c ws hpc hl =>
    have hfit := h.fits
    have hq := h.quiet
    rw [hpc] at hfit hq
    refine h.movePc _ ?_ ?_ ?_ ?_ ?_ (by simp)
    · rw [hpc]; rfl
    · rw [hpc]; exact fun h => h
    · cases k <;> exact hq
    · exact fun h => by cases h
    · cases k <;> exact hfit
  | write k n c ws hpc f hf d hd =>
    have hfit := h.fits
    have hq := h.quiet
    rw [hpc] at hfit hq
    refine h.moveFs _ _ ?_ ?_ ?_ ?_ ?_ (by simp)
    · rw [hpc]; rfl
    · rw [hpc]; exact fun h => h
    · cases k <;> exact hq
    · exact fun h => by cases h
    · cases k <;> exact hfit
  | newStoreInvalid hpc c rest ht hd =>
    have hq := h.quiet
    rw [hpc] at hq
    refine h.move _ st.fs st.static _ (by simp) ?_ ?_ ?_ ?_ ?_ (fun _ => ⟨_, c, rest, rfl, ht, rfl⟩) _
    · rw [hpc]; rfl
    · rw [hpc]; exact fun h => h
    · exact hq
    · exact fun h => by cases h
    · exact ⟨c, rest, ht⟩
  | newStore hpc c rest ht d hd r hr =>
    have hq := h.quiet
    rw [hpc] at hq
    refine h.move _ st.fs st.static _ (by simp) ?_ ?_ ?_ ?_ ?_ (fun _ => ⟨_, c, rest, rfl, ht, rfl⟩) _
    · rw [hpc]; rfl
    · rw [hpc]; exact fun h => h
    · exact hq
    · exact fun h => by cases h
    · exact ⟨c, rest, ht⟩
  | update hpc c rest ht =>
    have hnj := (h.noJobs (by rw [hpc]; rfl)).2.2
    have hq := h.quiet (by rw [hpc]; rfl)
    have hb := h.book
    have hdi := h.distinct
    rw [ht] at hdi
    rw [hpc] at hb
    refine ⟨hb, h.pop, h.done, fun _ => h.stop (by rw [hpc]; rfl), fun _ => hq, (by intro hp; cases hp), fun _ => rfl,
      ?_, hdi, ?_, (by intro b hb; cases hb), ?_, trivial, by intro h; cases h⟩
    · intro i hi j hj
      rw [show ((updateStep st c rest).thr i).jobs = (st.thr i).jobs from rfl, hnj i hi] at hj
      cases hj
    · intro b _
      rw [show (updateStep st c rest).assigned = st.assigned from rfl, hq]
      exact ⟨List.not_mem_nil, List.not_mem_nil⟩
    · intro _
      obtain ⟨f, _, _, hf, _⟩ := h.made hpc
      exact ⟨by rw [show (updateStep st c rest).fileStore = st.fileStore from rfl, hf]; simp, by simp [updateStep]⟩
  | skip hpc b rest ht f hf hc =>
    have hb := h.book
    have hdi := h.distinct
    have hfr := h.fresh
    have hst := h.store
    rw [ht] at hdi hfr hst
    rw [hpc] at hb
    refine ⟨hb, h.pop, h.done, fun _ => h.stop (by rw [hpc]; rfl), (by intro hq; cases hq), (by intro hp; cases hp),
      h.tables, h.jobTables, hdi.2, fun x hx => ⟨(hfr x (List.mem_cons_of_mem _ hx)).1, List.not_mem_nil⟩,
      (by intro b hb; cases hb), fun _ => hst (by simp [lead]), trivial, by intro h; cases h⟩
  | fill hpc b rest ht f hf hc ho =>
    refine h.movePc _ ?_ ?_ ?_ ?_ ?_ ?_ <;> simp [hpc, ht, Pc.inflight, Pc.closing, Pc.quiet, Pc.fits]
  | noFill hpc b rest ht f hf hc ho =>
    refine h.movePc _ ?_ ?_ ?_ ?_ ?_ ?_ <;> simp [hpc, ht, ho, Pc.inflight, Pc.closing, Pc.quiet, Pc.fits]
  | fillFinished hpc a ha =>
    have hfit := h.fits
    obtain ⟨a', h1, h2⟩ := h.flush (by rw [hpc]; rfl) (by rw [hpc]; rfl)
    rw [ha] at h1
    cases h1
    rw [hpc] at hfit
    exact h2 _ _ rfl (by simp [Pc.quiet]) (by simp) hfit (by simp)
  | fillReady hpc =>
    have hfit := h.fits
    have hb := h.book.flushReady
    have hpi : (fillReadyStep st).pc.inflight = st.pc.inflight := by
      rw [hpc]; simp only [fillReadyStep]; split <;> rfl
    refine ⟨by rw [hpi]; exact hb, h.pop, h.done, fun _ => h.stop (by rw [hpc]; rfl), ?_, ?_,
      h.tables, h.jobTables, h.distinct, by rw [hpi]; exact h.fresh, by rw [hpi]; exact h.flFresh, h.store, ?_, ?_⟩
    · simp only [fillReadyStep]; split <;> (intro hq; cases hq)
    · simp only [fillReadyStep]
      split
      · intro hq; cases hq
      · rename_i hn
        intro _
        omega
    · rw [hpc] at hfit
      simp only [fillReadyStep]; split <;> exact hfit
    · simp only [fillReadyStep]; split <;> (intro hq; cases hq)
  | takeOpencl hpc b rest ht ho p hp =>
    obtain ⟨p', h1, _, _, _, h2⟩ := h.takeOpencl hpc ht ho
    rw [hp] at h1
    cases h1
    exact h2
  | takeCpu hpc b rest ht ho p hp =>
    obtain ⟨p', h1, _, _, _, h2⟩ := h.takeCpu hpc ht ho
    rw [hp] at h1
    cases h1
    exact h2
  | notify i b hpc =>
    refine (h.wake_inv i).movePc _ ?_ ?_ ?_ ?_ ?_ ?_ <;> simp [wake_pc, hpc, Pc.inflight, Pc.closing, Pc.quiet, Pc.fits]
  | insert b hpc =>
    have hb := h.book
    have hfr := h.fresh
    have hfl := h.flFresh
    rw [hpc] at hb hfr hfl
    refine ⟨hb.insert (hfl b List.mem_cons_self), h.pop, h.done, fun _ => h.stop (by rw [hpc]; rfl),
      (by intro hq; cases hq), (by intro hp; cases hp), h.tables, h.jobTables, h.distinct, fun x hx => ⟨?_, List.not_mem_nil⟩,
      (by intro b hb; cases hb), h.store, trivial, by intro h; cases h⟩
    rw [OSet.mem_insert]
    rintro (rfl | hx')
    · exact (hfr x hx).2 List.mem_cons_self
    · exact (hfr x hx).1 hx'
  | shutdown i hpc hi =>
    have hb := h.book
    rw [hpc] at hb
    rw [← setThread_view Thread.opencl st i { st.thr i with stop := true } rfl,
      ← setThread_view Thread.jobs st i { st.thr i with stop := true } rfl] at hb
    refine ⟨hb, ?_, ?_, (by intro hc; cases hc), fun _ => h.quiet (by rw [hpc]; rfl), (by intro hp; cases hp), ?_, ?_,
      h.distinct, ?_, (by intro b hb; cases hb), h.store, trivial, by intro h; cases h⟩
    · exact setThread_cases (st := st) (P := fun _ t => t.phase = .pop → t.queue ≠ []) h.pop (h.pop i)
    · exact setThread_cases (st := st) (P := fun _ t => t.phase = .done → t.stop = true) h.done (fun _ => rfl)
    · exact setThread_cases (st := st) (P := fun _ t => t.tables = st.current) h.tables (h.tables i)
    · exact setThread_cases (st := st)
        (P := fun k t => k < st.size → ∀ j ∈ t.jobs, j.tables = st.current ∧ st.current ≠ none) h.jobTables
        (h.jobTables i)
    · exact fun x hx => ⟨(h.fresh x hx).1, List.not_mem_nil⟩
  | shutdownEnd i hpc hi =>
    have hq := h.quiet
    rw [hpc] at hq
    refine h.movePc _ ?_ ?_ (fun _ => hq rfl) ?_ ?_ ?_ <;> simp [hpc, Pc.inflight, Pc.closing, Pc.fits]
  | shutNotify i hpc =>
    have hq := (h.wake_inv i).quiet
    rw [wake_pc, hpc] at hq
    refine (h.wake_inv i).movePc _ ?_ ?_ (fun _ => hq rfl) ?_ ?_ ?_ <;> simp [wake_pc, hpc, Pc.inflight, Pc.closing, Pc.fits]
  | join i hpc hp =>
    have hq := h.quiet
    rw [hpc] at hq
    refine h.movePc _ ?_ ?_ (fun _ => hq rfl) ?_ ?_ ?_ <;> simp [hpc, Pc.inflight, Pc.closing, Pc.fits]

/-- The invariant holds in the initial state. -/
theorem init {kinds : List Bool} (hk : kinds.length < 4294967296) (fs : FileSystem) {todo : List Cmd}
    (hd : Distinct todo) (hl : lead todo = []) : Inv (initial kinds fs todo) where
  book := ⟨hk, by simp [initial], ⟨[], [], rfl, by simp, by simp, rfl, rfl⟩, List.Pairwise.nil, List.Pairwise.nil,
    fun i _ => Or.inl ⟨rfl, by simp [initial]⟩, by simp [initial, Pc.inflight]⟩
  pop i h := by cases h
  done i h := by cases h
  stop _ i := rfl
  quiet _ := rfl
  take h := by cases h
  tables i := rfl
  jobTables i _ j hj := by cases hj
  distinct := hd
  fresh b hb := by
    rw [show (initial kinds fs todo).todo = todo from rfl, hl] at hb
    cases hb
  flFresh b hb := by cases hb
  store h := absurd hl h
  fits := trivial
  made h := by cases h

theorem reachable {env : Env} {st₀ : State} (h : Inv st₀) (hr : Reachable env st₀ st) : Inv st := by
  induction hr with
  | refl => exact h
  | step l _ hs ih => exact ih.trans (step_trans hs)

end Inv
end Run
end Hycu
