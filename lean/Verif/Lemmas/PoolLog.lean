import Verif.Lemmas.PoolInv
import Verif.Lemmas.StoreTally
import Verif.Spec.Run

/-!
The events of a run.
-/

namespace Hycu

theorem Store.addEntry_ok {m m' : StoreMap} {l : List (Key × Int)} (h : Tally m l) {k : Key} {z : Int}
    (ha : addEntry m k z = .ok m') : Tally m' (l ++ [(k, z)]) := by
  have := h.set k z
  unfold addEntry at ha
  rw [h.find?] at ha
  by_cases hk : k ∈ l.map Prod.fst
  · rw [if_pos hk] at ha
    cases ha
    exact this
  · rw [if_neg hk] at ha
    obtain ⟨w, hw, ha⟩ := Res.bind_eq_ok.1 ha
    cases ha
    rw [(copyCount_eq_ok.1 hw).2]
    rwa [total_of_not_mem hk, Int.zero_add] at this

/-- If adding entries succeeds, it is exact. -/
theorem Store.addEntries_ok : ∀ (l' : List (Key × Int)) {m m' : StoreMap} {l : List (Key × Int)}, Tally m l →
    l'.foldlM (fun m e => addEntry m e.1 e.2) m = .ok m' → Tally m' (l ++ l')
  | [], m, m', l, h, ha => by
    cases ha
    rwa [List.append_nil]
  | e :: l', m, m', l, h, ha => by
    rw [List.foldlM_cons] at ha
    obtain ⟨m1, h1, ha⟩ := Res.bind_eq_ok.1 ha
    have := Store.addEntries_ok l' (Store.addEntry_ok h h1) ha
    rwa [List.append_assoc] at this

namespace Run

theorem setThread_cases' {P : Nat → Thread → Prop} {st : State} {i : Nat} {t : Thread}
    (h : ∀ k, k ≠ i → P k (st.thr k)) (ht : P i t) : ∀ k, P k ((st.setThread i t).thr k) := by
  intro k
  simp only [State.setThread]
  by_cases hk : k = i
  · subst hk; rw [Function.update_self]; exact ht
  · rw [Function.update_of_ne hk]; exact h k hk

/-- The job of which the results are not yet flushed. -/
def Phase.computing : Phase → List Job
  | .compute j => [j]
  | _ => []

/-- The job that is not yet reported. -/
def Phase.reporting : Phase → List Job
  | .report j => [j]
  | _ => []

/-- The events of a thread fit to its state. -/
def ThreadLog (log : List Event) (i : Nat) (t : Thread) : Prop := ∀ j,
  (assignedJobs log).count (i, j) = (takenJobs log).count (i, j) + t.queue.count j ∧
  (takenJobs log).count (i, j) = (flushedJobs log).count (i, j) + t.phase.computing.count j ∧
  (flushedJobs log).count (i, j) = (reportedJobs log).count (i, j) + t.phase.reporting.count j

/-- Events fit to the states of the threads. -/
def CountInv (st : State) : Prop := ∀ i, ThreadLog st.log i (st.thr i)

theorem filterMap_erased {α : Type} (f : Event → Option α) (l : List Job) (log : List Event)
    (h : ∀ j, f (.erased j) = none) : ((l.map Event.erased).reverse ++ log).filterMap f = log.filterMap f := by
  rw [List.filterMap_append, List.filterMap_eq_nil_iff.2, List.nil_append]
  intro e he
  obtain ⟨j, _, rfl⟩ := List.mem_map.1 (List.mem_reverse.1 he)
  exact h j

theorem erased_eq (bs : List Block) (c : Option Tables) :
    (bs.map fun b => Event.erased ⟨b, c⟩) = (bs.map fun b => (⟨b, c⟩ : Job)).map Event.erased := by
  rw [List.map_map]; rfl

theorem ThreadLog.phase {log : List Event} {i : Nat} {t : Thread} (h : ThreadLog log i t) (ph : Phase)
    (h1 : ph.computing = t.phase.computing) (h2 : ph.reporting = t.phase.reporting) :
    ThreadLog log i { t with phase := ph } := by
  intro j
  have := h j
  rw [← h1, ← h2] at this
  exact this

theorem ThreadLog.erased {log : List Event} {i : Nat} {t : Thread} (h : ThreadLog log i t) (bs : List Block)
    (c : Option Tables) : ThreadLog ((bs.map fun b => Event.erased ⟨b, c⟩).reverse ++ log) i t := by
  intro j
  rw [erased_eq]
  simp only [assignedJobs, takenJobs, flushedJobs, reportedJobs]
  rw [filterMap_erased _ _ _ fun _ => rfl, filterMap_erased _ _ _ fun _ => rfl, filterMap_erased _ _ _ fun _ => rfl,
    filterMap_erased _ _ _ fun _ => rfl]
  exact h j

theorem count_pair_ne {i k : Nat} (h : k ≠ i) (j j' : Job) (l : List (Nat × Job)) :
    ((i, j') :: l).count (k, j) = l.count (k, j) := by
  rw [List.count_cons_of_ne]
  intro he
  exact h (congrArg Prod.fst he).symm

theorem count_pair (i : Nat) (j j' : Job) (l : List (Nat × Job)) :
    ((i, j') :: l).count (i, j) = l.count (i, j) + [j'].count j := by
  rw [List.count_cons, List.count_singleton]
  simp

theorem CountInv.wake {st : State} (h : CountInv st) (i : Nat) : CountInv (wake st i) := by
  unfold Run.wake
  split
  · rename_i hp
    exact setThread_cases h ((h i).phase .check (by rw [hp]; rfl) (by rw [hp]; rfl))
  · exact h

theorem CountInv.push {st : State} (h : CountInv st) (i : Nat) (b : Block) : CountInv (pushJob st i b) := by
  refine setThread_cases' (fun k hk j => ?_) fun j => ?_
  · rw [show assignedJobs (pushJob st i b).log = (i, ⟨b, (st.thr i).tables⟩) :: assignedJobs st.log from rfl,
      count_pair_ne hk]
    exact h k j
  · rw [show assignedJobs (pushJob st i b).log = (i, ⟨b, (st.thr i).tables⟩) :: assignedJobs st.log from rfl,
      count_pair]
    simp only [List.count_append]
    have := h i j
    refine ⟨?_, this.2⟩
    rw [this.1]
    exact Nat.add_assoc _ _ _

theorem CountInv.trans {env : Env} {a : Option Nat} {st st' : State} (h : CountInv st) (ht : Trans env st a st') :
    CountInv st' := by
  cases ht with
  | checkDone i hi hp hs => exact setThread_cases h ((h i).phase .done (by rw [hp]; rfl) (by rw [hp]; rfl))
  | checkWait i hi hp hs hq => exact setThread_cases h ((h i).phase .wait (by rw [hp]; rfl) (by rw [hp]; rfl))
  | checkPop i hi hp hs hq => exact setThread_cases h ((h i).phase .pop (by rw [hp]; rfl) (by rw [hp]; rfl))
  | doze i hi hp => exact setThread_cases h ((h i).phase .sleep (by rw [hp]; rfl) (by rw [hp]; rfl))
  | pop i hi hp j q hq =>
    refine setThread_cases' (st := st) (P := fun k t => ThreadLog (.taken i j :: st.log) k t) (fun k hk j' => ?_)
      fun j' => ?_
    · rw [show takenJobs (.taken i j :: st.log) = (i, j) :: takenJobs st.log from rfl, count_pair_ne hk]
      exact h k j'
    · rw [show takenJobs (.taken i j :: st.log) = (i, j) :: takenJobs st.log from rfl, count_pair]
      have := h i j'
      rw [hp, hq] at this
      refine ⟨?_, ?_, this.2.2⟩
      · have h1 := this.1
        rw [List.count_cons] at h1
        rw [show assignedJobs (.taken i j :: st.log) = assignedJobs st.log from rfl, h1, List.count_singleton]
        exact (Nat.add_assoc _ _ _ ▸ Nat.add_right_comm _ _ _)
      · exact congrArg (· + [j].count j') this.2.1
  | compute i hi j hp tb htb m hm p hf =>
    refine setThread_cases' (st := st) (P := fun k t => ThreadLog (.flushed i j :: st.log) k t) (fun k hk j' => ?_)
      fun j' => ?_
    · rw [show flushedJobs (.flushed i j :: st.log) = (i, j) :: flushedJobs st.log from rfl, count_pair_ne hk]
      exact h k j'
    · rw [show flushedJobs (.flushed i j :: st.log) = (i, j) :: flushedJobs st.log from rfl, count_pair]
      have := h i j'
      rw [hp] at this
      exact ⟨this.1, this.2.1, congrArg (· + [j].count j') this.2.2⟩
  | report i hi j hp p hf =>
    refine setThread_cases' (st := st) (P := fun k t => ThreadLog (.reported i j :: st.log) k t) (fun k hk j' => ?_)
      fun j' => ?_
    · rw [show reportedJobs (.reported i j :: st.log) = (i, j) :: reportedJobs st.log from rfl, count_pair_ne hk]
      exact h k j'
    · rw [show reportedJobs (.reported i j :: st.log) = (i, j) :: reportedJobs st.log from rfl, count_pair]
      have := h i j'
      rw [hp] at this
      exact ⟨this.1, this.2.1, this.2.2⟩
  | spurious i hi hp => exact setThread_cases h ((h i).phase .check (by rw [hp]; rfl) (by rw [hp]; rfl))
  | wait k hpc a ha => exact fun i => (h i).erased _ _
  | fillFinished hpc a ha => exact fun i => (h i).erased _ _
  | takeOpencl hpc b rest ht ho p hp =>
    exact CountInv.push (st := { st with nmbOpencl := u32sub st.nmbOpencl 1, pool := p.1, todo := rest }) h _ _
  | takeCpu hpc b rest ht ho p hp =>
    exact CountInv.push (st := { st with nmbCpu := u32sub st.nmbCpu 1, pool := p.1, todo := rest }) h _ _
  | notify i b hpc => exact h.wake i
  | shutdown i hpc hi => exact setThread_cases (st := st) h (h i)
  | shutNotify i hpc => exact h.wake i
  | _ => exact h

theorem CountInv.init (kinds : List Bool) (fs : FileSystem) (todo : List Cmd) : CountInv (initial kinds fs todo) :=
  fun _ _ => ⟨rfl, rfl, rfl⟩

/-- No job is assigned twice. -/
structure OnceInv (st : State) : Prop where
  nodup : ((assignedJobs st.log).map Prod.snd).Nodup
  serials : ∀ e ∈ assignedJobs st.log, ∃ tb, e.2.tables = some tb ∧ tb.serial < st.serial
  cur : ∀ tb, st.current = some tb → tb.serial < st.serial
  fresh : ∀ b ∈ lead st.todo, ∀ i, (i, ⟨b, st.current⟩) ∉ assignedJobs st.log

theorem OnceInv.congr {st st' : State} (h : OnceInv st) (h1 : assignedJobs st'.log = assignedJobs st.log)
    (h2 : st'.serial = st.serial) (h3 : st'.current = st.current) (h4 : lead st'.todo = lead st.todo) :
    OnceInv st' := by
  refine ⟨by rw [h1]; exact h.nodup, by rw [h1, h2]; exact h.serials, by rw [h2, h3]; exact h.cur, ?_⟩
  rw [h1, h3, h4]
  exact h.fresh

theorem wake_log (st : State) (i : Nat) : (wake st i).log = st.log := by unfold wake; split <;> rfl
theorem wake_serial (st : State) (i : Nat) : (wake st i).serial = st.serial := by unfold wake; split <;> rfl
theorem wake_current (st : State) (i : Nat) : (wake st i).current = st.current := by unfold wake; split <;> rfl
theorem wake_todo (st : State) (i : Nat) : (wake st i).todo = st.todo := by unfold wake; split <;> rfl
theorem wake_pool (st : State) (i : Nat) : (wake st i).pool = st.pool := by unfold wake; split <;> rfl
theorem wake_static (st : State) (i : Nat) : (wake st i).static = st.static := by unfold wake; split <;> rfl
theorem wake_fileStore (st : State) (i : Nat) : (wake st i).fileStore = st.fileStore := by unfold wake; split <;> rfl
theorem wake_fs (st : State) (i : Nat) : (wake st i).fs = st.fs := by unfold wake; split <;> rfl
theorem wake_size (st : State) (i : Nat) : (wake st i).size = st.size := by unfold wake; split <;> rfl

theorem OnceInv.push {st st' : State} (h : OnceInv st) (hi : Inv st) {b : Block} {rest : List Cmd}
    (ht : st.todo = .assign b :: rest) (i : Nat) (h1 : st'.log = st.log) (h2 : st'.serial = st.serial)
    (h3 : st'.current = st.current) (h4 : st'.todo = rest) (h5 : st'.thr = st.thr) : OnceInv (pushJob st' i b) := by
  have hb : b ∈ lead st.todo := by rw [ht]; exact List.mem_cons_self
  have hne : lead st.todo ≠ [] := List.ne_nil_of_mem hb
  have hcur := (hi.store hne).2
  have hdi := hi.distinct
  rw [ht] at hdi
  have hlog : assignedJobs (pushJob st' i b).log = (i, ⟨b, st.current⟩) :: assignedJobs st.log := by
    rw [show (pushJob st' i b).log = .assigned i ⟨b, (st'.thr i).tables⟩ :: st'.log from rfl, h1, h5, hi.tables i]
    rfl
  refine ⟨?_, ?_, ?_, ?_⟩
  · rw [hlog]
    refine List.nodup_cons.2 ⟨fun hm => ?_, h.nodup⟩
    obtain ⟨⟨k, j⟩, he, rfl⟩ := List.mem_map.1 hm
    exact h.fresh b hb k he
  · rw [hlog, show (pushJob st' i b).serial = st.serial from h2]
    intro e he
    rcases List.mem_cons.1 he with rfl | he
    · obtain ⟨tb, htb⟩ := Option.ne_none_iff_exists'.1 hcur
      exact ⟨tb, htb, h.cur tb htb⟩
    · exact h.serials e he
  · rw [show (pushJob st' i b).serial = st.serial from h2, show (pushJob st' i b).current = st.current from h3]
    exact h.cur
  · rw [hlog, show (pushJob st' i b).current = st.current from h3, show (pushJob st' i b).todo = rest from h4]
    intro x hx k hk
    rcases List.mem_cons.1 hk with hk | hk
    · cases hk
      exact hdi.1 hx
    · exact h.fresh x (by rw [ht]; exact List.mem_cons_of_mem _ hx) k hk

theorem assignedJobs_erased (bs : List Block) (c : Option Tables) (log : List Event) :
    assignedJobs ((bs.map fun b => Event.erased ⟨b, c⟩).reverse ++ log) = assignedJobs log := by
  rw [erased_eq]
  exact filterMap_erased _ _ _ fun _ => rfl

theorem OnceInv.trans {env : Env} {a : Option Nat} {st st' : State} (h : OnceInv st) (hi : Inv st) (ht : Trans env st a st') :
    OnceInv st' := by
  cases ht with
  | wait k hpc a ha => exact h.congr (assignedJobs_erased _ _ _) rfl rfl rfl
  | fillFinished hpc a ha => exact h.congr (assignedJobs_erased _ _ _) rfl rfl rfl
  | update hpc c rest ht =>
    refine ⟨h.nodup, ?_, ?_, ?_⟩
    · intro e he
      obtain ⟨tb, h1, h2⟩ := h.serials e he
      exact ⟨tb, h1, Nat.lt_succ_of_lt h2⟩
    · intro tb htb
      cases htb
      exact Nat.lt_succ_self _
    · intro b _ i hm
      obtain ⟨tb, h1, h2⟩ := h.serials _ hm
      cases h1
      exact Nat.lt_irrefl _ h2
  | skip hpc b rest ht f hf hc =>
    refine ⟨h.nodup, h.serials, h.cur, fun x hx => h.fresh x ?_⟩
    rw [ht]
    exact List.mem_cons_of_mem _ hx
  | takeOpencl hpc b rest ht ho p hp => exact h.push hi ht _ rfl rfl rfl rfl rfl
  | takeCpu hpc b rest ht ho p hp => exact h.push hi ht _ rfl rfl rfl rfl rfl
  | notify i b hpc =>
    exact h.congr (congrArg assignedJobs (wake_log st i)) (wake_serial st i) (wake_current st i)
      (congrArg lead (wake_todo st i))
  | shutNotify i hpc =>
    exact h.congr (congrArg assignedJobs (wake_log st i)) (wake_serial st i) (wake_current st i)
      (congrArg lead (wake_todo st i))
  | _ => exact h.congr rfl rfl rfl rfl

theorem OnceInv.init (kinds : List Bool) (fs : FileSystem) (todo : List Cmd) : OnceInv (initial kinds fs todo) :=
  ⟨List.nodup_nil, (by intro e he; cases he), (by intro tb h; cases h), by intro b _ i h; cases h⟩

/-- Reported jobs are removed from the set of assigned blocks once. -/
def ErasedInv (st : State) : Prop :=
  ((reportedJobs st.log).map Prod.snd).Perm (erasedJobs st.log ++ st.pool.finished.map fun b => ⟨b, st.current⟩)

theorem reportedJobs_erased (bs : List Block) (c : Option Tables) (log : List Event) :
    reportedJobs ((bs.map fun b => Event.erased ⟨b, c⟩).reverse ++ log) = reportedJobs log := by
  rw [erased_eq]
  exact filterMap_erased _ _ _ fun _ => rfl

theorem erasedJobs_erased (bs : List Block) (c : Option Tables) (log : List Event) :
    erasedJobs ((bs.map fun b => Event.erased ⟨b, c⟩).reverse ++ log) =
      (bs.map fun b => (⟨b, c⟩ : Job)).reverse ++ erasedJobs log := by
  rw [erased_eq]
  unfold erasedJobs
  rw [List.filterMap_append]
  congr 1
  rw [← List.map_reverse, List.filterMap_map]
  exact List.filterMap_some

theorem ErasedInv.flush {st : State} (h : ErasedInv st) :
    ((reportedJobs ((st.pool.finished.map fun b => Event.erased ⟨b, st.current⟩).reverse ++ st.log)).map
      Prod.snd).Perm
    (erasedJobs ((st.pool.finished.map fun b => Event.erased ⟨b, st.current⟩).reverse ++ st.log) ++
      ([] : List Block).map fun b => ⟨b, st.current⟩) := by
  rw [reportedJobs_erased, erasedJobs_erased, List.map_nil, List.append_nil]
  refine h.trans (List.perm_append_comm.trans ?_)
  exact List.Perm.append_right _ (List.reverse_perm _).symm

theorem assign_finished {oc : Nat → Bool} {p : ThreadPool} {b : Block} {o : Bool} {q : ThreadPool × Nat}
    (h : p.assign oc b o = .ok q) : q.1.finished = p.finished := by
  unfold ThreadPool.assign at h
  split at h
  · cases h
  · split at h
    · cases h
      rfl
    · cases h

theorem ErasedInv.trans {env : Env} {a : Option Nat} {st st' : State} (h : ErasedInv st) (hi : Inv st) (ht : Trans env st a st') :
    ErasedInv st' := by
  cases ht with
  | report i hs j hp p hf =>
    obtain ⟨_, p', h1, h2, _⟩ := hi.report hs hp
    rw [hf] at h1
    cases h1
    have hj := (hi.jobTables i hs j (by unfold Thread.jobs; rw [hp]; exact List.mem_cons_self)).1
    unfold ErasedInv
    simp only [h2, List.map_append, List.map_cons, List.map_nil]
    rw [show reportedJobs (.reported i j :: st.log) = (i, j) :: reportedJobs st.log from rfl, List.map_cons,
      ← List.append_assoc]
    refine List.Perm.trans ?_ (List.perm_append_singleton _ _).symm
    rw [show (st.setThread i { st.thr i with phase := .check }).current = st.current from rfl, ← hj]
    unfold ErasedInv at h
    rw [← hj] at h
    exact List.Perm.cons _ h
  | wait k hpc a ha => exact h.flush
  | fillFinished hpc a ha => exact h.flush
  | update hpc c rest ht =>
    have hf := (hi.noJobs (by rw [hpc]; rfl)).2.1
    unfold ErasedInv at h ⊢
    rw [hf] at h
    rw [show (updateStep st c rest).pool = st.pool from rfl, hf]
    exact h
  | takeOpencl hpc b rest ht ho p hp =>
    unfold ErasedInv at h ⊢
    rw [← assign_finished hp] at h
    exact h
  | takeCpu hpc b rest ht ho p hp =>
    unfold ErasedInv at h ⊢
    rw [← assign_finished hp] at h
    exact h
  | notify i b hpc =>
    unfold ErasedInv at h ⊢
    simp only [wake_log, wake_pool, wake_current]
    exact h
  | shutNotify i hpc =>
    unfold ErasedInv at h ⊢
    simp only [wake_log, wake_pool, wake_current]
    exact h
  | _ => exact h

theorem ErasedInv.init (kinds : List Bool) (fs : FileSystem) (todo : List Cmd) : ErasedInv (initial kinds fs todo) :=
  List.Perm.refl _

/-- Tables of assigned jobs. -/
structure TableInv (st : State) : Prop where
  last : lastConfig st.log = st.current
  asg : ∀ i j l, (.assigned i j :: l) <:+ st.log → j.tables = lastConfig l ∧ j.tables ≠ none

theorem TableInv.cons {st st' : State} (h : TableInv st) {e : Event} (he : st'.log = e :: st.log)
    (hc : st'.current = st.current) (h1 : ∀ t, e ≠ .config t)
    (h2 : ∀ i j, e = .assigned i j → j.tables = st.current ∧ j.tables ≠ none) : TableInv st' := by
  refine ⟨?_, ?_⟩
  · rw [he, hc, ← h.last]
    cases e with
    | config t => exact absurd rfl (h1 t)
    | _ => rfl
  · rw [he]
    intro i j l hl
    rcases List.suffix_cons_iff.1 hl with hl | hl
    · cases hl
      rw [h.last]
      exact h2 i j rfl
    · exact h.asg i j l hl

theorem lastConfig_erased (bs : List Block) (c : Option Tables) (log : List Event) :
    lastConfig ((bs.map fun b => Event.erased ⟨b, c⟩).reverse ++ log) = lastConfig log := by
  have : ∀ l : List Event, (∀ e ∈ l, ∃ j, e = .erased j) → lastConfig (l ++ log) = lastConfig log := by
    intro l
    induction l with
    | nil => intro _; rfl
    | cons e l ih =>
      intro h
      obtain ⟨j, rfl⟩ := h e List.mem_cons_self
      exact ih fun e he => h e (List.mem_cons_of_mem _ he)
  refine this _ fun e he => ?_
  obtain ⟨b, _, rfl⟩ := List.mem_map.1 (List.mem_reverse.1 he)
  exact ⟨_, rfl⟩

/-- Suffixes that do not begin with a removal of a block. -/
theorem suffix_erased {x : Event} {l log : List Event} (bs : List Block) (c : Option Tables)
    (hx : ∀ j, x ≠ .erased j) (h : (x :: l) <:+ (bs.map fun b => Event.erased ⟨b, c⟩).reverse ++ log) :
    (x :: l) <:+ log := by
  have : ∀ r : List Event, (∀ e ∈ r, ∃ j, e = .erased j) → (x :: l) <:+ r ++ log → (x :: l) <:+ log := by
    intro r
    induction r with
    | nil => intro _ h; exact h
    | cons e r ih =>
      intro hr h
      rcases List.suffix_cons_iff.1 h with h | h
      · obtain ⟨j, rfl⟩ := hr e List.mem_cons_self
        cases h
        exact absurd rfl (hx j)
      · exact ih (fun e he => hr e (List.mem_cons_of_mem _ he)) h
  refine this _ (fun e he => ?_) h
  obtain ⟨b, _, rfl⟩ := List.mem_map.1 (List.mem_reverse.1 he)
  exact ⟨_, rfl⟩

theorem TableInv.flush {st : State} (h : TableInv st) :
    lastConfig ((st.pool.finished.map fun b => Event.erased ⟨b, st.current⟩).reverse ++ st.log) = st.current ∧
    ∀ i j l, (.assigned i j :: l) <:+ (st.pool.finished.map fun b => Event.erased ⟨b, st.current⟩).reverse ++ st.log →
      j.tables = lastConfig l ∧ j.tables ≠ none :=
  ⟨by rw [lastConfig_erased, h.last], fun i j l hl => h.asg i j l (suffix_erased _ _ (by simp) hl)⟩

theorem TableInv.trans {env : Env} {a : Option Nat} {st st' : State} (h : TableInv st) (hi : Inv st) (ht : Trans env st a st') :
    TableInv st' := by
  cases ht with
  | pop i hi hp j q hq => exact h.cons rfl rfl (by simp) (by simp)
  | compute i hi j hp tb htb m hm p hf => exact h.cons rfl rfl (by simp) (by simp)
  | report i hi j hp p hf => exact h.cons rfl rfl (by simp) (by simp)
  | saveLost k hpc f hf hl => exact h.cons rfl rfl (by simp) (by simp)
  | saveStart k hpc f hf hv d hd id' hid => exact h.cons rfl rfl (by simp) (by simp)
  | wait k hpc a ha => exact ⟨h.flush.1, h.flush.2⟩
  | fillFinished hpc a ha => exact ⟨h.flush.1, h.flush.2⟩
  | update hpc c rest ht =>
    refine ⟨rfl, fun i j l hl => ?_⟩
    rcases List.suffix_cons_iff.1 hl with hl | hl
    · cases hl
    · exact h.asg i j l hl
  | takeOpencl hpc b rest ht ho p hp =>
    refine h.cons (e := .assigned p.2 ⟨b, (st.thr p.2).tables⟩) rfl rfl (by simp) ?_
    intro i j he
    cases he
    have := (hi.store (by rw [ht]; simp [lead])).2
    exact ⟨hi.tables _, by rw [hi.tables]; exact this⟩
  | takeCpu hpc b rest ht ho p hp =>
    refine h.cons (e := .assigned p.2 ⟨b, (st.thr p.2).tables⟩) rfl rfl (by simp) ?_
    intro i j he
    cases he
    have := (hi.store (by rw [ht]; simp [lead])).2
    exact ⟨hi.tables _, by rw [hi.tables]; exact this⟩
  | notify i b hpc => exact ⟨by simp only [wake_log, wake_current]; exact h.last, by simp only [wake_log]; exact h.asg⟩
  | shutNotify i hpc => exact ⟨by simp only [wake_log, wake_current]; exact h.last, by simp only [wake_log]; exact h.asg⟩
  | _ => exact ⟨h.last, h.asg⟩

theorem TableInv.init (kinds : List Bool) (fs : FileSystem) (todo : List Cmd) : TableInv (initial kinds fs todo) :=
  ⟨rfl, fun i j l hl => by cases List.suffix_nil.1 hl⟩

/-- The static store is empty, and stays so until blocks are assigned. -/
def Pc.clean : Pc → Bool
  | .write _ .config | .write _ .exit => true
  | .newStore | .update | .shutdown _ | .shutNotify _ | .join _ | .finished => true
  | _ => false

theorem Pc.clean_quiet {pc : Pc} (h : pc.clean = true) : pc.quiet = true := by
  cases pc with
  | write ws k => cases k <;> exact h
  | _ => first | rfl | cases h

/-- The static store and saves. -/
structure PendInv (env : Env) (st : State) : Prop where
  tables : ∀ j ∈ pending st.log, j.tables = st.current ∧ st.current ≠ none
  clean : st.pc.clean = true → pending st.log = []
  gathers : Gathers env (pending st.log) st.static
  obj : ∀ tb, st.current = some tb → ∃ f, st.fileStore = some f ∧ (st.pc ≠ .update → f.config = tb.cfg)
  cur : st.fileStore ≠ none → st.pc ≠ .update → st.current ≠ none
  saves : ∀ p s l, (.saved p s :: l) <:+ st.log → ∃ tb, lastConfig l = some tb ∧
    (∀ q, p = some q → q = tb.cfg.resultPath) ∧ (∀ j ∈ pending l, j.tables = some tb) ∧ Gathers env (pending l) s

theorem Gathers.nil (env : Env) : Gathers env [] ⟨[], []⟩ :=
  ⟨List.Pairwise.nil, by simp, [], .nil, Tally.nil⟩

theorem Gathers.add {env : Env} {js : List Job} {s : Store.Static} (h : Gathers env js s) {j : Job} {tb : Tables}
    (ht : j.tables = some tb) {m : StoreMap} (hm : env.compute tb.cfg j.block = .ok m) {p : Store.Static × StoreMap}
    (hf : Store.flushToStatic s m j.block = .ok p) : Gathers env (j :: js) p.1 := by
  obtain ⟨ms, h1, h2⟩ := h.results
  unfold Store.flushToStatic at hf
  obtain ⟨m', h3, hf⟩ := Res.bind_eq_ok.1 hf
  cases hf
  refine ⟨OSet.sorted_insert h.sorted _, fun b => ?_, m :: ms, .cons ⟨tb, ht, hm⟩ h1, ?_⟩
  · rw [OSet.mem_insert, h.mem]
    simp only [List.mem_cons, exists_eq_or_imp]
    exact or_congr eq_comm Iff.rfl
  · refine (Store.addEntries_ok m h2 h3).perm ?_
    rw [List.flatten_cons]
    exact List.perm_append_comm

/-- Change of nothing but the program counter and the files. -/
theorem PendInv.move {env : Env} {st st' : State} (h : PendInv env st) (h1 : st'.log = st.log)
    (h2 : st'.current = st.current) (h3 : st'.static = st.static) (h4 : st'.fileStore = st.fileStore)
    (h5 : st'.pc.clean = true → pending st.log = []) (h6 : st.pc ≠ .update) :
    PendInv env st' where
  tables := by rw [h1, h2]; exact h.tables
  clean := by rw [h1]; exact h5
  gathers := by rw [h1, h3]; exact h.gathers
  obj := by
    rw [h2, h4]
    intro tb htb
    obtain ⟨f, hf, hc⟩ := h.obj tb htb
    exact ⟨f, hf, fun _ => hc h6⟩
  cur := by rw [h2, h4]; exact fun h' _ => h.cur h' h6
  saves := by rw [h1]; exact h.saves

/-- A step of a thread that does not flush. -/
theorem PendInv.stay {env : Env} {st st' : State} (h : PendInv env st) (h0 : pending st'.log = pending st.log)
    (h1 : ∀ p s l, (.saved p s :: l) <:+ st'.log → (.saved p s :: l) <:+ st.log)
    (h2 : st'.current = st.current) (h3 : st'.static = st.static) (h4 : st'.fileStore = st.fileStore)
    (h5 : st'.pc = st.pc) : PendInv env st' where
  tables := by rw [h0, h2]; exact h.tables
  clean := by rw [h0, h5]; exact h.clean
  gathers := by rw [h0, h3]; exact h.gathers
  obj := by rw [h2, h4, h5]; exact h.obj
  cur := by rw [h2, h4, h5]; exact h.cur
  saves := fun p s l hl => h.saves p s l (h1 p s l hl)

theorem pending_erased (bs : List Block) (c : Option Tables) (log : List Event) :
    pending ((bs.map fun b => Event.erased ⟨b, c⟩).reverse ++ log) = pending log := by
  have : ∀ l : List Event, (∀ e ∈ l, ∃ j, e = .erased j) → pending (l ++ log) = pending log := by
    intro l
    induction l with
    | nil => intro _; rfl
    | cons e l ih =>
      intro h
      obtain ⟨j, rfl⟩ := h e List.mem_cons_self
      exact ih fun e he => h e (List.mem_cons_of_mem _ he)
  refine this _ fun e he => ?_
  obtain ⟨b, _, rfl⟩ := List.mem_map.1 (List.mem_reverse.1 he)
  exact ⟨_, rfl⟩

theorem PendInv.flush {env : Env} {st st' : State} (h : PendInv env st)
    (h1 : st'.log = (st.pool.finished.map fun b => Event.erased ⟨b, st.current⟩).reverse ++ st.log)
    (h2 : st'.current = st.current) (h3 : st'.static = st.static) (h4 : st'.fileStore = st.fileStore)
    (h5 : st'.pc.clean = false) (h6 : st.pc ≠ .update) : PendInv env st' where
  tables := by rw [h1, h2, pending_erased]; exact h.tables
  clean := by rw [h5]; exact fun h => by cases h
  gathers := by rw [h1, h3, pending_erased]; exact h.gathers
  obj := by
    rw [h2, h4]
    intro tb htb
    obtain ⟨f, hf, hc⟩ := h.obj tb htb
    exact ⟨f, hf, fun _ => hc h6⟩
  cur := by rw [h2, h4]; exact fun h' _ => h.cur h' h6
  saves := by
    rw [h1]
    exact fun p s l hl => h.saves p s l (suffix_erased _ _ (by simp) hl)

/-- The static store is emptied. -/
theorem PendInv.save {env : Env} {st st' : State} (h : PendInv env st) (ht : TableInv st) {f : FileStoreObj}
    (hf : st.fileStore = some f) (p : Option (List Char)) (hp : ∀ q, p = some q → q = f.config.resultPath)
    (h1 : st'.log = .saved p st.static :: st.log) (h2 : st'.current = st.current) (h3 : st'.static = ⟨[], []⟩)
    (h4 : st'.fileStore = st.fileStore) (h6 : st.pc ≠ .update) : PendInv env st' where
  tables := by rw [h1]; intro j hj; cases hj
  clean := by rw [h1]; exact fun _ => rfl
  gathers := by rw [h1, h3]; exact Gathers.nil env
  obj := by
    rw [h2, h4]
    intro tb htb
    obtain ⟨f, hf, hc⟩ := h.obj tb htb
    exact ⟨f, hf, fun _ => hc h6⟩
  cur := by rw [h2, h4]; exact fun h' _ => h.cur h' h6
  saves := by
    rw [h1]
    intro q s l hl
    rcases List.suffix_cons_iff.1 hl with hl | hl
    · cases hl
      obtain ⟨tb, htb⟩ := Option.ne_none_iff_exists'.1 (h.cur (by rw [hf]; simp) h6)
      obtain ⟨f', hf', hc⟩ := h.obj tb htb
      rw [hf] at hf'
      cases hf'
      refine ⟨tb, by rw [ht.last, htb], fun q hq => ?_, fun j hj => ?_, h.gathers⟩
      · rw [hp q hq, hc h6]
      · rw [(h.tables j hj).1, htb]
    · exact h.saves q s l hl

theorem PendInv.trans {env : Env} {a : Option Nat} {st st' : State} (h : PendInv env st) (hi : Inv st) (htb : TableInv st)
    (ht : Trans env st a st') : PendInv env st' := by
  cases ht with
  | checkDone i hi hp hs => exact h.stay rfl (fun _ _ _ h => h) rfl rfl rfl rfl
  | checkWait i hi hp hs hq => exact h.stay rfl (fun _ _ _ h => h) rfl rfl rfl rfl
  | checkPop i hi hp hs hq => exact h.stay rfl (fun _ _ _ h => h) rfl rfl rfl rfl
  | doze i hi hp => exact h.stay rfl (fun _ _ _ h => h) rfl rfl rfl rfl
  | pop i hi hp j q hq =>
    exact h.stay rfl (fun _ _ _ h => (List.suffix_cons_iff.1 h).resolve_left (by simp)) rfl rfl rfl rfl
  | compute i hs j hp tb htb m hm p hf =>
    have hmem : j ∈ (st.thr i).jobs := by unfold Thread.jobs; rw [hp]; exact List.mem_cons_self
    refine ⟨?_, ?_, h.gathers.add htb hm hf, h.obj, h.cur, ?_⟩
    · intro j' hj'
      rcases List.mem_cons.1 hj' with rfl | hj'
      · exact hi.jobTables i hs _ hmem
      · exact h.tables j' hj'
    · intro hc
      rw [(hi.noJobs (Pc.clean_quiet hc)).2.2 i hs] at hmem
      cases hmem
    · exact fun p s l hl => h.saves p s l ((List.suffix_cons_iff.1 hl).resolve_left (by simp))
  | report i hi j hp p hf =>
    exact h.stay rfl (fun _ _ _ h => (List.suffix_cons_iff.1 h).resolve_left (by simp)) rfl rfl rfl rfl
  | spurious i hi hp => exact h.stay rfl (fun _ _ _ h => h) rfl rfl rfl rfl
  | mainEnd hpc ht => exact h.move rfl rfl rfl rfl (by simp [Pc.clean]) (by simp [hpc])
  | mainConfig hpc c rest ht create v hv =>
    exact h.move rfl rfl rfl rfl (by simp only; split <;> simp [Pc.clean]) (by simp [hpc])
  | mainAssign hpc b rest ht now =>
    exact h.move rfl rfl rfl rfl (by simp only; split <;> simp [Pc.clean]) (by simp [hpc])
  | wait k hpc a ha =>
    exact h.flush rfl rfl rfl rfl (by simp only; split <;> simp [Pc.clean]) (by simp [hpc])
  | fillFinished hpc a ha => exact h.flush rfl rfl rfl rfl rfl (by simp [hpc])
  | saveNone k hpc hf =>
    refine h.move rfl rfl rfl rfl (fun _ => ?_) (by simp [hpc])
    by_contra hn
    obtain ⟨j, hj⟩ := List.exists_mem_of_ne_nil _ hn
    obtain ⟨tb, htb⟩ := Option.ne_none_iff_exists'.1 (h.tables j hj).2
    obtain ⟨f, hf', _⟩ := h.obj tb htb
    rw [hf] at hf'
    cases hf'
  | saveLost k hpc f hf hl => exact h.save htb hf none (by simp) rfl rfl rfl rfl (by simp [hpc])
  | saveStart k hpc f hf hv d hd id' hid =>
    exact h.save htb hf _ (by simp) rfl rfl rfl rfl (by simp [hpc])
  | writeEnd k hpc =>
    refine h.move rfl rfl rfl rfl (fun hc => h.clean ?_) (by simp [hpc])
    rw [hpc]
    cases k <;> first | rfl | exact hc
  | writeLost k n c ws hpc hl =>
    refine h.move rfl rfl rfl rfl (fun hc => h.clean ?_) (by simp [hpc])
    rw [hpc]
    cases k <;> first | rfl | exact hc
  | write k n c ws hpc f hf d hd =>
    refine h.move rfl rfl rfl rfl (fun hc => h.clean ?_) (by simp [hpc])
    rw [hpc]
    cases k <;> first | rfl | exact hc
  | newStoreInvalid hpc c rest ht hd =>
    exact ⟨h.tables, fun _ => h.clean (by rw [hpc]; rfl), h.gathers, fun _ _ => ⟨_, rfl, fun h => absurd rfl h⟩,
      fun _ h => absurd rfl h, h.saves⟩
  | newStore hpc c rest ht d hd r hr =>
    exact ⟨h.tables, fun _ => h.clean (by rw [hpc]; rfl), h.gathers, fun _ _ => ⟨_, rfl, fun h => absurd rfl h⟩,
      fun _ h => absurd rfl h, h.saves⟩
  | update hpc c rest ht =>
    have hn := h.clean (by rw [hpc]; rfl)
    have hn' : pending (updateStep st c rest).log = [] := hn
    refine ⟨?_, fun _ => hn', h.gathers, ?_, ?_, ?_⟩
    · rw [hn']
      intro j hj
      cases hj
    · intro tb htb
      cases htb
      obtain ⟨f, c', rest', hf, hc, hf'⟩ := hi.made hpc
      rw [ht] at hc
      cases hc
      exact ⟨f, hf, fun _ => hf'⟩
    · intro _ _
      simp [updateStep]
    · exact fun p s l hl => h.saves p s l ((List.suffix_cons_iff.1 hl).resolve_left (by simp))
  | skip hpc b rest ht f hf hc => exact h.move rfl rfl rfl rfl (by simp [Pc.clean]) (by simp [hpc])
  | fill hpc b rest ht f hf hc ho => exact h.move rfl rfl rfl rfl (by simp [Pc.clean]) (by simp [hpc])
  | noFill hpc b rest ht f hf hc ho => exact h.move rfl rfl rfl rfl (by simp [Pc.clean]) (by simp [hpc])
  | fillReady hpc =>
    exact h.move rfl rfl rfl rfl (by simp only [fillReadyStep]; split <;> simp [Pc.clean]) (by simp [hpc])
  | takeOpencl hpc b rest ht ho p hp =>
    exact ⟨h.tables, (by intro hc; cases hc), h.gathers, fun tb htb => by
        obtain ⟨f, hf, hc⟩ := h.obj tb htb
        exact ⟨f, hf, fun _ => hc (by simp [hpc])⟩, fun hf _ => h.cur hf (by simp [hpc]),
      fun p s l hl => h.saves p s l ((List.suffix_cons_iff.1 hl).resolve_left (by simp))⟩
  | takeCpu hpc b rest ht ho p hp =>
    exact ⟨h.tables, (by intro hc; cases hc), h.gathers, fun tb htb => by
        obtain ⟨f, hf, hc⟩ := h.obj tb htb
        exact ⟨f, hf, fun _ => hc (by simp [hpc])⟩, fun hf _ => h.cur hf (by simp [hpc]),
      fun p s l hl => h.saves p s l ((List.suffix_cons_iff.1 hl).resolve_left (by simp))⟩
  | notify i b hpc =>
    exact h.move (wake_log st i) (wake_current st i) (wake_static st i) (wake_fileStore st i) (by simp [Pc.clean])
      (by simp [hpc])
  | insert b hpc => exact h.move rfl rfl rfl rfl (by simp [Pc.clean]) (by simp [hpc])
  | shutdown i hpc hi =>
    exact h.move rfl rfl rfl rfl (fun _ => h.clean (by rw [hpc]; rfl)) (by simp [hpc])
  | shutdownEnd i hpc hi =>
    exact h.move rfl rfl rfl rfl (fun _ => h.clean (by rw [hpc]; rfl)) (by simp [hpc])
  | shutNotify i hpc =>
    exact h.move (wake_log st i) (wake_current st i) (wake_static st i) (wake_fileStore st i)
      (fun _ => h.clean (by rw [hpc]; rfl)) (by simp [hpc])
  | join i hpc hp =>
    exact h.move rfl rfl rfl rfl (fun _ => h.clean (by rw [hpc]; rfl)) (by simp [hpc])

theorem PendInv.init (env : Env) (kinds : List Bool) (fs : FileSystem) (todo : List Cmd) :
    PendInv env (initial kinds fs todo) :=
  ⟨(by intro j hj; cases hj), fun _ => rfl, Gathers.nil env, (by intro tb h; cases h), fun h => absurd rfl h,
    fun p s l hl => by cases List.suffix_nil.1 hl⟩

theorem lead_append (bs : List Block) (ss : List Sect) : lead (bs.map .assign ++ program ss) = bs := by
  induction bs with
  | nil => cases ss <;> rfl
  | cons b bs ih => simp only [List.map_cons, List.cons_append, lead, ih]

theorem distinct_append {bs : List Block} {ss : List Sect} (hb : bs.Nodup) (h : Distinct (program ss)) :
    Distinct (bs.map .assign ++ program ss) := by
  induction bs with
  | nil => exact h
  | cons b bs ih =>
    have hb := List.nodup_cons.1 hb
    have hl := lead_append bs ss
    exact ⟨fun h' => hb.1 (hl ▸ h'), ih hb.2⟩

theorem distinct_program : ∀ {ss : List Sect}, (∀ s ∈ ss, s.blocks.Nodup) → Distinct (program ss)
  | [], _ => trivial
  | s :: ss, h => by
    have := distinct_program fun s hs => h s (List.mem_cons_of_mem _ hs)
    exact distinct_append (h s List.mem_cons_self) this

theorem lead_program (ss : List Sect) : lead (program ss) = [] := by cases ss <;> rfl

/-- The section in which the run is: sections before, the section, sections after, blocks done and to be done. -/
structure At (ss : List Sect) (st : State) (pre : List Sect) (s : Sect) (post : List Sect) (done rest : List Block)
    (tb : Tables) : Prop where
  sections : ss = pre ++ s :: post
  blocks : s.blocks = done ++ rest
  todo : st.todo = rest.map .assign ++ program post
  current : st.current = some tb
  cfg : tb.cfg = s.cfg

/-- The calls to be made and the current configuration fit to the sections. -/
def PosInv (ss : List Sect) (st : State) : Prop :=
  (st.todo = program ss ∧ st.current = none) ∨ ∃ pre s post done rest tb, At ss st pre s post done rest tb

theorem PosInv.congr {ss : List Sect} {st st' : State} (h : PosInv ss st) (h1 : st'.todo = st.todo)
    (h2 : st'.current = st.current) : PosInv ss st' := by
  rcases h with h | ⟨pre, s, post, done, rest, tb, h⟩
  · exact Or.inl ⟨by rw [h1]; exact h.1, by rw [h2]; exact h.2⟩
  · exact Or.inr ⟨pre, s, post, done, rest, tb, h.sections, h.blocks, by rw [h1]; exact h.todo,
      by rw [h2]; exact h.current, h.cfg⟩

theorem At.pop {ss : List Sect} {st st' : State} {pre post : List Sect} {s : Sect} {done rest : List Block}
    {tb : Tables} (h : At ss st pre s post done rest tb) {b : Block} {cs : List Cmd} (ht : st.todo = .assign b :: cs)
    (h1 : st'.todo = cs) (h2 : st'.current = st.current) :
    ∃ rest', rest = b :: rest' ∧ At ss st' pre s post (done ++ [b]) rest' tb := by
  have h3 := h.todo
  rw [ht] at h3
  cases rest with
  | nil =>
    cases post with
    | nil => cases h3
    | cons x post => cases h3
  | cons x rest =>
    obtain ⟨h4, h5⟩ := List.cons_eq_cons.1 h3
    cases h4
    refine ⟨rest, rfl, h.sections, ?_, ?_, ?_, h.cfg⟩
    · rw [h.blocks]; simp
    · rw [h1, h5]; rfl
    · rw [h2, h.current]

theorem PosInv.pop {ss : List Sect} {st st' : State} (h : PosInv ss st) {b : Block} {cs : List Cmd}
    (ht : st.todo = .assign b :: cs) (h1 : st'.todo = cs) (h2 : st'.current = st.current) : PosInv ss st' := by
  rcases h with h | ⟨pre, s, post, done, rest, tb, h⟩
  · have h3 := h.1
    rw [ht] at h3
    cases ss <;> cases h3
  · obtain ⟨rest', _, h3⟩ := h.pop ht h1 h2
    exact Or.inr ⟨_, _, _, _, _, _, h3⟩

/-- The next section. -/
theorem PosInv.next {ss : List Sect} {st : State} (h : PosInv ss st) {c : ConfigNode} {cs : List Cmd}
    (ht : st.todo = .config c :: cs) :
    ∃ pre s post, ss = pre ++ s :: post ∧ s.cfg = c ∧ cs = s.blocks.map .assign ++ program post ∧
      (st.current = none ∧ pre = [] ∨ ∃ pre' s' tb, At ss st pre' s' (s :: post) s'.blocks [] tb ∧ pre = pre' ++ [s']) := by
  rcases h with h | ⟨pre, s, post, done, rest, tb, h⟩
  · have h3 := h.1
    rw [ht] at h3
    cases ss with
    | nil => cases h3
    | cons s ss =>
      obtain ⟨h4, h5⟩ := List.cons_eq_cons.1 h3
      cases h4
      exact ⟨[], s, ss, rfl, rfl, h5, Or.inl ⟨h.2, rfl⟩⟩
  · have h3 := h.todo
    rw [ht] at h3
    cases rest with
    | cons x rest => cases h3
    | nil =>
      cases post with
      | nil => cases h3
      | cons s' post =>
        obtain ⟨h4, h5⟩ := List.cons_eq_cons.1 h3
        cases h4
        have hd : s.blocks = done := by rw [h.blocks, List.append_nil]
        refine ⟨pre ++ [s], s', post, by rw [h.sections, List.append_assoc]; rfl, rfl, h5, Or.inr ⟨pre, s, tb, ?_, rfl⟩⟩
        rw [hd]
        exact h

theorem PosInv.trans {env : Env} {ss : List Sect} {a : Option Nat} {st st' : State} (h : PosInv ss st) (ht : Trans env st a st') :
    PosInv ss st' := by
  cases ht with
  | update hpc c rest ht =>
    obtain ⟨pre, s, post, h1, h2, h3, _⟩ := h.next ht
    exact Or.inr ⟨pre, s, post, [], s.blocks, ⟨c, st.serial⟩, h1, rfl, h3, rfl, h2.symm⟩
  | skip hpc b rest ht f hf hc => exact h.pop ht rfl rfl
  | takeOpencl hpc b rest ht ho p hp => exact h.pop ht rfl rfl
  | takeCpu hpc b rest ht ho p hp => exact h.pop ht rfl rfl
  | notify i b hpc => exact h.congr (wake_todo st i) (wake_current st i)
  | shutNotify i hpc => exact h.congr (wake_todo st i) (wake_current st i)
  | _ => exact h.congr rfl rfl

theorem PosInv.init (kinds : List Bool) (fs : FileSystem) (ss : List Sect) :
    PosInv ss (initial kinds fs (program ss)) := Or.inl ⟨rfl, rfl⟩

/-- Every assigned job belongs to a section. -/
def FromInv (ss : List Sect) (st : State) : Prop := ∀ e ∈ assignedJobs st.log, ∃ s ∈ ss, ∃ tb, e.2.tables = some tb ∧
  tb.cfg = s.cfg ∧ e.2.block ∈ s.blocks

theorem FromInv.push {ss : List Sect} {st st' : State} (h : FromInv ss st) (hi : Inv st) (hpos : PosInv ss st) {b : Block}
    {rest : List Cmd} (ht : st.todo = .assign b :: rest) (i : Nat) (h1 : st'.log = st.log) (h5 : st'.thr = st.thr) :
    FromInv ss (pushJob st' i b) := by
  intro e he
  rw [show (pushJob st' i b).log = .assigned i ⟨b, (st'.thr i).tables⟩ :: st'.log from rfl, h1, h5, hi.tables i] at he
  rcases List.mem_cons.1 (show e ∈ (i, ⟨b, st.current⟩) :: assignedJobs st.log from he) with rfl | he
  · rcases hpos with hp | ⟨pre, s, post, done, rs, tb, hp⟩
    · have h3 := hp.1
      rw [ht] at h3
      cases ss <;> cases h3
    · obtain ⟨rs', h3, _⟩ := hp.pop (st' := { st with todo := rest }) ht rfl rfl
      refine ⟨s, by rw [hp.sections]; simp, tb, hp.current, hp.cfg, ?_⟩
      rw [hp.blocks, h3]
      simp
  · exact h e he

theorem FromInv.trans {env : Env} {ss : List Sect} {a : Option Nat} {st st' : State} (h : FromInv ss st) (hi : Inv st)
    (hpos : PosInv ss st) (ht : Trans env st a st') : FromInv ss st' := by
  cases ht with
  | wait k hpc a ha => unfold FromInv; rw [assignedJobs_erased]; exact h
  | fillFinished hpc a ha => unfold FromInv; rw [assignedJobs_erased]; exact h
  | takeOpencl hpc b rest ht ho p hp => exact h.push hi hpos ht _ rfl rfl
  | takeCpu hpc b rest ht ho p hp => exact h.push hi hpos ht _ rfl rfl
  | notify i b hpc => unfold FromInv; simp only [wake_log]; exact h
  | shutNotify i hpc => unfold FromInv; simp only [wake_log]; exact h
  | _ => exact h

/-- All invariants that hold in every run. -/
structure Good (env : Env) (kinds : List Bool) (ss : List Sect) (st : State) : Prop where
  inv : Inv st
  count : CountInv st
  once : OnceInv st
  erased : ErasedInv st
  table : TableInv st
  pend : PendInv env st
  pos : PosInv ss st
  from_ : FromInv ss st
  size : st.size = kinds.length
  kind : ∀ i, (st.thr i).opencl = kinds[i]?.getD false

theorem trans_size {env : Env} {a : Option Nat} {st st' : State} (ht : Trans env st a st') : st'.size = st.size := by
  cases ht with
  | notify i b hpc => exact wake_size st i
  | shutNotify i hpc => exact wake_size st i
  | _ => rfl

theorem wake_opencl (st : State) (i k : Nat) : ((wake st i).thr k).opencl = (st.thr k).opencl := by
  unfold wake
  split
  · exact setThread_cases (t := { st.thr i with phase := .check }) (P := fun k t => t.opencl = (st.thr k).opencl)
      (fun _ => rfl) rfl k
  · rfl

theorem trans_opencl {env : Env} {a : Option Nat} {st st' : State} (ht : Trans env st a st') :
    ∀ k, (st'.thr k).opencl = (st.thr k).opencl := by
  cases ht with
  | notify i b hpc => exact wake_opencl st i
  | shutNotify i hpc => exact wake_opencl st i
  | update hpc c rest ht => exact fun _ => rfl
  | mainEnd | mainConfig | mainAssign | wait | saveNone | saveLost | saveStart | writeEnd | writeLost | write
  | newStoreInvalid | newStore | skip | fill | noFill | fillFinished | fillReady | insert
  | shutdownEnd | join => exact fun _ => rfl
  | _ => exact setThread_cases (st := st) (P := fun k t => t.opencl = (st.thr k).opencl) (fun _ => rfl) rfl

theorem Good.init (env : Env) {kinds : List Bool} (hk : kinds.length < 4294967296) (fs : FileSystem) {ss : List Sect}
    (hd : ∀ s ∈ ss, s.blocks.Nodup) : Good env kinds ss (initial kinds fs (program ss)) :=
  ⟨Inv.init hk fs (distinct_program hd) (lead_program ss), CountInv.init _ _ _, OnceInv.init _ _ _, ErasedInv.init _ _ _,
    TableInv.init _ _ _, PendInv.init _ _ _ _, PosInv.init _ _ _, (by intro e he; cases he), rfl, fun _ => rfl⟩

theorem Good.trans {env : Env} {kinds : List Bool} {ss : List Sect} {a : Option Nat} {st st' : State} (h : Good env kinds ss st)
    (ht : Trans env st a st') : Good env kinds ss st' :=
  ⟨h.inv.trans ht, h.count.trans ht, h.once.trans h.inv ht, h.erased.trans h.inv ht, h.table.trans h.inv ht,
    h.pend.trans h.inv h.table ht, h.pos.trans ht, h.from_.trans h.inv h.pos ht, by rw [trans_size ht, h.size],
    fun i => by rw [trans_opencl ht, h.kind]⟩

theorem Good.reachable {env : Env} {kinds : List Bool} {ss : List Sect} {st₀ st : State} (h : Good env kinds ss st₀)
    (hr : Reachable env st₀ st) : Good env kinds ss st := by
  induction hr with
  | refl => exact h
  | step l _ hs ih => exact ih.trans (step_trans hs)

end Run
end Hycu
