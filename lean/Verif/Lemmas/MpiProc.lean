import Mathlib.Algebra.BigOperators.Group.Finset.Basic
import Mathlib.Algebra.Order.BigOperators.Group.Finset
import Verif.Lemmas.PoolBook
import Verif.Model.Mpi

/-!
What happens inside of one process.
-/

namespace Hycu
namespace Mpi

open Run (Tables Job Phase Thread ThreadPool FileStoreObj Cmd Cont Choice Env eraseFinished Book)

theorem sum_update {α : Type} (n : Nat) (f : Nat → α) (g : Nat → α → Nat) {i : Nat} (hi : i < n) (x : α) :
    ∑ k ∈ Finset.range n, g k (Function.update f i x k) + g i (f i) = ∑ k ∈ Finset.range n, g k (f k) + g i x := by
  have hm : i ∈ Finset.range n := Finset.mem_range.2 hi
  rw [← Finset.add_sum_erase _ _ hm, ← Finset.add_sum_erase (Finset.range n) (fun k => g k (f k)) hm,
    Function.update_self]
  have : ∑ k ∈ (Finset.range n).erase i, g k (Function.update f i x k) = ∑ k ∈ (Finset.range n).erase i, g k (f k) := by
    refine Finset.sum_congr rfl fun k hk => ?_
    rw [Function.update_of_ne (Finset.ne_of_mem_erase hk)]
  rw [this]
  omega

/-- The blocks that a thread has in its queue or computes. -/
def unflushed (t : Thread) : List Block :=
  (match t.phase with
    | .compute j => [j.block]
    | _ => []) ++ t.queue.map Job.block

theorem idle_phase {ph : Phase} (h : ph.jobs = []) : (match ph with
    | .compute j => [j.block]
    | _ => ([] : List Block)) = [] := by
  cases ph <;> first | rfl | cases h

/-- The blocks in assign messages. -/
def Msg.block? : Msg → Option Block
  | .assign _ b => some b
  | _ => none

/-- An assign message for a kind of threads. -/
def Msg.isAssign (opencl : Bool) : Msg → Bool
  | .assign o _ => o == opencl
  | _ => false

namespace Proc

/-- Number of times that a block is in the queue of a thread or computed. -/
def work (p : Proc) (b : Block) : Nat := ∑ i ∈ Finset.range p.size, (unflushed (p.thr i)).count b

/-- Number of times that a block is known to the pool. -/
def known (p : Proc) (b : Block) : Nat := (p.pool.busy.map Prod.fst).count b + p.pool.finished.count b

/-- Blocks in messages to the process. -/
def inBlocks (p : Proc) : List Block := p.inbox.filterMap Msg.block?

/-- Number of assign messages for a kind of threads. -/
def promised (p : Proc) (opencl : Bool) : Nat := p.inbox.countP (Msg.isAssign opencl)

/-- The bookkeeping of a process, where `cpu` and `ocl` are the numbers of idle threads. -/
structure Ok (cpu ocl : Nat) (p : Proc) : Prop where
  book : Book p.size (fun i => (p.thr i).opencl) (fun i => (p.thr i).jobs) p.pool cpu ocl []
    (p.pool.busy.map Prod.fst ++ p.pool.finished)
  pop : ∀ i, (p.thr i).phase = .pop → (p.thr i).queue ≠ []
  tables : ∀ i, (p.thr i).tables = p.current
  jobTables : ∀ i, i < p.size → ∀ j ∈ (p.thr i).jobs, j.tables = p.current

/-- What is not changed by the threads. -/
structure Same (p p' : Proc) : Prop where
  size : p'.size = p.size
  inbox : p'.inbox = p.inbox
  finishedOut : p'.finishedOut = p.finishedOut
  readyOut : p'.readyOut = p.readyOut
  saveOut : p'.saveOut = p.saveOut
  serial : p'.serial = p.serial
  current : p'.current = p.current

/-- Steps of threads, including those that wake up or are told to stop: `phase` is a change that concerns neither
jobs nor results. -/
inductive TStep (env : Env) (p : Proc) (i : Nat) : Proc → Prop
  | phase (t : Thread) (ho : t.opencl = (p.thr i).opencl) (ht : t.tables = (p.thr i).tables)
      (hq : t.queue = (p.thr i).queue) (hj : t.phase.jobs = []) (hj' : (p.thr i).phase.jobs = [])
      (hp : t.phase = .pop → t.queue ≠ []) : TStep env p i (p.setThread i t)
  | pop (j : Job) (q : List Job) (hp : (p.thr i).phase = .pop) (hq : (p.thr i).queue = j :: q) :
      TStep env p i (p.setThread i { p.thr i with queue := q, phase := .compute j })
  | compute (j : Job) (hp : (p.thr i).phase = .compute j) (tb : Tables) (ht : j.tables = some tb) (m : StoreMap)
      (hm : env.compute tb.cfg j.block = .ok m) (r : Store.Static × StoreMap)
      (hf : Store.flushToStatic p.static m j.block = .ok r) :
      TStep env p i { p.setThread i { p.thr i with phase := .report j } with static := r.1 }
  | report (j : Job) (hp : (p.thr i).phase = .report j) (r : ThreadPool) (hf : p.pool.finishedBlock j.block = .ok r) :
      TStep env p i { p.setThread i { p.thr i with phase := .check } with pool := r }

theorem threadStep_cases {env : Env} {p p' : Proc} {i : Nat} (h : p.threadStep env i = .ok (some p')) :
    TStep env p i p' := by
  unfold threadStep at h
  simp only at h
  split at h
  · rename_i hp
    split at h
    · cases h
      exact .phase _ rfl rfl rfl rfl (by rw [hp]; rfl) (by intro h; cases h)
    · split at h
      · cases h
        exact .phase _ rfl rfl rfl rfl (by rw [hp]; rfl) (by intro h; cases h)
      · rename_i hq
        cases h
        exact .phase _ rfl rfl rfl rfl (by rw [hp]; rfl) (fun _ => hq)
  · rename_i hp
    cases h
    exact .phase _ rfl rfl rfl rfl (by rw [hp]; rfl) (by intro h; cases h)
  · cases h
  · rename_i hp
    split at h
    · cases h
    · rename_i j q hq
      cases h
      exact .pop j q hp hq
  · rename_i j hp
    split at h
    · cases h
    · rename_i tb ht
      obtain ⟨m, hm, h⟩ := Res.bind_eq_ok.1 h
      obtain ⟨r, hf, h⟩ := Res.bind_eq_ok.1 h
      cases h
      exact .compute j hp tb ht m hm r hf
  · rename_i j hp
    obtain ⟨r, hf, h⟩ := Res.bind_eq_ok.1 h
    cases h
    exact .report j hp r hf
  · cases h

theorem setThread_view {α : Type} (f : Thread → α) (p : Proc) (i : Nat) (t : Thread) (h : f t = f (p.thr i)) :
    (fun k => f ((p.setThread i t).thr k)) = fun k => f (p.thr k) := by
  funext k
  simp only [setThread]
  by_cases hk : k = i
  · subst hk; rw [Function.update_self, h]
  · rw [Function.update_of_ne hk]

theorem setThread_update {α : Type} (f : Thread → α) (p : Proc) (i : Nat) (t : Thread) :
    (fun k => f ((p.setThread i t).thr k)) = Function.update (fun k => f (p.thr k)) i (f t) := by
  funext k
  simp only [setThread]
  by_cases hk : k = i
  · subst hk; rw [Function.update_self, Function.update_self]
  · rw [Function.update_of_ne hk, Function.update_of_ne hk]

theorem setThread_cases {P : Nat → Thread → Prop} {p : Proc} {i : Nat} {t : Thread} (h : ∀ k, P k (p.thr k))
    (ht : P i t) : ∀ k, P k ((p.setThread i t).thr k) := by
  intro k
  simp only [setThread]
  by_cases hk : k = i
  · subst hk; rw [Function.update_self]; exact ht
  · rw [Function.update_of_ne hk]; exact h k

theorem work_setThread (p : Proc) {i : Nat} (hi : i < p.size) (t : Thread) (b : Block) :
    (p.setThread i t).work b + (unflushed (p.thr i)).count b = p.work b + (unflushed t).count b :=
  sum_update p.size p.thr (fun _ t => (unflushed t).count b) hi t

namespace Ok

variable {cpu ocl : Nat} {p : Proc}

/-- A change of a thread that keeps its jobs. -/
theorem thread (h : Ok cpu ocl p) (i : Nat) (t : Thread) (ho : t.opencl = (p.thr i).opencl)
    (hj : t.jobs = (p.thr i).jobs) (ht : t.tables = (p.thr i).tables) (hp : t.phase = .pop → t.queue ≠ [])
    (static : Store.Static) : Ok cpu ocl { p.setThread i t with static := static } where
  book := by
    have h1 := setThread_view Thread.opencl p i t ho
    have h2 := setThread_view Thread.jobs p i t hj
    have := h.book
    rw [← h1, ← h2] at this
    exact this
  pop := setThread_cases (P := fun _ t => t.phase = .pop → t.queue ≠ []) h.pop hp
  tables := setThread_cases (P := fun _ t => t.tables = p.current) h.tables (by rw [ht]; exact h.tables i)
  jobTables k hk j hj' := by
    have h1 := congrFun (setThread_view Thread.jobs p i t hj) k
    have h2 : j ∈ ((p.setThread i t).thr k).jobs := hj'
    rw [h1] at h2
    exact h.jobTables k hk j h2

theorem report {i : Nat} (h : Ok cpu ocl p) (hi : i < p.size) {j : Job} (hp : (p.thr i).phase = .report j) :
    ∃ r, p.pool.finishedBlock j.block = .ok r ∧
      Ok cpu ocl { p.setThread i { p.thr i with phase := .check } with pool := r } ∧
      ∀ b, known { p.setThread i { p.thr i with phase := .check } with pool := r } b = p.known b := by
  have hjobs : (p.thr i).jobs = [j] := by
    have h1 : (p.thr i).jobs = j :: (p.thr i).queue := by unfold Thread.jobs; rw [hp]; rfl
    rcases h.book.own i hi with ⟨h2, _⟩ | ⟨j', h2, _⟩
    · rw [h2] at h1; cases h1
    · rw [h2] at h1 ⊢; rw [(List.cons_eq_cons.1 h1).1]
  have hq : (p.thr i).queue = [] := by
    have h1 : (p.thr i).jobs = j :: (p.thr i).queue := by unfold Thread.jobs; rw [hp]; rfl
    rw [hjobs] at h1
    exact (List.cons_eq_cons.1 h1).2.symm
  obtain ⟨r, h1, h2, h3⟩ := h.book.report hi hjobs
  have hb : p.pool.busy.find? j.block = some i := by
    rcases h.book.own i hi with ⟨h4, _⟩ | ⟨j', h4, h5⟩
    · rw [hjobs] at h4; cases h4
    · rw [hjobs] at h4; cases h4; exact h5
  have hknown : (r.busy.map Prod.fst ++ r.finished).Perm (p.pool.busy.map Prod.fst ++ p.pool.finished) := by
    have h4 := h3.blocks
    rw [List.append_nil] at h4
    exact h4
  refine ⟨r, h1, ⟨?_, ?_, ?_, ?_⟩, fun b => ?_⟩
  · have e1 := setThread_view Thread.opencl p i { p.thr i with phase := .check } rfl
    have e2 := setThread_update Thread.jobs p i { p.thr i with phase := .check }
    rw [show Thread.jobs { p.thr i with phase := .check } = [] from hq] at e2
    rw [← e1, ← e2] at h3
    exact ⟨h3.small, h3.perm, h3.split, h3.busy_sorted, h3.assigned_sorted, h3.own, by simp⟩
  · exact setThread_cases (P := fun _ t => t.phase = .pop → t.queue ≠ []) h.pop (by intro h; cases h)
  · exact setThread_cases (P := fun _ t => t.tables = p.current) h.tables (h.tables i)
  · refine setThread_cases (P := fun k t => k < p.size → ∀ j ∈ t.jobs, j.tables = p.current)
      (fun k => h.jobTables k) ?_
    intro _ j' hj'
    rw [show Thread.jobs { p.thr i with phase := .check } = [] from hq] at hj'
    cases hj'
  · have := hknown.count_eq b
    rw [List.count_append, List.count_append] at this
    exact this

end Ok

/-- A change of a thread that concerns neither jobs nor results; also if there is no such thread. -/
theorem Ok.quiet {cpu ocl : Nat} {p : Proc} (h : Ok cpu ocl p) (i : Nat) (t : Thread) (ho : t.opencl = (p.thr i).opencl)
    (ht : t.tables = (p.thr i).tables) (hq : t.queue = (p.thr i).queue) (hj : unflushed t = unflushed (p.thr i))
    (hj' : t.phase.jobs = (p.thr i).phase.jobs) (hp : t.phase = .pop → t.queue ≠ []) :
    Ok cpu ocl (p.setThread i t) ∧ Same p (p.setThread i t) ∧ (p.setThread i t).pool = p.pool ∧
      (p.setThread i t).static = p.static ∧ (p.setThread i t).pc = p.pc ∧ ∀ b, (p.setThread i t).work b = p.work b := by
  refine ⟨h.thread i t ho ?_ ht hp p.static, ⟨rfl, rfl, rfl, rfl, rfl, rfl, rfl⟩, rfl, rfl, rfl, fun b => ?_⟩
  · unfold Thread.jobs
    rw [hq, hj']
  · refine Finset.sum_congr rfl fun k _ => ?_
    rw [congrFun (setThread_view unflushed p i t hj) k]

theorem Ok.wake {cpu ocl : Nat} {p : Proc} (h : Ok cpu ocl p) (i : Nat) :
    Ok cpu ocl (p.wake i) ∧ Same p (p.wake i) ∧ (p.wake i).pool = p.pool ∧
      (p.wake i).static = p.static ∧ (p.wake i).pc = p.pc ∧ ∀ b, (p.wake i).work b = p.work b := by
  unfold Proc.wake
  split
  · rename_i hp
    exact h.quiet i _ rfl rfl rfl (by unfold unflushed; rw [hp]) (by rw [hp]; rfl) (by intro h; cases h)
  · exact ⟨h, ⟨rfl, rfl, rfl, rfl, rfl, rfl, rfl⟩, rfl, rfl, rfl, fun _ => rfl⟩

theorem Ok.stop {cpu ocl : Nat} {p : Proc} (h : Ok cpu ocl p) (i : Nat) :
    Ok cpu ocl (p.stop i) ∧ Same p (p.stop i) ∧ (p.stop i).pool = p.pool ∧
      (p.stop i).static = p.static ∧ (p.stop i).pc = p.pc ∧ ∀ b, (p.stop i).work b = p.work b :=
  h.quiet i { p.thr i with stop := true } rfl rfl rfl rfl rfl (h.pop i)

/-- The effect of a step of a thread. -/
theorem TStep.effect {env : Env} {p p' : Proc} {i : Nat} (hs : TStep env p i p') {cpu ocl : Nat} (hi : i < p.size)
    (h : Ok cpu ocl p) : Ok cpu ocl p' ∧ Same p p' ∧ p'.pc = p.pc ∧ (∀ b, p'.known b = p.known b) ∧
      ((p'.static = p.static ∧ ∀ b, p'.work b = p.work b) ∨
        ∃ j tb m r, j ∈ (p.thr i).jobs ∧ j.tables = some tb ∧ env.compute tb.cfg j.block = .ok m ∧
          Store.flushToStatic p.static m j.block = .ok r ∧ p'.static = r.1 ∧
          ∀ b, p.work b = p'.work b + [j.block].count b) := by
  cases hs with
  | phase t ho ht hq hj hj' hp =>
    have hu : unflushed t = unflushed (p.thr i) := by
      unfold unflushed
      rw [hq]
      rw [idle_phase hj, idle_phase hj']
    obtain ⟨h1, h2, h3, h4, h5, h6⟩ := h.quiet i t ho ht hq hu (by rw [hj, hj']) hp
    exact ⟨h1, h2, h5, fun _ => rfl, Or.inl ⟨h4, h6⟩⟩
  | pop j q hp hq =>
    refine ⟨h.thread i { p.thr i with queue := q, phase := .compute j } rfl ?_ rfl (by intro h; cases h) p.static,
      ⟨rfl, rfl, rfl, rfl, rfl, rfl, rfl⟩, rfl, fun _ => rfl, Or.inl ⟨rfl, fun b => ?_⟩⟩
    · unfold Thread.jobs
      rw [hp, hq]
      rfl
    · have h1 := work_setThread p hi { p.thr i with queue := q, phase := .compute j } b
      have h2 : unflushed { p.thr i with queue := q, phase := .compute j } = unflushed (p.thr i) := by
        unfold unflushed
        rw [hp, hq]
        rfl
      rw [h2] at h1
      omega
  | compute j hp tb ht m hm r hf =>
    refine ⟨h.thread i { p.thr i with phase := .report j } rfl ?_ rfl (by intro h; cases h) r.1,
      ⟨rfl, rfl, rfl, rfl, rfl, rfl, rfl⟩, rfl, fun _ => rfl, Or.inr ⟨j, tb, m, r, ?_, ht, hm, hf, rfl, fun b => ?_⟩⟩
    · unfold Thread.jobs
      rw [hp]
      rfl
    · unfold Thread.jobs
      rw [hp]
      exact List.mem_cons_self
    · have h1 := work_setThread p hi { p.thr i with phase := .report j } b
      have h2 : unflushed (p.thr i) = [j.block] ++ unflushed { p.thr i with phase := .report j } := by
        unfold unflushed
        rw [hp]
        rfl
      rw [h2, List.count_append] at h1
      show _ = (p.setThread i { p.thr i with phase := .report j }).work b + _
      omega
  | report j hp r hf =>
    obtain ⟨r', h1, h2, h3⟩ := h.report hi hp
    rw [hf] at h1
    cases h1
    refine ⟨h2, ⟨rfl, rfl, rfl, rfl, rfl, rfl, rfl⟩, rfl, h3, Or.inl ⟨rfl, fun b => ?_⟩⟩
    have h1 := work_setThread p hi { p.thr i with phase := .check } b
    have h2 : unflushed { p.thr i with phase := .check } = unflushed (p.thr i) := by
      unfold unflushed
      rw [hp]
    rw [h2] at h1
    show (p.setThread i { p.thr i with phase := .check }).work b = _
    omega

/-- Idle threads of a kind. -/
theorem Ok.assign {cpu ocl : Nat} {p : Proc} (h : Ok cpu ocl p) {b : Block} (hb : p.known b = 0) {opencl : Bool}
    (hn : (if opencl then ocl else cpu) ≠ 0) : ∃ r, p.assign b opencl = .ok r ∧ r.2 < p.size ∧
      Ok (if opencl then cpu else cpu - 1) (if opencl then ocl - 1 else ocl) r.1 ∧ Same p r.1 ∧ r.1.pc = p.pc ∧
      r.1.static = p.static ∧ (∀ b', r.1.known b' = p.known b' + [b].count b') ∧
      ∀ b', r.1.work b' = p.work b' + [b].count b' := by
  have hb1 : b ∉ (p.pool.busy.map Prod.fst ++ p.pool.finished) ++ [] := by
    rw [List.append_nil, ← List.count_eq_zero, List.count_append]
    exact hb
  have key : ∃ p' i, p.pool.assign (fun i => (p.thr i).opencl) b opencl = .ok (p', i) ∧ i < p.size ∧
      (p.thr i).jobs = [] ∧
      Book p.size (fun i => (p.thr i).opencl) (Function.update (fun i => (p.thr i).jobs) i [⟨b, p.current⟩]) p'
        (if opencl then cpu else cpu - 1) (if opencl then ocl - 1 else ocl) []
        (b :: (p.pool.busy.map Prod.fst ++ p.pool.finished)) := by
    have hlen := h.book.perm.length_eq
    obtain ⟨x, y, e1, e2, e3, e4, e5⟩ := h.book.split
    have hl := congrArg List.length e1
    simp only [List.length_append, List.length_range] at hl hlen
    have hsm := h.book.small
    cases opencl with
    | true =>
      obtain ⟨p', i, h1, h2, h3, h4, h5⟩ := h.book.take_opencl hb1 p.current hn
      have : u32sub ocl 1 = ocl - 1 := by
        have h0 : ocl ≠ 0 := hn
        have h1 : ocl < 4294967296 := by omega
        unfold u32sub
        rw [if_pos (by omega)]
      rw [this] at h5
      exact ⟨p', i, h1, h2, h3, h5⟩
    | false =>
      obtain ⟨p', i, h1, h2, h3, h4, h5⟩ := h.book.take_cpu hb1 p.current hn
      have : u32sub cpu 1 = cpu - 1 := by
        have h0 : cpu ≠ 0 := hn
        have h1 : cpu < 4294967296 := by omega
        unfold u32sub
        rw [if_pos (by omega)]
      rw [this] at h5
      exact ⟨p', i, h1, h2, h3, h5⟩
  obtain ⟨p', i, h1, h2, h3, h4⟩ := key
  have hph : (p.thr i).phase.jobs = [] ∧ (p.thr i).queue = [] := by
    unfold Thread.jobs at h3
    exact List.append_eq_nil_iff.1 h3
  let t : Thread := { p.thr i with queue := (p.thr i).queue ++ [⟨b, (p.thr i).tables⟩] }
  have ht : t.jobs = [⟨b, p.current⟩] := by
    show (p.thr i).phase.jobs ++ ((p.thr i).queue ++ [⟨b, (p.thr i).tables⟩]) = _
    rw [hph.1, hph.2, h.tables i]
    rfl
  have hbl : (p'.busy.map Prod.fst ++ p'.finished).Perm (b :: (p.pool.busy.map Prod.fst ++ p.pool.finished)) := by
    have := h4.blocks
    rw [List.append_nil] at this
    exact this
  refine ⟨({ p.setThread i t with pool := p' }, i), ?_, h2, ⟨?_, ?_, ?_, ?_⟩, ⟨rfl, rfl, rfl, rfl, rfl, rfl, rfl⟩, rfl,
    rfl, fun b' => ?_, fun b' => ?_⟩
  · unfold Proc.assign
    rw [h1]
    rfl
  · have e1 := setThread_view Thread.opencl p i t rfl
    have e2 := setThread_update Thread.jobs p i t
    rw [ht] at e2
    rw [← e1, ← e2] at h4
    exact ⟨h4.small, h4.perm, h4.split, h4.busy_sorted, h4.assigned_sorted, h4.own, by simp⟩
  · refine setThread_cases (P := fun _ t => t.phase = .pop → t.queue ≠ []) h.pop ?_
    intro _ hq
    exact absurd (List.append_eq_nil_iff.1 hq).2 (by simp)
  · exact setThread_cases (P := fun _ t => t.tables = p.current) h.tables (h.tables i)
  · refine setThread_cases (P := fun k t => k < p.size → ∀ j ∈ t.jobs, j.tables = p.current)
      (fun k => h.jobTables k) ?_
    intro _ j hj
    rw [ht] at hj
    rw [List.mem_singleton.1 hj]
  · have := hbl.count_eq b'
    rw [List.count_append, List.count_cons, List.count_append] at this
    rw [List.count_singleton]
    exact this
  · have e1 := work_setThread p h2 t b'
    have e2 : unflushed t = unflushed (p.thr i) ++ [b] := by
      unfold unflushed
      simp only [t, List.map_append, List.map_cons, List.map_nil, List.append_assoc]
    rw [e2, List.count_append] at e1
    show (p.setThread i t).work b' = _
    omega

theorem Ok.flushReady {cpu ocl : Nat} {p : Proc} (h : Ok cpu ocl p) :
    Ok (cpu + p.flushReady.2.1) (ocl + p.flushReady.2.2) p.flushReady.1 ∧ Same p p.flushReady.1 ∧
      p.flushReady.1.pc = p.pc ∧ p.flushReady.1.static = p.static ∧ p.flushReady.1.thr = p.thr ∧
      p.flushReady.1.pool.busy = p.pool.busy ∧ p.flushReady.1.pool.finished = p.pool.finished := by
  have h1 := h.book.flushReady
  obtain ⟨x, y, e1, e2, e3, e4, e5⟩ := h.book.split
  obtain ⟨x', y', e1', e2', e3', e4', e5'⟩ := h1.split
  have hlen := h1.perm.length_eq
  have hl' := congrArg List.length e1'
  have hl := congrArg List.length e1
  have hlen0 := h.book.perm.length_eq
  simp only [List.length_append, List.length_range] at hl' hlen hl hlen0
  have hsm := h.book.small
  have hle : cpu + (p.pool.flushReady fun i => (p.thr i).opencl).2.1 < 4294967296 ∧
      ocl + (p.pool.flushReady fun i => (p.thr i).opencl).2.2 < 4294967296 := by
    obtain ⟨a', b', h6, h7, h8, h9, h10, h11, h12⟩ := Book.flushReadyLoop_spec (fun i => (p.thr i).opencl)
      p.pool.ready x y 0 0 e2 e3 (by omega) (by omega)
    rw [← e1] at h6
    unfold ThreadPool.flushReady
    rw [h6]
    simp only
    omega
  have hc : u32 (cpu + (p.pool.flushReady fun i => (p.thr i).opencl).2.1) =
      cpu + (p.pool.flushReady fun i => (p.thr i).opencl).2.1 := by
    unfold u32; omega
  have ho : u32 (ocl + (p.pool.flushReady fun i => (p.thr i).opencl).2.2) =
      ocl + (p.pool.flushReady fun i => (p.thr i).opencl).2.2 := by
    unfold u32; omega
  rw [hc, ho] at h1
  exact ⟨⟨h1, h.pop, h.tables, h.jobTables⟩, ⟨rfl, rfl, rfl, rfl, rfl, rfl, rfl⟩, rfl, rfl, rfl, rfl, rfl⟩

theorem Ok.flushFinished {cpu ocl : Nat} {p : Proc} (h : Ok cpu ocl p) : Ok cpu ocl p.flushFinished.1 :=
  ⟨⟨h.book.small, h.book.perm, h.book.split, h.book.busy_sorted, h.book.assigned_sorted, h.book.own, by simp⟩,
    h.pop, h.tables, h.jobTables⟩

theorem Ok.congr {cpu ocl : Nat} {p p' : Proc} (h : Ok cpu ocl p) (h1 : p'.size = p.size) (h2 : p'.thr = p.thr)
    (h3 : p'.pool = p.pool) (h4 : p'.current = p.current) : Ok cpu ocl p' := by
  refine ⟨?_, ?_, ?_, ?_⟩
  · rw [h1, h2, h3]; exact h.book
  · rw [h2]; exact h.pop
  · rw [h2, h4]; exact h.tables
  · rw [h1, h2, h4]; exact h.jobTables

/-- No thread has a job if no block is known. -/
theorem Ok.idle {cpu ocl : Nat} {p : Proc} (h : Ok cpu ocl p) (hb : p.pool.busy = []) :
    ∀ i, i < p.size → (p.thr i).jobs = [] := by
  intro i hi
  rcases h.book.own i hi with ⟨h1, _⟩ | ⟨j, _, h1⟩
  · exact h1
  · rw [hb] at h1
    cases h1

theorem unflushed_nil {t : Thread} (h : t.jobs = []) : unflushed t = [] := by
  unfold Thread.jobs at h
  obtain ⟨h1, h2⟩ := List.append_eq_nil_iff.1 h
  unfold unflushed
  rw [h2]
  cases hp : t.phase <;> rw [hp] at h1 <;> first | rfl | cases h1

theorem Ok.work_zero {cpu ocl : Nat} {p : Proc} (h : Ok cpu ocl p) (hb : p.pool.busy = []) (b : Block) : p.work b = 0 := by
  unfold work
  refine Finset.sum_eq_zero fun i hi => ?_
  rw [unflushed_nil (h.idle hb i (Finset.mem_range.1 hi))]
  rfl

theorem Ok.update {cpu ocl : Nat} {p : Proc} (h : Ok cpu ocl p) (hb : p.pool.busy = []) (c : ConfigNode) :
    Ok cpu ocl (p.update c) :=
  ⟨h.book, h.pop, fun _ => rfl, fun i hi j hj => by
    have hj' : j ∈ (p.thr i).jobs := hj
    rw [h.idle hb i hi] at hj'
    cases hj'⟩

theorem Ok.initial {kinds : List Bool} (hk : kinds.length < 4294967296) : Ok 0 0 (Proc.initial kinds) where
  book := by
    refine ⟨hk, by simp [Proc.initial], ⟨[], [], rfl, by simp, by simp, rfl, rfl⟩, List.Pairwise.nil,
      List.Pairwise.nil, fun i _ => Or.inl ⟨rfl, by simp [Proc.initial]⟩, by simp [Proc.initial]⟩
  pop := by intro i h; cases h
  tables := fun _ => rfl
  jobTables := by intro i _ j hj; cases hj

end Proc
end Mpi
end Hycu
