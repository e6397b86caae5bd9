import Verif.Lemmas.MpiLive
import Verif.Props.Resume

/-!
Properties of runs of `hycu-mpi`: C42, C43.
-/

namespace Hycu
namespace Mpi

open Run (Tables Job Phase Thread ThreadPool FileStoreObj Cmd Cont Choice Env eraseFinished Book lead Distinct Sect program
  Input recorded)

section

variable {env : Env} {kinds : List (List Bool)} {fs : FileSystem} {ss : List Sect} {st : State}

/-- C42: every thread of a process is in exactly one of the idle, ready and busy threads.  The idle threads of either
kind are those which the master has in its queues, promised to a block that is on its way, or has not yet been told
about. -/
theorem C42_idle (h0 : kinds ≠ []) (hk : ∀ k ∈ kinds, k.length < 4294967296) (hd : ∀ s ∈ ss, s.blocks.Nodup)
    (hr : Reachable env (initial kinds fs (program ss)) st) {ix : Nat} {ks : List Bool} (hix : kinds[ix]? = some ks) :
    (∀ i, (st.procs ix).pool.idle.count i + (st.procs ix).pool.ready.count i +
      ((st.procs ix).pool.busy.map Prod.snd).count i = if i < ks.length then 1 else 0) ∧
    ((st.procs ix).pool.idle.filter fun i => ks[i]? = some false).length = st.cpuQueue.count ix +
      ((st.procs ix).inbox.filter fun m => m matches .assign false _).length +
      ((st.procs ix).readyOut.map Prod.fst).sum ∧
    ((st.procs ix).pool.idle.filter fun i => ks[i]? = some true).length = st.openclQueue.count ix +
      ((st.procs ix).inbox.filter fun m => m matches .assign true _).length +
      ((st.procs ix).readyOut.map Prod.snd).sum := by
  have hinv := (Inv.initial h0 hk fs (Run.distinct_program hd)).reachable hr
  have hkin := Kinds.reachable hr
  have hx : ix < st.nprocs := by
    rw [hkin.1]
    exact (List.getElem?_eq_some_iff.1 hix).1
  obtain ⟨hsize, hocl⟩ := hkin.2 ix ks hix
  have hp := hinv.each ix hx
  have hb := hp.ok.book
  obtain ⟨a, b, h1, h2, h3, h4, h5⟩ := hb.split
  have hlt : ∀ i ∈ (st.procs ix).pool.idle, i < ks.length := by
    intro i hi
    rw [← hsize]
    exact List.mem_range.1 (hb.perm.mem_iff.1 (List.mem_append_left _ (List.mem_append_left _ hi)))
  have hkind : ∀ i ∈ (st.procs ix).pool.idle, ks[i]? = some ((st.procs ix).thr i).opencl := by
    intro i hi
    rw [hocl i, List.getElem?_eq_getElem (hlt i hi)]
    rfl
  have hpr : ∀ o, (st.procs ix).promised o = ((st.procs ix).inbox.filter (Msg.isAssign o)).length :=
    fun o => List.countP_eq_length_filter
  have hf : (Msg.isAssign false) = fun m => m matches .assign false _ := by
    funext m
    cases m with
    | assign o b => cases o <;> rfl
    | _ => rfl
  have ht : (Msg.isAssign true) = fun m => m matches .assign true _ := by
    funext m
    cases m with
    | assign o b => cases o <;> rfl
    | _ => rfl
  rw [hpr, hf] at h5
  rw [hpr, ht] at h4
  refine ⟨fun i => ?_, ?_, ?_⟩
  · rw [← List.count_append, ← List.count_append, hb.perm.count_eq, hsize]
    split
    · rename_i hi
      exact List.count_eq_one_of_mem List.nodup_range (List.mem_range.2 hi)
    · rename_i hi
      exact List.count_eq_zero.2 fun hm => hi (List.mem_range.1 hm)
  · rw [h5, h1, List.filter_append, List.filter_eq_nil_iff.2, List.filter_eq_self.2, List.nil_append]
    · intro i hi
      rw [hkind i (by rw [h1]; exact List.mem_append_right _ hi), h3 i hi]
      simp
    · intro i hi
      rw [hkind i (by rw [h1]; exact List.mem_append_left _ hi), h2 i hi]
      simp
  · rw [h4, h1, List.filter_append, List.filter_eq_self.2, List.filter_eq_nil_iff.2, List.append_nil]
    · intro i hi
      rw [hkind i (by rw [h1]; exact List.mem_append_right _ hi), h3 i hi]
      simp
    · intro i hi
      rw [hkind i (by rw [h1]; exact List.mem_append_left _ hi), h2 i hi]
      simp

/-- C42: the queues of the master contain only processes that exist. -/
theorem C42_queues (h0 : kinds ≠ []) (hk : ∀ k ∈ kinds, k.length < 4294967296) (hd : ∀ s ∈ ss, s.blocks.Nodup)
    (hr : Reachable env (initial kinds fs (program ss)) st) : ∀ ix ∈ st.cpuQueue ++ st.openclQueue, ix < kinds.length := by
  intro ix hix
  rw [← (Kinds.reachable hr).1]
  exact ((Inv.initial h0 hk fs (Run.distinct_program hd)).reachable hr).queue ix hix

/-- C42: a worker that receives a block has an idle thread of the kind for which the block is meant. -/
theorem C42_receives (h0 : kinds ≠ []) (hk : ∀ k ∈ kinds, k.length < 4294967296) (hd : ∀ s ∈ ss, s.blocks.Nodup)
    (hr : Reachable env (initial kinds fs (program ss)) st) {ix : Nat} {ks : List Bool} (hix : kinds[ix]? = some ks)
    {o : Bool} {b : Block} (hm : .assign o b ∈ (st.procs ix).inbox) :
    ∃ i ∈ (st.procs ix).pool.idle, ks[i]? = some o := by
  have h := C42_idle h0 hk hd hr hix
  cases o with
  | false =>
    have hpos : 0 < ((st.procs ix).inbox.filter fun m => m matches .assign false _).length :=
      List.length_pos_of_mem (List.mem_filter.2 ⟨hm, rfl⟩)
    have : 0 < ((st.procs ix).pool.idle.filter fun i => ks[i]? = some false).length := by omega
    obtain ⟨i, hi⟩ := List.exists_mem_of_length_pos this
    have := List.mem_filter.1 hi
    exact ⟨i, this.1, by simpa using this.2⟩
  | true =>
    have hpos : 0 < ((st.procs ix).inbox.filter fun m => m matches .assign true _).length :=
      List.length_pos_of_mem (List.mem_filter.2 ⟨hm, rfl⟩)
    have : 0 < ((st.procs ix).pool.idle.filter fun i => ks[i]? = some true).length := by omega
    obtain ⟨i, hi⟩ := List.exists_mem_of_length_pos this
    have := List.mem_filter.1 hi
    exact ⟨i, this.1, by simpa using this.2⟩

/-- C42: the blocks that are on the way to a process, computed by it, finished, or on the way back are all different,
and they are the blocks which the master has in its set for this process, except for a block that is just passed on. -/
theorem C42_known (h0 : kinds ≠ []) (hk : ∀ k ∈ kinds, k.length < 4294967296) (hd : ∀ s ∈ ss, s.blocks.Nodup)
    (hr : Reachable env (initial kinds fs (program ss)) st) {ix : Nat} (hx : ix < kinds.length) :
    ((st.procs ix).inbox.filterMap (fun m => match m with | .assign _ b => some b | _ => none) ++
      (st.procs ix).pool.busy.map Prod.fst ++ (st.procs ix).pool.finished ++ (st.procs ix).finishedOut.flatten).Nodup ∧
    ∀ b, b ∈ (st.procs ix).inbox.filterMap (fun m => match m with | .assign _ b => some b | _ => none) ++
      (st.procs ix).pool.busy.map Prod.fst ++ (st.procs ix).pool.finished ++ (st.procs ix).finishedOut.flatten ↔
      b ∈ st.assigned ix ∨ (ix = 0 ∧ ∃ i, st.pc = .notify i b) ∨ st.pc = .insert ix b := by
  have hp := ((Inv.initial h0 hk fs (Run.distinct_program hd)).reachable hr).each ix (by
    rw [(Kinds.reachable hr).1]; exact hx)
  have hf : (fun m => match m with | .assign _ b => some b | _ => none) = Msg.block? := by
    funext m
    cases m <;> rfl
  rw [hf]
  have hl : ∀ b, ((st.procs ix).inbox.filterMap Msg.block? ++ (st.procs ix).pool.busy.map Prod.fst ++
      (st.procs ix).pool.finished ++ (st.procs ix).finishedOut.flatten).count b = (st.assigned ix).count b +
      (st.pc.inflight ix).count b := by
    intro b
    rw [hp.ledger b]
    simp only [List.count_append, Proc.held, Proc.known, Proc.inBlocks]
    omega
  have hin : ∀ b, b ∈ st.pc.inflight ix ↔ (ix = 0 ∧ ∃ i, st.pc = .notify i b) ∨ st.pc = .insert ix b := by
    intro b
    cases hpc : st.pc with
    | notify i b' =>
      simp only [Pc.inflight]
      split
      · rename_i h; simp [h, eq_comm]
      · rename_i h; simp [h]
    | insert jx b' =>
      simp only [Pc.inflight]
      split
      · rename_i h; simp [h, eq_comm]
      · rename_i h
        simp only [List.not_mem_nil, false_iff, reduceCtorEq, exists_const, and_false, false_or, Pc.insert.injEq]
        exact fun hh => h hh.1.symm
    | _ => simp [Pc.inflight]
  refine ⟨List.nodup_iff_count_le_one.2 fun b => ?_, fun b => ?_⟩
  · rw [hl b]
    have h1 : (st.assigned ix).count b ≤ 1 := List.nodup_iff_count_le_one.1 (OSet.sorted_nodup hp.sorted) b
    have h2 : (st.pc.inflight ix).count b ≤ 1 := by
      unfold Pc.inflight
      split
      · split
        · exact List.nodup_iff_count_le_one.1 (List.nodup_singleton _) b
        · simp
      · split
        · exact List.nodup_iff_count_le_one.1 (List.nodup_singleton _) b
        · simp
      · simp
    by_cases hb : b ∈ st.pc.inflight ix
    · rw [List.count_eq_zero.2 (hp.own b hb)]
      omega
    · rw [List.count_eq_zero.2 hb]
      omega
  · rw [← List.count_pos_iff, hl b, ← hin b]
    constructor
    · intro h
      by_cases hb : b ∈ st.assigned ix
      · exact Or.inl hb
      · rw [List.count_eq_zero.2 hb, Nat.zero_add] at h
        exact Or.inr (List.count_pos_iff.1 h)
    · rintro (h | h)
      · have := List.count_pos_iff.2 h
        omega
      · have := List.count_pos_iff.2 h
        omega

/-- C42: when the master is told that blocks are finished, they are in its set of blocks for this process. -/
theorem C42_finished (h0 : kinds ≠ []) (hk : ∀ k ∈ kinds, k.length < 4294967296) (hd : ∀ s ∈ ss, s.blocks.Nodup)
    (hr : Reachable env (initial kinds fs (program ss)) st) :
    (∀ ix, ix < kinds.length → ∀ bs ∈ (st.procs ix).finishedOut, ∀ b ∈ bs, b ∈ st.assigned ix) ∧
    ∀ c, st.pc = .flush c → ∀ b ∈ (st.procs 0).pool.finished, b ∈ st.assigned 0 := by
  have hinv := (Inv.initial h0 hk fs (Run.distinct_program hd)).reachable hr
  refine ⟨fun ix hx bs hbs b hb => ?_, fun c hpc b hb => ?_⟩
  · have hp := hinv.each ix (by rw [(Kinds.reachable hr).1]; exact hx)
    have hin : st.pc.inflight ix = [] := by
      have h1 := hp.prot
      cases hpc : st.pc with
      | notify i b =>
        rw [hpc] at h1
        rw [h1.2.1] at hbs
        cases hbs
      | insert i b =>
        rw [hpc] at h1
        rw [h1.2.1] at hbs
        cases hbs
      | _ => rfl
    have hl := hp.ledger b
    rw [hin] at hl
    have : 0 < (st.procs ix).finishedOut.flatten.count b := List.count_pos_iff.2 (List.mem_flatten.2 ⟨bs, hbs, hb⟩)
    unfold Proc.held at hl
    simp only [List.count_nil, Nat.add_zero] at hl
    exact List.count_pos_iff.1 (by omega)
  · have hl := (hinv.each 0 hinv.pos).ledger b
    rw [hpc] at hl
    have : 0 < (st.procs 0).pool.finished.count b := List.count_pos_iff.2 hb
    unfold Proc.held Proc.known at hl
    simp only [Pc.inflight, List.count_nil, Nat.add_zero] at hl
    exact List.count_pos_iff.1 (by omega)

/-- C42: a run over blocks that can be computed never fails, whatever happened before: no queue is empty when something
is taken from it, no block is unknown when it is reported, there is a file store whenever it is used, and whatever is
read from files can be read. -/
theorem C42_safe {result : ConfigNode → Block → StoreMap} (hi : Input env ss result) (hp : Past env ss fs)
    (h0 : kinds ≠ []) (hk : ∀ k ∈ kinds, k.length < 4294967296)
    (hr : Reachable env (initial kinds fs (program ss)) st) (l : Label) :
    step env st l ≠ .abort ∧ step env st l ≠ .ub ∧ ∃ o, step env st l = .ok o := by
  obtain ⟨o, ho⟩ := step_ok (DataInv.reachable hi h0 hk (hp.kept hi) hr) hi ((Inv.start hi h0 hk).reachable hr) l
  rw [ho]
  exact ⟨by simp, by simp, o, rfl⟩

/-- C42: whenever the master waits for the answer of a worker, the worker will send it, and it is the only answer. -/
theorem C42_answers (h0 : kinds ≠ []) (hk : ∀ k ∈ kinds, k.length < 4294967296) (hd : ∀ s ∈ ss, s.blocks.Nodup)
    (hr : Reachable env (initial kinds fs (program ss)) st) {ix : Nat} :
    (∀ c, st.pc = .flushRecv ix c → ∃ n st' bs, exec env st (List.replicate n (.worker ix)) = some st' ∧
      st'.pc = .flushRecv ix c ∧ (st'.procs ix).finishedOut = [bs]) ∧
    (st.pc = .readyRecv ix → ∃ n st' r, exec env st (List.replicate n (.worker ix)) = some st' ∧
      st'.pc = .readyRecv ix ∧ (st'.procs ix).readyOut = [r]) ∧
    ∀ k, st.pc = .saveRecv ix k → ∃ n st' s, exec env st (List.replicate n (.worker ix)) = some st' ∧
      st'.pc = .saveRecv ix k ∧ (st'.procs ix).saveOut = [s] := by
  have hinv := (Inv.initial h0 hk fs (Run.distinct_program hd)).reachable hr
  have hs := Serves.reachable hr
  have hst := hinv.started
  refine ⟨fun c hpc => ?_, fun hpc => ?_, fun k hpc => ?_⟩
  · rw [hpc] at hst
    obtain ⟨n, st', h1, h2, ⟨bs, h3⟩, _⟩ := answers (env := env) (ix := ix) (r := .finished) _ hinv hs rfl hst.2 hst.1
      (by rw [hpc]; exact if_pos rfl)
    exact ⟨n, st', bs, h1, h2.trans hpc, h3⟩
  · rw [hpc] at hst
    obtain ⟨n, st', h1, h2, _, ⟨bs, h3⟩, _⟩ := answers (env := env) (ix := ix) (r := .ready) _ hinv hs rfl hst.2 hst.1
      (by rw [hpc]; exact if_pos rfl)
    exact ⟨n, st', bs, h1, h2.trans hpc, h3⟩
  · rw [hpc] at hst
    obtain ⟨n, st', h1, h2, _, _, bs, h3⟩ := answers (env := env) (ix := ix) (r := .save) _ hinv hs rfl hst.2 hst.1
      (by rw [hpc]; exact if_pos rfl)
    exact ⟨n, st', bs, h1, h2.trans hpc, h3⟩

/-- C43: after any number of runs over the same blocks with one or several processes, each of which ended or died at
any time except inside the write of a record file, a run with several processes that ends leaves a directory in which
every block is in exactly one record, and the merger gives the sum of the results of all blocks. -/
theorem C43_exact {result : ConfigNode → Block → StoreMap} (hi : Input env ss result) (hp : Past env ss fs)
    (h0 : kinds ≠ []) (hk : ∀ k ∈ kinds, k.length < 4294967296)
    (hr : Reachable env (initial kinds fs (program ss)) st) (hpc : st.pc = .finished) (ht : st.todo = []) :
    ∀ s ∈ ss, ∃ d ps, st.fs s.cfg.resultPath = some d ∧ d.Holds ps ∧
      (∀ b, (ps.flatMap Prod.fst).count b = if b ∈ s.blocks then 1 else 0) ∧
      ∃ r m, Merger.merge d = .ok ⟨0, some (Store.print m, Record.print r)⟩ ∧
        Tally m (s.blocks.flatMap (result s.cfg)) ∧ OSet.Sorted r ∧ ∀ b, b ≠ [] → (b ∈ r ↔ b ∈ s.blocks) := by
  intro s hs
  obtain ⟨d, ps, h1, _, h3, ⟨h4, _⟩, h5⟩ := (DataInv.reachable hi h0 hk (hp.kept hi) hr).finished hi
    ((Inv.start hi h0 hk).reachable hr) hpc ht s hs
  obtain ⟨o, h6, h7⟩ := merge_holds h3
  refine ⟨d, ps, h1, h3, fun b => ?_, o.1, o.2, h6, Run.tally_sections h4 h5 h7.sum, h7.union.sorted, fun b hb => ?_⟩
  · have h8 : (ps.flatMap Prod.fst).count b = s.blocks.count b := h5.count_eq b
    rw [h8]
    split
    · rename_i hb
      exact List.count_eq_one_of_mem (hi.blocks s hs) hb
    · rename_i hb
      exact List.count_eq_zero.2 hb
  · rw [h7.union.mem b hb, ← h5.mem_iff, recorded, List.mem_flatMap]

/-- Directories in which all blocks are recorded have the same merge. -/
theorem complete_merge {result : ConfigNode → Block → StoreMap} {fs' : FileSystem} {s : Sect}
    (h : Run.Complete result fs s) (h' : Run.Complete result fs' s) : ∃ d d', fs s.cfg.resultPath = some d ∧
      fs' s.cfg.resultPath = some d' ∧ ∃ o, Merger.merge d = .ok ⟨0, some o⟩ ∧ Merger.merge d' = .ok ⟨0, some o⟩ := by
  obtain ⟨d, ps, h1, _, h3, ⟨h4, _⟩, h5⟩ := h
  obtain ⟨d', ps', h1', _, h3', ⟨h4', _⟩, h5'⟩ := h'
  obtain ⟨o, h6, h7⟩ := merge_holds h3
  obtain ⟨o', h6', h7'⟩ := merge_holds h3'
  have hne : ∀ ps : List (OSet Block × StoreMap), (recorded ps).Perm s.blocks →
      ((∃ p ∈ ps, p.1 ≠ []) ↔ s.blocks ≠ []) := by
    intro ps hps
    rw [← not_iff_not, not_not]
    constructor
    · intro hx
      have : recorded ps = [] := List.flatMap_eq_nil_iff.2 fun p hp => by
        by_contra hc
        exact hx ⟨p, hp, hc⟩
      rw [this] at hps
      exact hps.symm.eq_nil
    · rintro hx ⟨p, hp, hc⟩
      rw [hx] at hps
      exact hc (List.flatMap_eq_nil_iff.1 hps.eq_nil p hp)
  have hoo : o = o' := by
    refine Prod.ext (h7.union.unique h7'.union (fun b _ => ?_) ?_)
      ((Run.tally_sections h4 h5 h7.sum).unique (Run.tally_sections h4' h5' h7'.sum) (List.Perm.refl _))
    · have e1 := h5.mem_iff (a := b)
      have e2 := h5'.mem_iff (a := b)
      rw [recorded, List.mem_flatMap] at e1 e2
      rw [e1, e2]
    · rw [hne ps h5, hne ps' h5']
  subst hoo
  exact ⟨d, d', h1, h1', _, h6, h6'⟩

/-- C43: a run with any number of processes and a run with one process over the same blocks, whatever files they
started with, give the same result. -/
theorem C43_same {result : ConfigNode → Block → StoreMap} (hi : Input env ss result) (hp : Past env ss fs)
    (h0 : kinds ≠ []) (hk : ∀ k ∈ kinds, k.length < 4294967296)
    (hr : Reachable env (initial kinds fs (program ss)) st) (hpc : st.pc = .finished) (ht : st.todo = [])
    {fs' : FileSystem} (hp' : Past env ss fs') {kinds' : List Bool} (hk' : kinds'.length < 4294967296) {st' : Run.State}
    (hr' : Run.Reachable env (Run.initial kinds' fs' (program ss)) st') (hpc' : st'.pc = .finished)
    (ht' : st'.todo = []) : ∀ s ∈ ss, ∃ d d', st.fs s.cfg.resultPath = some d ∧ st'.fs s.cfg.resultPath = some d' ∧
      ∃ o, Merger.merge d = .ok ⟨0, some o⟩ ∧ Merger.merge d' = .ok ⟨0, some o⟩ := by
  intro s hs
  exact complete_merge ((DataInv.reachable hi h0 hk (hp.kept hi) hr).finished hi ((Inv.start hi h0 hk).reachable hr) hpc ht s hs)
    ((Run.DataInv.reachable hi hk' (hp'.kept hi) hr').finished hi ((Run.Good.init env hk' fs' hi.blocks).reachable hr')
      (Run.all_done hk' hi.blocks hr' (by rw [hpc']; rfl)).2.1 hpc' ht' s hs)

end

/-- Two sections with one and three blocks. -/
def demoSects : List Sect :=
  [⟨⟨7, 1, 2, false, 1, "a".toList, 100⟩, [[(0, 10)]]⟩,
    ⟨⟨11, 1, 1, false, 1, "b".toList, 100⟩, [[(0, 10)], [(10, 20)], [(20, 22)]]⟩]

def demoResult : ConfigNode → Block → StoreMap := fun c b => [(⟨[c.prime], [b.length]⟩, 3)]

def demoEnv : Env := ⟨fun c b => .ok (demoResult c b)⟩

/-- Two processes, the first with one thread, the second with one thread of each kind. -/
def demoInit : State := initial [[false], [true, false]] (fun _ => none) (program demoSects)

/-- The scheduler tries a step. -/
def attempt (env : Env) (st : State) (l : Label) : State :=
  match step env st l with
  | .ok (some st') => st'
  | _ => st

/-- The threads that get the first blocks are slower than the other one. -/
def round (n : Nat) : List Label :=
  [.master ⟨false, true, n⟩, .worker 1, .thread 1 1] ++ if n % 8 = 0 then [.thread 0 0, .thread 1 0] else []

/-- Some rounds of the scheduler. -/
def demoRun (n : Nat) : State := ((List.range n).flatMap round).foldl (attempt demoEnv) demoInit

theorem attempts_reachable {env : Env} {st₀ : State} : ∀ (ls : List Label) {st : State}, Reachable env st₀ st →
    Reachable env st₀ (ls.foldl (attempt env) st)
  | [], _, h => h
  | l :: ls, st, h => by
    refine attempts_reachable ls ?_
    unfold attempt
    split
    · rename_i hs
      exact .step l h hs
    · exact h

theorem demo_reachable (n : Nat) : Reachable demoEnv demoInit (demoRun n) := attempts_reachable _ .refl

theorem demo_input : Input demoEnv demoSects demoResult where
  paths := by decide
  blocks := by decide
  nonempty := by decide
  fit := by decide
  compute := fun _ _ _ _ => rfl
  keys := by
    intro s hs b hb e he
    rw [List.mem_singleton.1 he]
    clear he
    refine ⟨by simp, by simp, ?_, ?_⟩
    · revert b s
      decide
    · revert b s
      decide
  counts := by
    intro s _ b _ e he
    rw [List.mem_singleton.1 he]
    show (0 : Int) ≤ 3
    decide
  small := by
    intro s hs k
    rcases List.mem_cons.1 hs with rfl | hs
    · show Small (total [(⟨[7], [1]⟩, 3)] k)
      by_cases hk : (⟨[7], [1]⟩ : Key) = k
      · subst hk
        exact ⟨by decide, by decide⟩
      · simp [total, hk, Small]
    · rw [List.mem_singleton.1 hs]
      show Small (total [(⟨[11], [1]⟩, 3), (⟨[11], [1]⟩, 3), (⟨[11], [1]⟩, 3)] k)
      by_cases hk : (⟨[11], [1]⟩ : Key) = k
      · subst hk
        exact ⟨by decide, by decide⟩
      · simp [total, hk, Small]

/-- Hypotheses of C42: there is no assumption on the files, the blocks of each section are different. -/
example : ∀ s ∈ demoSects, s.blocks.Nodup := by decide

set_option maxRecDepth 20000 in
/-- Hypotheses of `C42_idle`: the master has threads of both processes in its queues. -/
example : (demoRun 80).cpuQueue = [0, 1] ∧ (demoRun 80).openclQueue = [1] ∧ (demoRun 80).pc = .take := ⟨rfl, rfl, rfl⟩

set_option maxRecDepth 20000 in
/-- Hypotheses of C43: a run with two processes ends. -/
example : (demoRun 150).pc = .finished ∧ (demoRun 150).todo = [] := ⟨rfl, rfl⟩

set_option maxRecDepth 20000 in
/-- Both processes have contributed to the second directory. -/
example : ((demoRun 150).fs "b".toList) = some [
    ("130.hycu_store".toList, .file "11;1:3\n".toList), ("130.hycu_record".toList, .file "10 20 \n".toList),
    ("135.hycu_store".toList, .file "11;1:6\n".toList), ("135.hycu_record".toList, .file "0 10 \n20 22 \n".toList)] := rfl

/-- Hypotheses of `C42_safe` and C43. -/
example : Past demoEnv demoSects (fun _ => none) ∧ Past demoEnv demoSects (demoRun 132).fs :=
  have h : Past demoEnv demoSects (fun _ => none) := .start _ (by intro s hs d hd; cases hd)
  ⟨h, .mpi _ _ [[false], [true, false]] _ h (by simp) (by decide) (demo_reachable 132) .between⟩

end Mpi
end Hycu
