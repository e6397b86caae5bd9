import Verif.Lemmas.MpiInv
import Verif.Lemmas.RunData
import Verif.Spec.Mpi

/-!
Where the results of the blocks are in the course of a run with several processes.
-/

namespace Hycu
namespace Mpi

open Run (Tables Job Phase Thread ThreadPool FileStoreObj Cmd Cont Choice Env eraseFinished Book lead Distinct Sect program
  Input Tasks Course Layout exactly Kept holds_empty recorded recorded_append Sound KeptIn CompleteIn HoldingIn Plain filter_recorded pairOk_of verify_fs path_ne
  isUnion_contains)

/-- Number of times that a block is on the way to a process, in the queue of one of its threads or computed, or in its
static store. -/
def Proc.load (p : Proc) (b : Block) : Nat := p.inBlocks.count b + p.work b + p.static.record.count b

/-- The configuration that a process has or will have when it handles its messages. -/
def Proc.cfgOf (p : Proc) : Option ConfigNode :=
  match p.inbox with
  | .config c :: _ => some c
  | _ => p.current.map Tables.cfg

theorem Proc.cfgOf_current {p : Proc} (h : ∀ c ms, p.inbox ≠ .config c :: ms) : p.cfgOf = p.current.map Tables.cfg := by
  unfold Proc.cfgOf
  split
  · rename_i c ms hi
    exact absurd hi (h c ms)
  · rfl

theorem Proc.cfgOf_congr {p p' : Proc} (h1 : p'.inbox = p.inbox) (h2 : p'.current = p.current) : p'.cfgOf = p.cfgOf := by
  unfold Proc.cfgOf
  rw [h1, h2]

/-- What is still to be written. -/
def Pc.writes : Pc → List (List Char × List Char)
  | .write ws _ _ => ws
  | _ => []

/-- The next configuration has been verified. -/
def Pc.ver : Pc → Bool
  | .flush (.wait .config) | .flushSend _ (.wait .config) | .flushRecv _ (.wait .config) | .waited .config
  | .save .config | .saveSend _ .config | .saveRecv _ .config | .write _ _ .config | .newStore | .update
  | .configSend _ => true
  | _ => false

/-- The next configuration is being set. -/
def Pc.setting : Pc → Bool
  | .update | .configSend _ => true
  | _ => false

/-- The stores of the processes are being saved. -/
def Pc.saving : Pc → Bool
  | .saveSend _ _ | .saveRecv _ _ | .write _ _ _ => true
  | _ => false

/-- A block is about to be assigned. -/
def Pc.filling : Pc → Bool
  | .flush .fill | .flushSend _ .fill | .flushRecv _ .fill | .ready | .readySend _ | .readyRecv _ | .filled | .take => true
  | _ => false

/-- A process has been saved for the last time. -/
def Pc.clean : Pc → Nat → Prop
  | .saveSend jx k, q => k ≠ .assign ∧ q < jx
  | .saveRecv jx k, q => k ≠ .assign ∧ q < jx
  | .write _ jx k, q => k ≠ .assign ∧ q ≤ jx
  | .newStore, _ | .update, _ | .configSend _, _ | .stopSend _, _ | .shutdown _, _ | .shutNotify _, _ | .join _, _
  | .finished, _ => True
  | _, _ => False

theorem Pc.clean.quiet {pc : Pc} {q : Nat} (h : pc.clean q) : pc.quiet := by
  cases pc <;> first | exact h.1 | exact h | trivial

/-- A process that has done nothing so far. -/
structure Blank (p : Proc) : Prop where
  held : ∀ b, p.held b = 0
  static : p.static = ⟨[], []⟩
  saveOut : p.saveOut = []

/-- The position in the list of sections. -/
structure At (ss : List Sect) (st : State) (pre : List Sect) (s : Sect) (post : List Sect) (done rest : List Block) :
    Prop where
  sections : ss = pre ++ s :: post
  blocks : s.blocks = done ++ rest
  todo : st.todo = rest.map .assign ++ program post

/-- What a process sends for a record and a store. -/
def printed (x : OSet Block × StoreMap) : List Char × List Char := (Record.print x.1, Store.print x.2)

/-- The current section: `ps₀` was recorded before, `sv` has been saved since, `sr` is sent by the processes. -/
structure CurIn (L : Layout) (result : ConfigNode → Block → StoreMap) (s : Sect) (done : List Block) (st : State)
    (d : Dir) (ps w ps₀ sv : List (OSet Block × StoreMap)) (sr : Nat → List (OSet Block × StoreMap)) : Prop where
  dir : st.fs s.cfg.resultPath = some d
  plain : Plain d
  holding : HoldingIn L s d st.pc.writes ps w
  split : ps ++ w = ps₀ ++ sv
  sound : Sound result s ps₀
  tally : ∀ p ∈ sv, Match (result s.cfg) p.1 p.2
  static : ∀ q, q < st.nprocs → Match (result s.cfg) (st.procs q).static.record (st.procs q).static.store
  replies : ∀ q, q < st.nprocs → (st.procs q).saveOut = (sr q).map printed
  sent : ∀ q, q < st.nprocs → ∀ x ∈ sr q, Match (result s.cfg) x.1 x.2
  law : ∀ b, (done.filter fun b => b ∉ recorded ps₀).count b =
    (recorded sv).count b + ∑ q ∈ Finset.range st.nprocs, ((st.procs q).load b + (recorded (sr q)).count b)
  store : st.pc.setting = false → ∃ f, st.fileStore = some f ∧ f.valid = true ∧ f.config = s.cfg ∧ 
      ∀ b ∈ s.blocks, b ≠ [] → (FileStore.contains f.initial b = true ↔ b ∈ recorded ps₀)
  cfg : st.pc.setting = false → ∀ q, q < st.nprocs → (st.procs q).cfgOf = some s.cfg

/-- There is a current section. -/
def Started (P : Course) (result : ConfigNode → Block → StoreMap) (ss : List Sect) (st : State) : Prop :=
  ∃ pre s post done rest, At ss st pre s post done rest ∧
    (∀ p, p ≠ s.cfg.resultPath → P.after pre p (st.fs p)) ∧
    ∃ d ps w ps₀ sv sr, CurIn (P.layout pre) result s done st d ps w ps₀ sv sr

/-- There is no section so far. -/
structure Unstarted (P : Course) (result : ConfigNode → Block → StoreMap) (ss : List Sect) (st : State) : Prop where
  todo : st.todo = program ss
  kept : ∀ p, P.after [] p (st.fs p)
  blank : ∀ q, q < st.nprocs → Blank (st.procs q)
  store : st.pc.setting = false → st.fileStore = none
  saving : st.pc.saving = false

/-- The data of a run. -/
structure DataInvIn (P : Course) (result : ConfigNode → Block → StoreMap) (ss : List Sect) (st : State) : Prop where
  sects : Unstarted P result ss st ∨ Started P result ss st
  clean : ∀ q, q < st.nprocs → st.pc.clean q → (st.procs q).static = ⟨[], []⟩
  sent : ∀ q k, q < st.nprocs → st.pc = .saveRecv q k → k ≠ .assign → (st.procs q).saveOut ≠ [] →
    (st.procs q).static = ⟨[], []⟩
  ver : st.pc.ver = true → ∀ c rest, st.todo = .config c :: rest → ∃ d, st.fs c.resultPath = some d
  next : st.pc.setting = true → ∀ c rest, st.todo = .config c :: rest → ∃ f d, st.fileStore = some f ∧
    f.valid = true ∧ f.config = c ∧ st.fs c.resultPath = some d ∧ FileStore.initialRecord d = .ok f.initial
  told : ∀ ix, st.pc = .configSend ix → ∀ c rest, st.todo = .config c :: rest → ∀ q, q < st.nprocs → q < ix →
    (st.procs q).cfgOf = some c
  free : st.pc.filling = true → ∀ b rest, st.todo = .assign b :: rest → ∀ f, st.fileStore = some f →
    FileStore.contains f.initial b = false

section

variable {L : Layout} {P : Course} {env : Env} {result : ConfigNode → Block → StoreMap} {ss : List Sect} {st st' : State}

/-- A process makes a step. -/
theorem DataInvIn.proc (h : DataInvIn P result ss st) {ix : Nat} (hx : ix < st.nprocs) {p : Proc}
    (hl : ∀ b, p.load b = (st.procs ix).load b) (hs : p.saveOut = (st.procs ix).saveOut)
    (hc : p.cfgOf = (st.procs ix).cfgOf ∨ (st.pc.setting = true ∧ ∀ jx, st.pc = .configSend jx → jx ≤ ix))
    (hq : st.pc.quiet → p.static = (st.procs ix).static)
    (hb : Unstarted P result ss st → Blank p)
    (hm : ∀ pre s post done rest d ps w ps₀ sv sr, At ss st pre s post done rest →
      CurIn (P.layout pre) result s done st d ps w ps₀ sv sr → Match (result s.cfg) p.static.record p.static.store) :
    DataInvIn P result ss (st.setProc ix p) := by
  refine ⟨?_, ?_, ?_, h.ver, h.next, ?_, h.free⟩
  · rcases h.sects with hu | ⟨pre, s, post, done, rest, ha, a1, d, ps, w, ps₀, sv, sr, hcu⟩
    · refine Or.inl ⟨hu.todo, hu.kept, fun q hq' => ?_, hu.store, hu.saving⟩
      simp only [State.setProc]
      by_cases hqx : q = ix
      · subst hqx; rw [Function.update_self]; exact hb hu
      · rw [Function.update_of_ne hqx]; exact hu.blank q hq'
    · refine Or.inr ⟨pre, s, post, done, rest, ⟨ha.sections, ha.blocks, ha.todo⟩, a1, d, ps, w, ps₀, sv, sr,
        hcu.dir, hcu.plain, hcu.holding, hcu.split, hcu.sound, hcu.tally, fun q hq' => ?_, fun q hq' => ?_, hcu.sent,
        fun b => ?_, hcu.store, fun hset q hq' => ?_⟩
      · simp only [State.setProc]
        by_cases hqx : q = ix
        · subst hqx; rw [Function.update_self]; exact hm _ _ _ _ _ _ _ _ _ _ _ ha hcu
        · rw [Function.update_of_ne hqx]; exact hcu.static q hq'
      · simp only [State.setProc]
        by_cases hqx : q = ix
        · subst hqx; rw [Function.update_self, hs]; exact hcu.replies q hq'
        · rw [Function.update_of_ne hqx]; exact hcu.replies q hq'
      · rw [hcu.law b]
        congr 1
        refine Finset.sum_congr rfl fun q _ => ?_
        simp only [State.setProc]
        by_cases hqx : q = ix
        · subst hqx; rw [Function.update_self, hl]
        · rw [Function.update_of_ne hqx]
      · simp only [State.setProc]
        by_cases hqx : q = ix
        · subst hqx
          rw [Function.update_self]
          rcases hc with hc | hc
          · rw [hc]; exact hcu.cfg hset q hq'
          · rw [show st.pc.setting = false from hset] at hc
            exact absurd hc.1 (by simp)
        · rw [Function.update_of_ne hqx]; exact hcu.cfg hset q hq'
  · intro q hq' hcl
    simp only [State.setProc]
    by_cases hqx : q = ix
    · subst hqx
      rw [Function.update_self, hq (Pc.clean.quiet hcl)]
      exact h.clean q hq' hcl
    · rw [Function.update_of_ne hqx]
      exact h.clean q hq' hcl
  · intro q k hq' hpc hk hne
    simp only [State.setProc] at hne ⊢
    by_cases hqx : q = ix
    · subst hqx
      rw [Function.update_self] at hne ⊢
      rw [hs] at hne
      have hpc' : st.pc = .saveRecv q k := hpc
      rw [hq (by rw [hpc']; exact hk)]
      exact h.sent q k hq' hpc hk hne
    · rw [Function.update_of_ne hqx] at hne ⊢
      exact h.sent q k hq' hpc hk hne
  · intro jx hpc c rest ht q hq' hlt
    simp only [State.setProc]
    by_cases hqx : q = ix
    · subst hqx
      rw [Function.update_self]
      rcases hc with hc | hc
      · rw [hc]; exact h.told jx hpc c rest ht q hq' hlt
      · exact absurd (hc.2 jx hpc) (by omega)
    · rw [Function.update_of_ne hqx]
      exact h.told jx hpc c rest ht q hq' hlt

/-- The master makes a step that does not concern the data. -/
theorem DataInvIn.move (h : DataInvIn P result ss st) (pc' : Pc) (hw : pc'.writes = st.pc.writes)
    (hs : pc'.setting = false) (hs' : st.pc.setting = false) (hsv : pc'.saving = true → st.pc.saving = true)
    (hcl : ∀ q, q < st.nprocs → pc'.clean q → (st.procs q).static = ⟨[], []⟩)
    (hse : ∀ q k, q < st.nprocs → pc' = .saveRecv q k → k ≠ .assign → (st.procs q).saveOut ≠ [] →
      (st.procs q).static = ⟨[], []⟩)
    (hv : pc'.ver = true → st.pc.ver = true) (hf : pc'.filling = true → st.pc.filling = true)
    (cq oq : List Nat) (asg : Nat → OSet Block) :
    DataInvIn P result ss { st with pc := pc', cpuQueue := cq, openclQueue := oq, assigned := asg } := by
  refine ⟨?_, hcl, hse, fun hx => h.ver (hv hx), fun hx => ?_, fun ix hx => ?_, fun hx => h.free (hf hx)⟩
  · rcases h.sects with hu | ⟨pre, s, post, done, rest, ha, a1, d, ps, w, ps₀, sv, sr, hcu⟩
    · refine Or.inl ⟨hu.todo, hu.kept, hu.blank, fun _ => hu.store hs', ?_⟩
      cases hx : pc'.saving with
      | false => rfl
      | true => exact absurd (hsv hx) (by rw [hu.saving]; simp)
    · exact Or.inr ⟨pre, s, post, done, rest, ⟨ha.sections, ha.blocks, ha.todo⟩, a1, d, ps, w, ps₀, sv, sr,
        hcu.dir, hcu.plain, by rw [hw]; exact hcu.holding, hcu.split, hcu.sound, hcu.tally, hcu.static, hcu.replies,
        hcu.sent, hcu.law, fun _ => hcu.store hs', fun _ => hcu.cfg hs'⟩
  · rw [show (State.pc { st with pc := pc', cpuQueue := cq, openclQueue := oq, assigned := asg }) = pc' from rfl, hs] at hx
    cases hx
  · have hx' : pc' = .configSend ix := hx
    rw [hx'] at hs
    cases hs

/-- No block is known or on the way. -/
theorem blank_idle {pc : Pc} {cpu ocl : Nat} {asg : OSet Block} {ld : List Block} {ix : Nat} {p : Proc}
    (h : PerProc pc cpu ocl asg ld ix p) (hk : ∀ b, p.known b = 0) : ∀ i, i < p.size → (p.thr i).jobs = [] :=
  h.ok.idle (Proc.busy_nil hk).1

theorem held_known {p : Proc} (h : ∀ b, p.held b = 0) (b : Block) : p.known b = 0 := by
  have := h b
  unfold Proc.held at this
  omega

theorem At.mem {pre post : List Sect} {s : Sect} {done rest : List Block} (h : At ss st pre s post done rest) : s ∈ ss := by
  rw [h.sections]
  simp

/-- The blocks counted in `law` are blocks of the section. -/
theorem CurIn.bound {s : Sect} {done rest : List Block} {d : Dir} {ps w ps₀ sv : List (OSet Block × StoreMap)}
    {sr : Nat → List (OSet Block × StoreMap)} (h : CurIn L result s done st d ps w ps₀ sv sr) (hn : s.blocks.Nodup)
    (hb : s.blocks = done ++ rest) (b : Block) :
    (recorded sv).count b + ∑ q ∈ Finset.range st.nprocs, ((st.procs q).load b + (recorded (sr q)).count b) ≤
      (s.blocks.filter fun b => b ∉ recorded ps₀).count b ∧
    (s.blocks.filter fun b => b ∉ recorded ps₀).count b ≤ 1 := by
  refine ⟨?_, List.nodup_iff_count_le_one.1 (hn.filter _) b⟩
  rw [← h.law b, hb, List.filter_append, List.count_append]
  omega

theorem le_sum {n q : Nat} (h : q < n) (f : Nat → Nat) : f q ≤ ∑ k ∈ Finset.range n, f k :=
  Finset.single_le_sum (f := f) (fun _ _ => Nat.zero_le _) (Finset.mem_range.2 h)

/-- A thread makes a step. -/
theorem DataInvIn.thread (h : DataInvIn P result ss st) (hi : Tasks env ss result) (hv : Inv st) {ix : Nat}
    (hx : ix < st.nprocs) {i : Nat} (hlt : i < (st.procs ix).size) {p : Proc}
    (ht : Proc.TStep env (st.procs ix) i p) : DataInvIn P result ss (st.setProc ix p) := by
  have hp := hv.each ix hx
  obtain ⟨h1, h2, h3, h4, h5⟩ := ht.effect hlt hp.ok
  have hin : p.inBlocks = (st.procs ix).inBlocks := by unfold Proc.inBlocks; rw [h2.inbox]
  have hcfg : p.cfgOf = (st.procs ix).cfgOf := Proc.cfgOf_congr h2.inbox h2.current
  have hheld : (∀ b, (st.procs ix).held b = 0) → ∀ b, p.held b = 0 := fun hz b => by
    have := hz b
    unfold Proc.held at this ⊢
    rw [hin, h4, h2.finishedOut]
    exact this
  rcases h5 with ⟨h5, h6⟩ | ⟨j, tb, m, r, hj, htb, hm, hf, h5, h6⟩
  · refine h.proc hx (fun b => ?_) h2.saveOut (Or.inl hcfg) (fun _ => h5) (fun hu => ?_) ?_
    · unfold Proc.load
      rw [hin, h6, h5]
    · have hb := hu.blank ix hx
      exact ⟨hheld hb.held, h5.trans hb.static, h2.saveOut.trans hb.saveOut⟩
    · intro _ s _ _ _ _ _ _ _ _ _ _ hc
      rw [h5]
      exact hc.static ix hx
  · have hjob : ¬ ∀ b, (st.procs ix).known b = 0 := fun hz => by
      rw [blank_idle hp hz i hlt] at hj
      cases hj
    have hquiet : ¬ st.pc.quiet := fun hqu => hjob (hp.known_zero (by
      revert hqu; cases st.pc <;> intro hqu <;> first | rfl | cases hqu) (hp.quiet hqu))
    have hset : st.pc.setting = false := by
      revert hquiet
      cases st.pc <;> intro hquiet <;> first | rfl | exact absurd trivial hquiet
    have hcur : j.tables = (st.procs ix).current := hp.ok.jobTables i hlt j hj
    have hhead : ∀ c ms, (st.procs ix).inbox ≠ .config c :: ms := fun c ms hc => hjob (hp.head c ms hc)
    have hwork : 0 < (st.procs ix).work j.block := by
      rw [h6]
      simp
    -- what is known in the current section
    have key : ∀ pre s post done rest d ps w ps₀ sv sr, At ss st pre s post done rest →
        CurIn (P.layout pre) result s done st d ps w ps₀ sv sr → s ∈ ss ∧ m = result s.cfg j.block ∧
          j.block ∉ (st.procs ix).static.record ∧ (∀ b, r.1.record.count b = (st.procs ix).static.record.count b +
            [j.block].count b) ∧ Match (result s.cfg) r.1.record r.1.store := by
      intro pre s post done rest d ps w ps₀ sv sr ha hc
      have hs := ha.mem
      have hbd := hc.bound (hi.blocks s hs) ha.blocks j.block
      have hle := le_sum hx fun q => (st.procs q).load j.block + (recorded (sr q)).count j.block
      have hload : (st.procs ix).load j.block = (st.procs ix).inBlocks.count j.block + (st.procs ix).work j.block +
        (st.procs ix).static.record.count j.block := rfl
      have hb : j.block ∈ s.blocks := by
        have : 0 < (s.blocks.filter fun b => b ∉ recorded ps₀).count j.block := by omega
        exact (List.mem_filter.1 (List.count_pos_iff.1 this)).1
      have hcf : tb.cfg = s.cfg := by
        have e := hc.cfg hset ix hx
        rw [Proc.cfgOf_current hhead, ← hcur, htb] at e
        exact Option.some.inj e
      have hres : m = result s.cfg j.block := by
        rw [hcf, hi.compute s hs _ hb] at hm
        exact (Res.ok.inj hm).symm
      subst hres
      have hnew : j.block ∉ (st.procs ix).static.record := by
        rw [← List.count_eq_zero]
        omega
      have hst := hc.static ix hx
      have hstat : r.1.record = OSet.insert (st.procs ix).static.record j.block ∧
          Tally r.1.store ((st.procs ix).static.record.flatMap (result s.cfg) ++ result s.cfg j.block) := by
        unfold Store.flushToStatic at hf
        obtain ⟨m', h3, hf⟩ := Res.bind_eq_ok.1 hf
        cases hf
        exact ⟨rfl, Store.addEntries_ok _ hst.tally h3⟩
      have hperm : (OSet.insert (st.procs ix).static.record j.block).Perm (j.block :: (st.procs ix).static.record) :=
        OSet.perm_insert hst.record_sorted hnew
      refine ⟨hs, rfl, hnew, fun b => ?_, ?_, ?_⟩
      · rw [hstat.1, hperm.count_eq, List.count_cons, List.count_singleton]
      · rw [hstat.1]
        exact OSet.sorted_insert hst.record_sorted _
      · rw [hstat.1]
        refine hstat.2.perm ?_
        refine List.Perm.trans ?_ (hperm.flatMap_right _).symm
        rw [List.flatMap_cons]
        exact List.perm_append_comm
    rcases h.sects with hu | ⟨pre, s, post, done, rest, ha, a1, d, ps, w, ps₀, sv, sr, hcu⟩
    · exact absurd (held_known (hu.blank ix hx).held) hjob
    · obtain ⟨_, _, _, k4, _⟩ := key _ _ _ _ _ _ _ _ _ _ _ ha hcu
      refine h.proc hx (fun b => ?_) h2.saveOut (Or.inl hcfg) (fun hqu => absurd hqu hquiet) (fun hu => ?_) ?_
      · unfold Proc.load
        have := h6 b
        have := k4 b
        rw [hin, h5]
        omega
      · exact absurd (held_known (hu.blank ix hx).held) hjob
      · intro pre s post done rest d ps w ps₀ sv sr ha hc
        rw [h5]
        exact (key _ _ _ _ _ _ _ _ _ _ _ ha hc).2.2.2.2

theorem cfgOf_pop {p p' : Proc} {m : Msg} {ms : List Msg} (hi : p.inbox = m :: ms) (hm : ∀ c, m ≠ .config c)
    (ht : ∀ c, Msg.config c ∉ p.inbox.tail) (h1 : p'.inbox = ms) (h2 : p'.current = p.current) : p'.cfgOf = p.cfgOf := by
  rw [Proc.cfgOf_current, Proc.cfgOf_current, h2]
  · intro c l hc
    rw [hi] at hc
    exact hm c (List.cons_eq_cons.1 hc).1
  · intro c l hc
    refine ht c ?_
    rw [hi]
    show _ ∈ ms
    rw [← h1, hc]
    exact List.mem_cons_self

/-- A worker sends its store. -/
theorem DataInvIn.reply (h : DataInvIn P result ss st) (hv : Inv st) {ix : Nat}
    (hx : ix < st.nprocs) {ms : List Msg} (hi : (st.procs ix).inbox = .save :: ms) :
    DataInvIn P result ss (st.setProc ix { st.procs ix with
      inbox := ms, static := ⟨[], []⟩,
      saveOut := (st.procs ix).saveOut ++
        [(Record.print (st.procs ix).static.record, Store.print (st.procs ix).static.store)] }) := by
  have hp := hv.each ix hx
  obtain ⟨he, hms, hsi⟩ := hp.prot.request (r' := .save) hi
  subst hms
  have hpc : ∃ k, st.pc = .saveRecv ix k := by
    revert he
    cases hpc : st.pc with
    | saveRecv jx k =>
      intro he
      simp only [Pc.expects] at he
      split at he
      · rename_i hj; rw [hj]; exact ⟨k, rfl⟩
      · cases he
    | flushRecv jx c => intro he; simp only [Pc.expects] at he; split at he <;> cases he
    | readyRecv jx => intro he; simp only [Pc.expects] at he; split at he <;> cases he
    | _ => intro he; cases he
  obtain ⟨k, hpc⟩ := hpc
  have hin : ∀ b, (st.procs ix).inBlocks.count b = 0 := fun b => by unfold Proc.inBlocks; rw [hi]; rfl
  have hcfg : ∀ p' : Proc, p'.inbox = [] → p'.current = (st.procs ix).current → p'.cfgOf = (st.procs ix).cfgOf :=
    fun p' e1 e2 => cfgOf_pop hi (by simp) hp.config e1 e2
  refine ⟨?_, ?_, ?_, h.ver, h.next, ?_, h.free⟩
  · rcases h.sects with hu | ⟨pre, s, post, done, rest, ha, a1, d, ps, w, ps₀, sv, sr, hcu⟩
    · have := hu.saving
      rw [hpc] at this
      cases this
    · refine Or.inr ⟨pre, s, post, done, rest, ⟨ha.sections, ha.blocks, ha.todo⟩, a1, d, ps, w, ps₀, sv,
        Function.update sr ix [((st.procs ix).static.record, (st.procs ix).static.store)],
        hcu.dir, hcu.plain, hcu.holding, hcu.split, hcu.sound, hcu.tally, fun q hq' => ?_, fun q hq' => ?_,
        fun q hq' => ?_, fun b => ?_, hcu.store, fun hset q hq' => ?_⟩
      · simp only [State.setProc]
        by_cases hqx : q = ix
        · subst hqx; rw [Function.update_self]; exact ⟨List.Pairwise.nil, Tally.nil⟩
        · rw [Function.update_of_ne hqx]; exact hcu.static q hq'
      · simp only [State.setProc]
        by_cases hqx : q = ix
        · subst hqx
          rw [Function.update_self, Function.update_self, hsi.2.2]
          rfl
        · rw [Function.update_of_ne hqx, Function.update_of_ne hqx]; exact hcu.replies q hq'
      · by_cases hqx : q = ix
        · subst hqx
          rw [Function.update_self]
          intro x hx'
          rw [List.mem_singleton.1 hx']
          exact hcu.static q hq'
        · rw [Function.update_of_ne hqx]; exact hcu.sent q hq'
      · rw [hcu.law b]
        congr 1
        refine Finset.sum_congr rfl fun q hq' => ?_
        simp only [State.setProc]
        by_cases hqx : q = ix
        · subst hqx
          rw [Function.update_self, Function.update_self]
          have e1 : sr q = [] := by
            have := hcu.replies q hx
            rw [hsi.2.2] at this
            exact List.map_eq_nil_iff.1 this.symm
          rw [e1]
          have e2 : recorded [((st.procs q).static.record, (st.procs q).static.store)] = (st.procs q).static.record := by
            unfold recorded
            rw [List.flatMap_singleton]
          rw [e2]
          have e3 := hin b
          unfold Proc.load
          show _ = (0 + (st.procs q).work b + 0) + _
          simp only [recorded, List.flatMap_nil, List.count_nil]
          omega
        · rw [Function.update_of_ne hqx, Function.update_of_ne hqx]
      · simp only [State.setProc]
        by_cases hqx : q = ix
        · subst hqx
          rw [Function.update_self, hcfg]
          · exact hcu.cfg hset q hq'
          · rfl
          · rfl
        · rw [Function.update_of_ne hqx]; exact hcu.cfg hset q hq'
  · intro q hq' hcl
    simp only [State.setProc]
    by_cases hqx : q = ix
    · subst hqx; rw [Function.update_self]
    · rw [Function.update_of_ne hqx]; exact h.clean q hq' hcl
  · intro q k hq' hpc hk hne
    simp only [State.setProc] at hne ⊢
    by_cases hqx : q = ix
    · subst hqx; rw [Function.update_self]
    · rw [Function.update_of_ne hqx] at hne ⊢
      exact h.sent q k hq' hpc hk hne
  · intro jx hpc' c rest ht q hq' hlt
    have : st.pc = .configSend jx := hpc'
    rw [hpc] at this
    cases this

/-- A worker makes a step. -/
theorem DataInvIn.worker (h : DataInvIn P result ss st) (hv : Inv st) {ix : Nat} (hx : ix < st.nprocs) {p : Proc}
    (hw : WStep (st.procs ix) p) : DataInvIn P result ss (st.setProc ix p) := by
  have hp := hv.each ix hx
  -- steps without effect
  have key : ∀ p' : Proc, (∀ b, p'.load b = (st.procs ix).load b) → p'.saveOut = (st.procs ix).saveOut →
      p'.cfgOf = (st.procs ix).cfgOf → p'.static = (st.procs ix).static →
      (∀ b, (st.procs ix).held b = 0 → p'.held b = 0) → DataInvIn P result ss (st.setProc ix p') := by
    intro p' e1 e2 e3 e4 e5
    refine h.proc hx e1 e2 (Or.inl e3) (fun _ => e4) (fun hu => ?_) ?_
    · have hb := hu.blank ix hx
      exact ⟨fun b => e5 b (hb.held b), e4.trans hb.static, e2.trans hb.saveOut⟩
    · intro _ s _ _ _ _ _ _ _ _ _ _ hc
      rw [e4]
      exact hc.static ix hx
  have hsame : ∀ (p' : Proc), (st.procs ix).Same p' → p'.pool = (st.procs ix).pool → p'.static = (st.procs ix).static →
      (∀ b, p'.work b = (st.procs ix).work b) → ∀ w, DataInvIn P result ss (st.setProc ix { p' with pc := w }) := by
    intro p' e1 e2 e3 e4 w
    refine key _ (fun b => ?_) e1.saveOut (Proc.cfgOf_congr e1.inbox e1.current) e3 fun b hb => ?_
    · show (p'.inbox.filterMap Msg.block?).count b + p'.work b + p'.static.record.count b = _
      rw [e1.inbox, e4, e3]
      rfl
    · unfold Proc.held at hb
      show (p'.inbox.filterMap Msg.block?).count b + ((p'.pool.busy.map Prod.fst).count b + p'.pool.finished.count b) +
        p'.finishedOut.flatten.count b = 0
      rw [e1.inbox, e2, e1.finishedOut]
      exact hb
  cases hw with
  | config c ms hi =>
    refine key _ (fun b => ?_) rfl ?_ rfl fun b hb => ?_
    · unfold Proc.load Proc.inBlocks
      rw [hi]
      rfl
    · rw [Proc.cfgOf_current]
      · unfold Proc.cfgOf
        rw [hi]
        rfl
      · intro c' l hc
        refine hp.config c' ?_
        rw [hi]
        show _ ∈ ms
        rw [show ms = _ from hc]
        exact List.mem_cons_self
    · unfold Proc.held Proc.inBlocks at hb
      rw [hi] at hb
      exact hb
  | assign o b ms hi r hr =>
    obtain ⟨r', h1, _, _⟩ := hp.assign hi
    rw [hr] at h1
    cases h1
    have hprom : (st.procs ix).inBlocks.count b ≠ 0 := by
      unfold Proc.inBlocks
      rw [hi, List.filterMap_cons_some (f := Msg.block?) (b := b) rfl, List.count_cons_self]
      omega
    have hok : { st.procs ix with inbox := ms }.Ok _ _ := hp.ok.congr rfl rfl rfl rfl
    have hprom' : ∀ o', (st.procs ix).promised o' = { st.procs ix with inbox := ms }.promised o' + if o = o' then 1 else 0 :=
      fun o' => by
        unfold Proc.promised
        rw [hi, List.countP_cons]
        simp only [Msg.isAssign, beq_iff_eq]
    have hknown : { st.procs ix with inbox := ms }.known b = 0 := by
      by_contra hne
      have h1 := hp.ledger b
      have h2 : (st.assigned ix).count b + (st.pc.inflight ix).count b ≤ 1 := by
        by_cases hb : b ∈ st.pc.inflight ix
        · have h5 := List.count_eq_zero.2 (hp.own b hb)
          have h6 : (st.pc.inflight ix).count b ≤ 1 := by
            refine le_trans List.count_le_length ?_
            unfold Pc.inflight
            split <;> (try split) <;> simp
          omega
        · rw [List.count_eq_zero.2 hb]
          have := List.nodup_iff_count_le_one.1 (OSet.sorted_nodup hp.sorted) b
          omega
      have h3 : { st.procs ix with inbox := ms }.known b = (st.procs ix).known b := rfl
      unfold Proc.held at h1
      omega
    obtain ⟨r', e1, e2, e3, e4, e5, e6, e7, e8⟩ := hok.assign (b := b) (opencl := o) hknown (by
      have e1 := hprom' true
      have e2 := hprom' false
      cases o
      · simp only [Bool.false_eq_true, if_false, if_true] at e2 ⊢
        omega
      · simp only [if_true] at e1 ⊢
        omega)
    rw [hr] at e1
    cases e1
    refine key _ (fun b' => ?_) e4.saveOut ?_ e6 fun b' hb => ?_
    · have hcount : (st.procs ix).inBlocks.count b' = (ms.filterMap Msg.block?).count b' + [b].count b' := by
        unfold Proc.inBlocks
        rw [hi, List.filterMap_cons_some (f := Msg.block?) (b := b) rfl, List.count_cons, List.count_singleton]
      have h8 := e8 b'
      show (r.1.inbox.filterMap Msg.block?).count b' + r.1.work b' + r.1.static.record.count b' = _
      unfold Proc.load
      have h9 : { st.procs ix with inbox := ms }.work b' = (st.procs ix).work b' := rfl
      rw [e4.inbox, e6]
      show (ms.filterMap Msg.block?).count b' + _ + (st.procs ix).static.record.count b' = _
      omega
    · exact cfgOf_pop (p' := { r.1 with pc := .notify r.2 }) hi (by simp) hp.config e4.inbox e4.current
    · have hcount : (st.procs ix).inBlocks.count b' = (ms.filterMap Msg.block?).count b' + [b].count b' := by
        unfold Proc.inBlocks
        rw [hi, List.filterMap_cons_some (f := Msg.block?) (b := b) rfl, List.count_cons, List.count_singleton]
      have h7 := e7 b'
      have h9 : { st.procs ix with inbox := ms }.known b' = (st.procs ix).known b' := rfl
      unfold Proc.held at hb
      show (r.1.inbox.filterMap Msg.block?).count b' + r.1.known b' + r.1.finishedOut.flatten.count b' = 0
      rw [e4.inbox, e4.finishedOut]
      show (ms.filterMap Msg.block?).count b' + _ + (st.procs ix).finishedOut.flatten.count b' = 0
      omega
  | ready ms hi =>
    obtain ⟨he, hms, hsi⟩ := hp.prot.request (r' := .ready) hi
    subst hms
    refine key _ (fun b => ?_) rfl ?_ rfl fun b hb => ?_
    · unfold Proc.load Proc.inBlocks
      rw [hi]
      rfl
    · exact cfgOf_pop (p' := { (st.procs ix).flushReady.1 with
        inbox := [], readyOut := (st.procs ix).readyOut ++ [(st.procs ix).flushReady.2] }) hi (by simp) hp.config rfl rfl
    · unfold Proc.held Proc.inBlocks at hb
      rw [hi] at hb
      exact hb
  | save ms hi => exact h.reply hv hx hi
  | finished ms hi =>
    obtain ⟨he, hms, hsi⟩ := hp.prot.request (r' := .finished) hi
    subst hms
    refine key _ (fun b => ?_) rfl ?_ rfl fun b hb => ?_
    · unfold Proc.load Proc.inBlocks
      rw [hi]
      rfl
    · exact cfgOf_pop (p' := { (st.procs ix).flushFinished.1 with
        inbox := [], finishedOut := (st.procs ix).finishedOut ++ [(st.procs ix).pool.finished] }) hi (by simp) hp.config
        rfl rfl
    · unfold Proc.held Proc.known Proc.inBlocks at hb
      rw [hi] at hb
      unfold Proc.held Proc.known
      show 0 + (((st.procs ix).pool.busy.map Prod.fst).count b + 0) +
        ((st.procs ix).finishedOut ++ [(st.procs ix).pool.finished]).flatten.count b = 0
      rw [List.flatten_append, List.count_append, List.flatten_singleton]
      omega
  | shutdown ms hi =>
    refine key _ (fun b => ?_) rfl ?_ rfl fun b hb => ?_
    · unfold Proc.load Proc.inBlocks
      rw [hi]
      rfl
    · exact cfgOf_pop (p' := { st.procs ix with inbox := ms, pc := .shutdown 0 }) hi (by simp) hp.config rfl rfl
    · unfold Proc.held Proc.inBlocks at hb
      rw [hi] at hb
      exact hb
  | wake i w =>
    obtain ⟨e1, e2, e3, e4, e5, e6⟩ := hp.ok.wake i
    exact hsame _ e2 e3 e4 e6 w
  | stop i w =>
    obtain ⟨e1, e2, e3, e4, e5, e6⟩ := hp.ok.stop i
    exact hsame _ e2 e3 e4 e6 w
  | pc w => exact hsame _ ⟨rfl, rfl, rfl, rfl, rfl, rfl, rfl⟩ rfl rfl (fun _ => rfl) w

/-- A process changes without effect on the data. -/
theorem DataInvIn.same (h : DataInvIn P result ss st) {ix : Nat} (hx : ix < st.nprocs) {p : Proc}
    (e1 : ∀ b, p.load b = (st.procs ix).load b) (e2 : p.saveOut = (st.procs ix).saveOut)
    (e3 : p.cfgOf = (st.procs ix).cfgOf ∨ (st.pc.setting = true ∧ ∀ jx, st.pc = .configSend jx → jx ≤ ix))
    (e4 : p.static = (st.procs ix).static)
    (e5 : ∀ b, (st.procs ix).held b = 0 → p.held b = 0) : DataInvIn P result ss (st.setProc ix p) := by
  refine h.proc hx e1 e2 e3 (fun _ => e4) (fun hu => ?_) ?_
  · have hb := hu.blank ix hx
    exact ⟨fun b => e5 b (hb.held b), e4.trans hb.static, e2.trans hb.saveOut⟩
  · intro _ s _ _ _ _ _ _ _ _ _ _ hc
    rw [e4]
    exact hc.static ix hx

theorem cfgOf_send {p : Proc} {m : Msg} (hm : ∀ c, m ≠ .config c) : (p.send m).cfgOf = p.cfgOf := by
  unfold Proc.cfgOf Proc.send
  cases hi : p.inbox with
  | nil =>
    simp only [List.nil_append]
    cases m with
    | config c => exact absurd rfl (hm c)
    | _ => rfl
  | cons x l =>
    simp only [List.cons_append]
    cases x <;> rfl

theorem inBlocks_send {p : Proc} {m : Msg} (hm : m.block? = none) : (p.send m).inBlocks = p.inBlocks := by
  unfold Proc.inBlocks Proc.send
  simp only
  rw [List.filterMap_append, List.filterMap_cons_none hm, List.filterMap_nil, List.append_nil]

/-- A message is sent. -/
theorem DataInvIn.send (h : DataInvIn P result ss st) {ix : Nat} (hx : ix < st.nprocs) {m : Msg} (hm : m.block? = none)
    (hc : (∀ c, m ≠ .config c) ∨ (st.pc.setting = true ∧ ∀ jx, st.pc = .configSend jx → jx ≤ ix)) :
    DataInvIn P result ss (st.send ix m) := by
  refine h.same hx (fun b => ?_) rfl (hc.imp_left cfgOf_send) rfl fun b hb => ?_
  · unfold Proc.load
    rw [inBlocks_send hm]
    rfl
  · unfold Proc.held at hb ⊢
    rw [inBlocks_send hm]
    exact hb

theorem load_same {p p' : Proc} (h : p.Same p') (h1 : p'.static = p.static) (h2 : ∀ b, p'.work b = p.work b) (b : Block) :
    p'.load b = p.load b := by
  unfold Proc.load Proc.inBlocks
  rw [h.inbox, h1, h2]

theorem held_same {p p' : Proc} (h : p.Same p') (h1 : p'.pool = p.pool) (b : Block) (hb : p.held b = 0) :
    p'.held b = 0 := by
  unfold Proc.held Proc.inBlocks Proc.known at hb ⊢
  rw [h.inbox, h1, h.finishedOut]
  exact hb

theorem DataInvIn.wake (h : DataInvIn P result ss st) (hv : Inv st) {ix : Nat} (hx : ix < st.nprocs) (i : Nat) :
    DataInvIn P result ss (st.setProc ix ((st.procs ix).wake i)) := by
  obtain ⟨_, e2, e3, e4, _, e6⟩ := (hv.each ix hx).ok.wake i
  exact h.same hx (load_same e2 e4 e6) e2.saveOut (Or.inl (Proc.cfgOf_congr e2.inbox e2.current)) e4 (held_same e2 e3)

theorem DataInvIn.stop (h : DataInvIn P result ss st) (hv : Inv st) {ix : Nat} (hx : ix < st.nprocs) (i : Nat) :
    DataInvIn P result ss (st.setProc ix ((st.procs ix).stop i)) := by
  obtain ⟨_, e2, e3, e4, _, e6⟩ := (hv.each ix hx).ok.stop i
  exact h.same hx (load_same e2 e4 e6) e2.saveOut (Or.inl (Proc.cfgOf_congr e2.inbox e2.current)) e4 (held_same e2 e3)

/-- If a block is next, then there is a current section. -/
theorem DataInvIn.begun (h : DataInvIn P result ss st) {b : Block} {rest : List Cmd} (ht : st.todo = .assign b :: rest) :
    Started P result ss st := by
  rcases h.sects with hu | hs
  · have := hu.todo
    rw [ht] at this
    cases ss <;> cases this
  · exact hs

/-- While the file store is used there is a current section, to which it belongs. -/
theorem DataInvIn.current (h : DataInvIn P result ss st) {f : FileStoreObj} (hf : st.fileStore = some f)
    (hpc : st.pc.setting = false) :
    ∃ pre s post done rest, At ss st pre s post done rest ∧
      (∀ p, p ≠ s.cfg.resultPath → P.after pre p (st.fs p)) ∧
      ∃ d ps w ps₀ sv sr, CurIn (P.layout pre) result s done st d ps w ps₀ sv sr ∧
      f.config = s.cfg ∧ f.valid = true ∧ 
      ∀ b ∈ s.blocks, b ≠ [] → (FileStore.contains f.initial b = true ↔ b ∈ recorded ps₀) := by
  rcases h.sects with hu | ⟨pre, s, post, done, rest, ha, a1, d, ps, w, ps₀, sv, sr, hc⟩
  · have := hu.store hpc
    rw [hf] at this
    cases this
  · obtain ⟨f', hf', h2, h3, h4⟩ := hc.store hpc
    rw [hf] at hf'
    cases hf'
    exact ⟨pre, s, post, done, rest, ha, a1, d, ps, w, ps₀, sv, sr, hc, h3, h2, h4⟩

/-- At any time, what the directory contains or will contain is sound. -/
theorem CurIn.kept {s : Sect} {done rest : List Block} {d : Dir} {ps w ps₀ sv : List (OSet Block × StoreMap)}
    {sr : Nat → List (OSet Block × StoreMap)} (h : CurIn L result s done st d ps w ps₀ sv sr) (hn : s.blocks.Nodup)
    (hb : s.blocks = done ++ rest) : Sound result s (ps ++ w) := by
  rw [h.split]
  refine ⟨fun p hp => ?_, ?_⟩
  · rcases List.mem_append.1 hp with hp | hp
    · exact h.sound.tally p hp
    · exact h.tally p hp
  · rw [recorded_append]
    have h1 : (recorded sv).Subperm (s.blocks.filter fun b => b ∉ recorded ps₀) := by
      refine List.subperm_iff_count.2 fun b => ?_
      have h2 : (recorded sv).count b ≤ (s.blocks.filter fun b => b ∉ recorded ps₀).count b := by
        have := (h.bound hn hb b).1
        omega
      convert h2
    refine (List.Subperm.append (List.Subperm.refl _) h1).trans ?_
    exact (filter_recorded hn h.sound.once).subperm

theorem path_set {s : Sect} {f : FileStoreObj} (hf : f.config = s.cfg) (fs : FileSystem) (d : Dir) :
    ∀ p, p ≠ s.cfg.resultPath → fs.set f.config.resultPath d p = fs p := by
  intro p hp
  simp only [FileSystem.set, hf, if_neg hp]

theorem DataInvIn.mainConfig (h : DataInvIn P result ss st) (hP : P.Keeps result ss) (hpc : st.pc = .main) {c : ConfigNode} {rest : List Cmd}
    (ht : st.todo = .config c :: rest) {create : Bool} {v : FileSystem × Bool}
    (hv : c.verify st.fs (.ok create) = .ok v) : DataInvIn P result ss { st with
      fs := v.1, pc := if v.2 then .flush (.wait .config) else .flush (.wait .exit) } := by
  obtain ⟨h1, h2, h3⟩ := verify_fs hv
  have hafter : ∀ {pre : List Sect} {p : List Char}, P.after pre p (st.fs p) → P.after pre p (v.1 p) := by
    intro pre p ha
    cases hp : st.fs p with
    | some d => rw [h1 p d hp, ← hp]; exact ha
    | none =>
      rw [hp] at ha
      rcases h2 p hp with h | h <;> rw [h]
      · exact ha
      · exact hP.created ha
  have hset : st.pc.setting = false := by rw [hpc]; rfl
  obtain ⟨pc', hpc', hw, hs, hsv, hfi, hcl, hre, hco⟩ : ∃ pc', pc' = (if v.2 then Pc.flush (.wait .config) else
      .flush (.wait .exit)) ∧ pc'.writes = [] ∧ pc'.setting = false ∧ pc'.saving = false ∧ pc'.filling = false ∧
      (∀ q, ¬ pc'.clean q) ∧ (∀ q k, pc' ≠ .saveRecv q k) ∧ ∀ ix, pc' ≠ .configSend ix := by
    refine ⟨_, rfl, ?_⟩
    cases v.2 <;> exact ⟨rfl, rfl, rfl, rfl, fun _ h => h, (by simp), (by simp)⟩
  have hver : pc'.ver = true → v.2 = true := by
    rw [hpc']
    cases v.2
    · intro h; cases h
    · exact fun _ => rfl
  rw [← hpc']
  refine ⟨?_, fun q _ hc => absurd hc (hcl q), fun q k _ hp => absurd hp (hre q k), ?_, ?_,
    fun ix hp => absurd hp (hco ix), ?_⟩
  · rcases h.sects with hu | ⟨pre, s, post, done, rest, ha, a1, d, ps, w, ps₀, sv, sr, hc⟩
    · exact Or.inl ⟨hu.todo, fun p => hafter (hu.kept p), hu.blank, fun _ => hu.store hset, hsv⟩
    · refine Or.inr ⟨pre, s, post, done, rest, ⟨ha.sections, ha.blocks, ha.todo⟩,
        fun p hp => hafter (a1 p hp), d, ps, w, ps₀, sv, sr, ?_⟩
      · have hh := hc.holding
        rw [hpc] at hh
        exact ⟨h1 _ _ hc.dir, hc.plain, by rw [show (State.pc _).writes = _ from hw]; exact hh, hc.split, hc.sound,
          hc.tally, hc.static, hc.replies, hc.sent, hc.law, fun _ => hc.store hset, fun _ => hc.cfg hset⟩
  · intro hx c' rest' ht'
    have : st.todo = .config c' :: rest' := ht'
    rw [ht] at this
    cases this
    exact h3 (hver hx)
  · intro hx
    rw [show (State.pc _).setting = _ from hs] at hx
    cases hx
  · intro hx
    rw [show (State.pc _).filling = _ from hfi] at hx
    cases hx

theorem DataInvIn.newStore (h : DataInvIn P result ss st) (hpc : st.pc = .newStore) {c : ConfigNode} {rest : List Cmd}
    (ht : st.todo = .config c :: rest) {d : Dir} (hd : st.fs c.resultPath = some d) {r : OSet Block}
    (hr : FileStore.initialRecord d = .ok r) :
    DataInvIn P result ss { st with fileStore := some ⟨c, true, r⟩, pc := .update } := by
  refine ⟨?_, fun q hq _ => h.clean q hq (by rw [hpc]; trivial), (by intro q k _ h; cases h), ?_, ?_,
    (by intro ix h; cases h), fun h => by cases h⟩
  · rcases h.sects with hu | ⟨pre, s, post, done, rest, ha, a1, d, ps, w, ps₀, sv, sr, hc⟩
    · exact Or.inl ⟨hu.todo, hu.kept, hu.blank, (by intro h; cases h), rfl⟩
    · have hh := hc.holding
      rw [hpc] at hh
      exact Or.inr ⟨pre, s, post, done, rest, ⟨ha.sections, ha.blocks, ha.todo⟩, a1, d, ps, w, ps₀, sv, sr,
        hc.dir, hc.plain, hh, hc.split, hc.sound, hc.tally, hc.static, hc.replies, hc.sent, hc.law, (by intro h; cases h),
        (by intro h; cases h)⟩
  · intro _ c' rest' ht'
    have : st.todo = .config c' :: rest' := ht'
    rw [ht] at this
    cases this
    exact ⟨d, hd⟩
  · intro _ c' rest' ht'
    have : st.todo = .config c' :: rest' := ht'
    rw [ht] at this
    cases this
    exact ⟨_, d, rfl, rfl, rfl, hd, hr⟩

/-- The configuration has been given to one more process. -/
theorem DataInvIn.tell (h : DataInvIn P result ss st) (hs : st.pc.setting = true) {ix : Nat}
    (ht : ∀ c rest, st.todo = .config c :: rest → ∀ q, q < st.nprocs → q < ix → (st.procs q).cfgOf = some c) :
    DataInvIn P result ss { st with pc := .configSend ix } := by
  have hc : ∀ q, st.pc.clean q := fun q => by
    revert hs
    cases st.pc <;> intro hs <;> trivial
  have hw : st.pc.writes = [] := by
    revert hs
    cases st.pc <;> intro hs <;> first | rfl | cases hs
  have hv : st.pc.ver = true := by
    revert hs
    cases st.pc <;> intro hs <;> first | rfl | cases hs
  refine ⟨?_, fun q hq _ => h.clean q hq (hc q), (by intro q k _ h; cases h), fun _ => h.ver hv, fun _ => h.next hs, ?_,
    fun h => by cases h⟩
  · rcases h.sects with hu | ⟨pre, s, post, done, rest, ha, a1, d, ps, w, ps₀, sv, sr, hc⟩
    · exact Or.inl ⟨hu.todo, hu.kept, hu.blank, (by intro h; cases h), rfl⟩
    · have hh := hc.holding
      rw [hw] at hh
      exact Or.inr ⟨pre, s, post, done, rest, ⟨ha.sections, ha.blocks, ha.todo⟩, a1, d, ps, w, ps₀, sv, sr,
        hc.dir, hc.plain, hh, hc.split, hc.sound, hc.tally, hc.static, hc.replies, hc.sent, hc.law, (by intro h; cases h),
        (by intro h; cases h)⟩
  · intro jx hj c rest ht' q hq hlt
    cases hj
    exact ht c rest ht' q hq hlt

/-- When everything is done nothing is on the way. -/
theorem Inv.at_rest (hv : Inv st) (hq : st.pc.quiet) {q : Nat} (hx : q < st.nprocs) (b : Block) :
    (st.procs q).inBlocks.count b = 0 ∧ (st.procs q).work b = 0 := by
  have hp := hv.each q hx
  have hin : st.pc.inflight q = [] := by
    revert hq
    cases st.pc <;> intro hq <;> first | rfl | exact False.elim hq
  have h1 := hp.ledger b
  rw [hin, hp.quiet hq] at h1
  unfold Proc.held at h1
  simp only [List.count_nil] at h1
  exact ⟨by omega, hp.ok.work_zero (Proc.busy_nil (hp.known_zero hin (hp.quiet hq))).1 b⟩

/-- After everything has been saved, everything that was to be done for the section is in its directory. -/
theorem CurIn.complete {s : Sect} {d : Dir} {ps w ps₀ sv : List (OSet Block × StoreMap)}
    {sr : Nat → List (OSet Block × StoreMap)} (h : CurIn L result s s.blocks st d ps w ps₀ sv sr) (hv : Inv st)
    (hn : s.blocks.Nodup) (hc : ∀ q, q < st.nprocs → (st.procs q).static = ⟨[], []⟩) (hq : st.pc.quiet)
    (hw : st.pc.writes = []) (he : ∀ q, st.pc.expects q = none) : CompleteIn L result st.fs s := by
  have hh := h.holding
  rw [hw] at hh
  obtain ⟨h1, rfl⟩ := hh.done
  have hs := h.kept hn (List.append_nil _).symm
  have h2 := h.split
  rw [List.append_nil] at h2 hs
  refine ⟨d, ps, h.dir, h.plain, h1, hs, ?_⟩
  rw [h2, recorded_append]
  have h4 : (recorded sv).Perm (s.blocks.filter fun b => b ∉ recorded ps₀) := by
    refine List.perm_iff_count.2 fun b => ?_
    rw [h.law b, Finset.sum_eq_zero, Nat.add_zero]
    intro q hqr
    have hqn := Finset.mem_range.1 hqr
    have h5 : sr q = [] := by
      have h6 := (hv.each q hqn).prot
      rw [he] at h6
      have h7 := h.replies q hqn
      rw [h6.2.2.2] at h7
      exact List.map_eq_nil_iff.1 h7.symm
    obtain ⟨h8, h9⟩ := hv.at_rest hq hqn b
    unfold Proc.load
    rw [h8, h9, hc q hqn, h5]
    rfl
  exact (h4.append_left _).trans (filter_recorded hn h.sound.once)

/-- All processes have the next configuration. -/
theorem DataInvIn.configEnd (h : DataInvIn P result ss st) (hP : P.Keeps result ss) (hi : Tasks env ss result) (hv : Inv st) {ix : Nat}
    (hpc : st.pc = .configSend ix) {c : ConfigNode} {rest : List Cmd} (ht : st.todo = .config c :: rest)
    (hx : ¬ ix < st.nprocs) : DataInvIn P result ss { st with todo := rest, pc := .main } := by
  refine ⟨?_, (by intro q _ h; cases h), (by intro q k _ h; cases h), (by intro h; cases h), (by intro h; cases h),
    (by intro ix h; cases h), (by intro h; cases h)⟩
  right
  obtain ⟨f, d, hf, hval, hcfg, hd, hr⟩ := h.next (by rw [hpc]; rfl) c rest ht
  have hstat : ∀ q, q < st.nprocs → (st.procs q).static = ⟨[], []⟩ := fun q hq => h.clean q hq (by rw [hpc]; trivial)
  have hqu : st.pc.quiet := by rw [hpc]; trivial
  have hex : ∀ q, st.pc.expects q = none := fun q => by rw [hpc]; rfl
  -- the next section
  have key : ∃ pre s post, ss = pre ++ s :: post ∧ s.cfg = c ∧ rest = s.blocks.map .assign ++ program post ∧
      ∀ p, P.after pre p (st.fs p) := by
    rcases h.sects with hu | ⟨pre, s, post, done, rs, ha, a1, d, ps, w, ps₀, sv, sr, hc⟩
    · have a1 := hu.todo
      have a3 := hu.kept
      rw [ht] at a1
      cases ss with
      | nil => cases a1
      | cons s ss =>
        obtain ⟨b1, b2⟩ := List.cons_eq_cons.1 a1
        cases b1
        exact ⟨[], s, ss, rfl, rfl, b2, a3⟩
    · have b0 := ha.todo
      rw [ht] at b0
      cases rs with
      | cons x rs => cases b0
      | nil =>
        cases post with
        | nil => cases b0
        | cons s' post =>
          obtain ⟨b1, b2⟩ := List.cons_eq_cons.1 b0
          cases b1
          refine ⟨pre ++ [s], s', post, by rw [ha.sections, List.append_assoc]; rfl, rfl, b2, fun p => ?_⟩
          by_cases hp : p = s.cfg.resultPath
          · have hb := ha.blocks
            rw [List.append_nil] at hb
            rw [← hb] at hc
            obtain ⟨d, ps, c1, c2, c3, c4, c5⟩ :=
              hc.complete hv (hi.blocks s ha.mem) hstat hqu (by rw [hpc]; rfl) hex
            rw [hp, c1]
            exact hP.closes ha.sections c2 c3 c4 c5
          · exact hP.other ha.sections hp (a1 p hp)
  obtain ⟨pre, s, post, h1, rfl, h3, h4⟩ := key
  refine ⟨pre, s, post, [], s.blocks, ⟨h1, rfl, h3⟩, fun p _ => h4 p, ?_⟩
  have h6 := h4 s.cfg.resultPath
  rw [hd] at h6
  obtain ⟨ps, h7, h8, h9⟩ := hP.opens h1 h6
  · obtain ⟨r, h10, h11⟩ := (P.layout pre).initial h8
    rw [hr] at h10
    have hri := Res.ok.inj h10
    subst hri
    refine ⟨d, ps, [], ps, [], fun _ => [], hd, h7, .idle _ _ h8, rfl, h9, (by simp), fun q hq => ?_, fun q hq => ?_,
      (by simp), fun b => ?_, fun _ => ⟨f, hf, hval, hcfg, h11⟩, fun _ q hq => ?_⟩
    · show Match _ (st.procs q).static.record (st.procs q).static.store
      rw [hstat q hq]
      exact ⟨List.Pairwise.nil, Tally.nil⟩
    · have h6 := (hv.each q hq).prot
      rw [hex] at h6
      exact h6.2.2.2
    · show 0 = 0 + ∑ q ∈ Finset.range st.nprocs, ((st.procs q).load b + 0)
      rw [Nat.zero_add]
      refine (Finset.sum_eq_zero fun q hqr => ?_).symm
      have hqn := Finset.mem_range.1 hqr
      obtain ⟨h8, h9⟩ := hv.at_rest hqu hqn b
      unfold Proc.load
      rw [h8, h9, hstat q hqn]
      rfl
    · exact h.told ix hpc s.cfg rest ht q hq (lt_of_lt_of_le hq (Nat.not_lt.1 hx))

/-- A pair is about to be written. -/
theorem CurIn.toWrite {s : Sect} {done : List Block} {d : Dir} {ps w ps₀ sv : List (OSet Block × StoreMap)}
    {sr : Nat → List (OSet Block × StoreMap)} (h : CurIn L result s done st d ps w ps₀ sv sr) (hw : st.pc.writes = [])
    {id : Nat} (hid : FileStore.fresh d id = true) {x : OSet Block × StoreMap} (hx : PairOk x) :
    HoldingIn L s d (FileStore.saveWrites id (printed x)) ps [x] ∧ ps ++ [x] = ps₀ ++ (sv ++ [x]) := by
  have hh := h.holding
  rw [hw] at hh
  obtain ⟨h1, rfl⟩ := hh.done
  refine ⟨.two _ _ id _ h1 (h.plain.absent (L.names h1) hid) hx, ?_⟩
  have := h.split
  rw [List.append_nil] at this
  rw [this, List.append_assoc]

theorem subperm_of_le {s : Sect} {done rest : List Block} {d : Dir} {ps w ps₀ sv : List (OSet Block × StoreMap)}
    {sr : Nat → List (OSet Block × StoreMap)} (h : CurIn L result s done st d ps w ps₀ sv sr) (hn : s.blocks.Nodup)
    (hb : s.blocks = done ++ rest) {q : Nat} (hq : q < st.nprocs) {l : List Block}
    (hl : ∀ b, l.count b ≤ (st.procs q).load b + (recorded (sr q)).count b) : l.Subperm s.blocks := by
  refine List.Subperm.trans ?_ (List.filter_sublist (p := fun b => decide (b ∉ recorded ps₀))).subperm
  refine List.subperm_iff_count.2 fun b => ?_
  have h1 : l.count b ≤ (s.blocks.filter fun b => b ∉ recorded ps₀).count b := by
    have h2 := (h.bound hn hb b).1
    have h3 := le_sum hq fun q => (st.procs q).load b + (recorded (sr q)).count b
    have h4 := hl b
    omega
  convert h1

/-- The master saves its own store. -/
theorem DataInvIn.saveStart (h : DataInvIn P result ss st) (hi : Tasks env ss result) (hv : Inv st) {k : Cont}
    (hpc : st.pc = .save k) {f : FileStoreObj} (hf : st.fileStore = some f) {d : Dir}
    (hd : st.fs f.config.resultPath = some d) {id : Nat} (hid : FileStore.fresh d id = true) :
    DataInvIn P result ss { st.setProc 0 { st.procs 0 with static := ⟨[], []⟩ } with
      pc := .write (FileStore.saveWrites id
        (Record.print (st.procs 0).static.record, Store.print (st.procs 0).static.store)) 0 k } := by
  have hset : st.pc.setting = false := by rw [hpc]; rfl
  obtain ⟨pre, s, post, done, rs, ha, a1, d', ps, w, ps₀, sv, sr, hc, hcfg, hval, hini⟩ := h.current hf hset
  have hs := ha.mem
  have hdir := hc.dir
  rw [← hcfg, hd] at hdir
  cases hdir
  have hsub : List.Subperm (st.procs 0).static.record s.blocks :=
    subperm_of_le hc (hi.blocks s hs) ha.blocks hv.pos fun b => by unfold Proc.load; omega
  have hpair := pairOk_of hi hs (hc.static 0 hv.pos) hsub
  obtain ⟨hh, hsp⟩ := hc.toWrite (by rw [hpc]; rfl) hid hpair
  refine ⟨Or.inr ⟨pre, s, post, done, rs, ⟨ha.sections, ha.blocks, ha.todo⟩, a1,
    d, ps, _, ps₀, _, sr, hc.dir, hc.plain, hh, hsp, hc.sound, ?_, ?_, ?_, hc.sent, ?_, fun _ => hc.store hset, ?_⟩,
    ?_, (by intro q k _ h; cases h), ?_, (by intro h; cases h), (by intro ix h; cases h), (by intro h; cases h)⟩
  · intro p hp
    rcases List.mem_append.1 hp with hp | hp
    · exact hc.tally p hp
    · rw [List.mem_singleton.1 hp]
      exact hc.static 0 hv.pos
  · intro q hq
    simp only [State.setProc]
    by_cases hqx : q = 0
    · subst hqx; rw [Function.update_self]; exact ⟨List.Pairwise.nil, Tally.nil⟩
    · rw [Function.update_of_ne hqx]; exact hc.static q hq
  · intro q hq
    simp only [State.setProc]
    by_cases hqx : q = 0
    · subst hqx; rw [Function.update_self]; exact hc.replies 0 hq
    · rw [Function.update_of_ne hqx]; exact hc.replies q hq
  · intro b
    rw [hc.law b]
    obtain ⟨p, hp⟩ : ∃ p : Proc, p = { st.procs 0 with static := ⟨[], []⟩ } := ⟨_, rfl⟩
    have h1 := sum_update st.nprocs st.procs (fun q p => p.load b + (recorded (sr q)).count b) hv.pos p
    have h2 : p.load b + (st.procs 0).static.record.count b = (st.procs 0).load b := by
      rw [hp]
      unfold Proc.load Proc.inBlocks
      show _ + _ + 0 + _ = _
      rfl
    have h3 : (recorded (sv ++ [((st.procs 0).static.record, (st.procs 0).static.store)])).count b =
        (recorded sv).count b + (st.procs 0).static.record.count b := by
      rw [recorded_append, List.count_append]
      unfold recorded
      rw [List.flatMap_singleton]
    rw [h3]
    have h4 : (recorded sv).count b + ∑ q ∈ Finset.range st.nprocs, ((st.procs q).load b + (recorded (sr q)).count b) =
        (recorded sv).count b + (st.procs 0).static.record.count b + ∑ q ∈ Finset.range st.nprocs,
          ((Function.update st.procs 0 p q).load b + (recorded (sr q)).count b) := by
      omega
    rw [h4, hp]
    rfl
  · intro _ q hq
    simp only [State.setProc]
    by_cases hqx : q = 0
    · subst hqx; rw [Function.update_self]; exact hc.cfg hset 0 hq
    · rw [Function.update_of_ne hqx]; exact hc.cfg hset q hq
  · intro q hq hcl
    have h0 : q = 0 := Nat.le_zero.1 hcl.2
    subst h0
    simp only [State.setProc, Function.update_self]
  · intro hver
    refine h.ver ?_
    rw [hpc]
    revert hver
    cases k <;> exact fun h => h

/-- The master saves the store of a worker. -/
theorem DataInvIn.recvStart (h : DataInvIn P result ss st) (hi : Tasks env ss result) (hv : Inv st) {ix : Nat} {k : Cont}
    (hpc : st.pc = .saveRecv ix k) {x : List Char × List Char} {rest : List (List Char × List Char)}
    (ho : (st.procs ix).saveOut = x :: rest) {f : FileStoreObj} (hf : st.fileStore = some f) {d : Dir}
    (hd : st.fs f.config.resultPath = some d) {id : Nat} (hid : FileStore.fresh d id = true) :
    DataInvIn P result ss { st.setProc ix { st.procs ix with saveOut := rest } with
      pc := .write (FileStore.saveWrites id x) ix k } := by
  have hset : st.pc.setting = false := by rw [hpc]; rfl
  have hx : ix < st.nprocs := by
    have := hv.started
    rw [hpc] at this
    exact this.2
  obtain ⟨pre, s, post, done, rs, ha, a1, d', ps, w, ps₀, sv, sr, hc, hcfg, hval, hini⟩ := h.current hf hset
  have hs := ha.mem
  have hdir := hc.dir
  rw [← hcfg, hd] at hdir
  cases hdir
  have hrep := hc.replies ix hx
  rw [ho] at hrep
  cases hsr : sr ix with
  | nil => rw [hsr] at hrep; cases hrep
  | cons y ys =>
    rw [hsr] at hrep
    obtain ⟨rfl, hys⟩ := List.cons_eq_cons.1 hrep
    have hrec : ∀ b, (recorded (sr ix)).count b = y.1.count b + (recorded ys).count b := fun b => by
      rw [hsr]
      unfold recorded
      rw [List.flatMap_cons, List.count_append]
    have hym := hc.sent ix hx y (by rw [hsr]; exact List.mem_cons_self)
    have hsub : List.Subperm y.1 s.blocks :=
      subperm_of_le hc (hi.blocks s hs) ha.blocks hx fun b => by rw [hrec b]; omega
    have hpair := pairOk_of hi hs hym hsub
    obtain ⟨hh, hsp⟩ := hc.toWrite (by rw [hpc]; rfl) hid hpair
    refine ⟨Or.inr ⟨pre, s, post, done, rs, ⟨ha.sections, ha.blocks, ha.todo⟩, a1,
      d, ps, _, ps₀, _, Function.update sr ix ys, hc.dir, hc.plain, hh, hsp, hc.sound, ?_, ?_, ?_, ?_, ?_,
      fun _ => hc.store hset, ?_⟩,
      ?_, (by intro q k _ h; cases h), ?_, (by intro h; cases h), (by intro ix h; cases h), (by intro h; cases h)⟩
    · intro p hp
      rcases List.mem_append.1 hp with hp | hp
      · exact hc.tally p hp
      · rw [List.mem_singleton.1 hp]
        exact hym
    · intro q hq
      simp only [State.setProc]
      by_cases hqx : q = ix
      · subst hqx; rw [Function.update_self]; exact hc.static q hq
      · rw [Function.update_of_ne hqx]; exact hc.static q hq
    · intro q hq
      simp only [State.setProc]
      by_cases hqx : q = ix
      · subst hqx; rw [Function.update_self, Function.update_self]; exact hys
      · rw [Function.update_of_ne hqx, Function.update_of_ne hqx]; exact hc.replies q hq
    · intro q hq
      by_cases hqx : q = ix
      · subst hqx
        rw [Function.update_self]
        exact fun z hz => hc.sent q hq z (by rw [hsr]; exact List.mem_cons_of_mem _ hz)
      · rw [Function.update_of_ne hqx]; exact hc.sent q hq
    · intro b
      rw [hc.law b]
      have h1 := sum_update st.nprocs sr (fun q l => (st.procs q).load b + (recorded l).count b) hx ys
      have h2 : ∑ q ∈ Finset.range st.nprocs, ((st.setProc ix { st.procs ix with saveOut := rest }).procs q).load b =
          ∑ q ∈ Finset.range st.nprocs, (st.procs q).load b := by
        refine Finset.sum_congr rfl fun q _ => ?_
        simp only [State.setProc]
        by_cases hqx : q = ix
        · subst hqx; rw [Function.update_self]; rfl
        · rw [Function.update_of_ne hqx]
      have h3 : (recorded (sv ++ [y])).count b = (recorded sv).count b + y.1.count b := by
        rw [recorded_append, List.count_append]
        unfold recorded
        rw [List.flatMap_singleton]
      have h4 := hrec b
      simp only [Finset.sum_add_distrib] at h1 ⊢
      rw [h3]
      show _ = _ + (∑ q ∈ Finset.range st.nprocs, ((st.setProc ix { st.procs ix with saveOut := rest }).procs q).load b +
        ∑ q ∈ Finset.range st.nprocs, (recorded (Function.update sr ix ys q)).count b)
      rw [h2]
      omega
    · intro _ q hq
      simp only [State.setProc]
      by_cases hqx : q = ix
      · subst hqx; rw [Function.update_self]; exact hc.cfg hset q hq
      · rw [Function.update_of_ne hqx]; exact hc.cfg hset q hq
    · intro q hq hcl
      simp only [State.setProc]
      by_cases hqx : q = ix
      · subst hqx
        rw [Function.update_self]
        exact h.sent q k hq hpc hcl.1 (by rw [ho]; simp)
      · rw [Function.update_of_ne hqx]
        refine h.clean q hq ?_
        rw [hpc]
        have : q ≤ ix := hcl.2
        exact ⟨hcl.1, by omega⟩
    · intro hver
      refine h.ver ?_
      rw [hpc]
      revert hver
      cases k <;> exact fun h => h

theorem DataInvIn.write (h : DataInvIn P result ss st) {ix : Nat} {k : Cont} {n c : List Char}
    {ws : List (List Char × List Char)} (hpc : st.pc = .write ((n, c) :: ws) ix k) {f : FileStoreObj}
    (hf : st.fileStore = some f) {d : Dir} (hd : st.fs f.config.resultPath = some d) :
    DataInvIn P result ss { st with fs := st.fs.set f.config.resultPath (d.write n c), pc := .write ws ix k } := by
  have hset : st.pc.setting = false := by rw [hpc]; rfl
  obtain ⟨pre, s, post, done, rs, ha, a1, d', ps, w, ps₀, sv, sr, hc, hcfg, hval, hini⟩ := h.current hf hset
  have hdir := hc.dir
  rw [← hcfg, hd] at hdir
  cases hdir
  have hh := hc.holding
  rw [hpc] at hh
  obtain ⟨ps', w', h1, h2⟩ := hh.write
  have hps := path_set hcfg st.fs (d.write n c)
  refine ⟨Or.inr ⟨pre, s, post, done, rs, ⟨ha.sections, ha.blocks, ha.todo⟩,
    fun p hp => by show P.after pre p (st.fs.set _ _ p); rw [hps p hp]; exact a1 p hp,
    d.write n c, ps', w', ps₀, sv, sr, ?_⟩, fun q hq hcl => h.clean q hq (by rw [hpc]; exact hcl),
    (by intro q k _ h; cases h), ?_, (by intro hu; cases hu), (by intro ix h; cases h), (by intro hu; cases hu)⟩
  · exact ⟨by simp [FileSystem.set, hcfg], hc.plain.write _ _, h1, h2.trans hc.split, hc.sound, hc.tally, hc.static,
      hc.replies, hc.sent, hc.law, fun _ => hc.store hset, fun _ => hc.cfg hset⟩
  · intro hver c' rest' ht'
    obtain ⟨d', hd'⟩ := h.ver (by rw [hpc]; revert hver; cases k <;> exact fun h => h) c' rest' ht'
    by_cases hp : c'.resultPath = f.config.resultPath
    · exact ⟨d.write n c, by simp [FileSystem.set, hp]⟩
    · exact ⟨d', by simp [FileSystem.set, hp, hd']⟩

theorem At.pop {pre post : List Sect} {s : Sect} {done rs : List Block} (h : At ss st pre s post done rs) {b : Block}
    {rest : List Cmd} (ht : st.todo = .assign b :: rest) (ht' : st'.todo = rest) :
    ∃ rs', rs = b :: rs' ∧ At ss st' pre s post (done ++ [b]) rs' := by
  have h1 := h.todo
  rw [ht] at h1
  cases rs with
  | nil => cases post <;> cases h1
  | cons x rs =>
    obtain ⟨h2, h3⟩ := List.cons_eq_cons.1 h1
    cases h2
    exact ⟨rs, rfl, h.sections, by rw [h.blocks, List.append_assoc]; rfl, ht'.trans h3⟩

theorem DataInvIn.skip (h : DataInvIn P result ss st) (hi : Tasks env ss result) (hpc : st.pc = .contains) {b : Block}
    {rest : List Cmd} (ht : st.todo = .assign b :: rest) {f : FileStoreObj} (hf : st.fileStore = some f)
    (hb : FileStore.contains f.initial b = true) : DataInvIn P result ss { st with todo := rest, pc := .main } := by
  have hset : st.pc.setting = false := by rw [hpc]; rfl
  obtain ⟨pre, s, post, done, rs, ha, a1, d', ps, w, ps₀, sv, sr, hc, hcfg, hval, hini⟩ := h.current hf hset
  have hs := ha.mem
  obtain ⟨rs', rfl, ha'⟩ := ha.pop (st' := { st with todo := rest, pc := .main }) ht rfl
  have hbs : b ∈ s.blocks := by rw [ha.blocks]; simp
  have hrec := (hini b hbs (hi.nonempty s hs b hbs)).1 hb
  have hh := hc.holding
  rw [hpc] at hh
  refine ⟨Or.inr ⟨pre, s, post, done ++ [b], rs', ha', a1, d', ps, w, ps₀, sv, sr, ?_⟩, (by intro q _ h; cases h),
    (by intro q k _ h; cases h), (by intro h; cases h), (by intro h; cases h), (by intro ix h; cases h),
    (by intro h; cases h)⟩
  refine ⟨hc.dir, hc.plain, hh, hc.split, hc.sound, hc.tally, hc.static, hc.replies, hc.sent, ?_, fun _ => hc.store hset,
    fun _ => hc.cfg hset⟩
  rw [List.filter_append, List.filter_cons_of_neg (by simpa using hrec), List.filter_nil, List.append_nil]
  exact hc.law

/-- A block is passed to a process. -/
theorem DataInvIn.take (h : DataInvIn P result ss st) (hi : Tasks env ss result) (hpc : st.pc = .take) {b : Block}
    {rest : List Cmd} (ht : st.todo = .assign b :: rest) {ix : Nat} (hx : ix < st.nprocs) {p : Proc}
    (hl : ∀ b', p.load b' = (st.procs ix).load b' + [b].count b') (hso : p.saveOut = (st.procs ix).saveOut)
    (hco : p.cfgOf = (st.procs ix).cfgOf) (hst : p.static = (st.procs ix).static) (cq oq : List Nat) {pc' : Pc}
    (hp : (∃ i, pc' = .notify i b) ∨ pc' = .insert ix b) : DataInvIn P result ss { st.setProc ix p with
      cpuQueue := cq, openclQueue := oq, todo := rest, pc := pc' } := by
  have hset : st.pc.setting = false := by rw [hpc]; rfl
  have hsp : pc'.writes = [] ∧ pc'.setting = false ∧ pc'.ver = false ∧ pc'.filling = false ∧ (∀ q, ¬ pc'.clean q) ∧
      (∀ q k, pc' ≠ .saveRecv q k) ∧ ∀ ix, pc' ≠ .configSend ix := by
    rcases hp with ⟨i, rfl⟩ | rfl <;> exact ⟨rfl, rfl, rfl, rfl, fun _ h => h, (by simp), (by simp)⟩
  obtain ⟨p1, p2, p3, p4, p5, p6, p7⟩ := hsp
  obtain ⟨pre, s, post, done, rs, ha, a1, d, ps, w, ps₀, sv, sr, hc⟩ := h.begun ht
  obtain ⟨f, hf, hval, hcfg, hini⟩ := hc.store hset
  have hs := ha.mem
  obtain ⟨rs', rfl, ha'⟩ := ha.pop (st' := { st.setProc ix p with
    cpuQueue := cq, openclQueue := oq, todo := rest, pc := pc' }) ht rfl
  have hbs : b ∈ s.blocks := by rw [ha.blocks]; simp
  have hfree := h.free (by rw [hpc]; rfl) b rest ht f hf
  have hrec : b ∉ recorded ps₀ := by
    intro hm
    rw [(hini b hbs (hi.nonempty s hs b hbs)).2 hm] at hfree
    cases hfree
  have hh := hc.holding
  rw [hpc] at hh
  refine ⟨Or.inr ⟨pre, s, post, done ++ [b], rs', ha', a1, d, ps, w, ps₀, sv, sr, ?_⟩,
    fun q _ hcl => absurd hcl (p5 q), fun q k _ hcl => absurd hcl (p6 q k), fun hx => ?_, fun hx => ?_,
    fun q hcl => absurd hcl (p7 q), fun hx => ?_⟩
  · refine ⟨hc.dir, hc.plain, by rw [show (State.pc _).writes = _ from p1]; exact hh, hc.split, hc.sound, hc.tally,
      fun q hq => ?_, fun q hq => ?_, hc.sent, fun b' => ?_, fun _ => hc.store hset, fun _ q hq => ?_⟩
    · simp only [State.setProc]
      by_cases hqx : q = ix
      · subst hqx; rw [Function.update_self, hst]; exact hc.static q hq
      · rw [Function.update_of_ne hqx]; exact hc.static q hq
    · simp only [State.setProc]
      by_cases hqx : q = ix
      · subst hqx; rw [Function.update_self, hso]; exact hc.replies q hq
      · rw [Function.update_of_ne hqx]; exact hc.replies q hq
    · have h1 := hc.law b'
      have h2 := sum_update st.nprocs st.procs (fun q p => p.load b' + (recorded (sr q)).count b') hx p
      have h3 := hl b'
      rw [List.filter_append, List.count_append, List.filter_cons_of_pos (by simpa using hrec), List.filter_nil]
      simp only [State.setProc]
      omega
    · simp only [State.setProc]
      by_cases hqx : q = ix
      · subst hqx; rw [Function.update_self, hco]; exact hc.cfg hset q hq
      · rw [Function.update_of_ne hqx]; exact hc.cfg hset q hq
  · rw [show (State.pc _).ver = _ from p3] at hx
    cases hx
  · rw [show (State.pc _).setting = _ from p2] at hx
    cases hx
  · rw [show (State.pc _).filling = _ from p4] at hx
    cases hx

/-- Positions of the master that are not special. -/
structure Pc.Plain (pc : Pc) : Prop where
  writes : pc.writes = []
  setting : pc.setting = false
  saving : pc.saving = false
  clean : ∀ q, ¬ pc.clean q

theorem Pc.Plain.noRecv {pc : Pc} (h : pc.Plain) (q : Nat) (k : Cont) : pc ≠ .saveRecv q k := by
  rintro rfl
  cases h.saving

theorem DataInvIn.plain (h : DataInvIn P result ss st) {pc' : Pc} (hp' : pc'.Plain) (hw : st.pc.writes = [])
    (hs : st.pc.setting = false) (hv : pc'.ver = true → st.pc.ver = true)
    (hf : pc'.filling = true → st.pc.filling = true) (cq oq : List Nat) (asg : Nat → OSet Block) :
    DataInvIn P result ss { st with pc := pc', cpuQueue := cq, openclQueue := oq, assigned := asg } :=
  h.move pc' (hp'.writes.trans hw.symm) hp'.setting hs (fun h => by rw [hp'.saving] at h; cases h)
    (fun q _ hc => absurd hc (hp'.clean q)) (fun q k _ hc => absurd hc (hp'.noRecv q k)) hv hf cq oq asg

/-- Nothing remains to be done. -/
theorem DataInvIn.ended (h : DataInvIn P result ss st) {pc' : Pc} (hw : st.pc.writes = []) (hs : st.pc.setting = false)
    (hcl : ∀ q, q < st.nprocs → (st.procs q).static = ⟨[], []⟩)
    (hp : (∃ ix, pc' = .stopSend ix) ∨ (∃ i, pc' = .shutdown i) ∨ (∃ i, pc' = .shutNotify i) ∨ (∃ i, pc' = .join i) ∨
      pc' = .finished) : DataInvIn P result ss { st with pc := pc' } := by
  have h1 : pc'.writes = [] ∧ pc'.setting = false ∧ pc'.saving = false ∧ pc'.ver = false ∧ pc'.filling = false ∧
      ∀ q k, pc' ≠ .saveRecv q k := by
    rcases hp with ⟨_, rfl⟩ | ⟨_, rfl⟩ | ⟨_, rfl⟩ | ⟨_, rfl⟩ | rfl <;> exact ⟨rfl, rfl, rfl, rfl, rfl, by simp⟩
  obtain ⟨p1, p2, p3, p4, p5, p6⟩ := h1
  exact h.move pc' (p1.trans hw.symm) p2 hs (fun h => by rw [p3] at h; cases h) (fun q hq _ => hcl q hq)
    (fun q k _ hc => absurd hc (p6 q k)) (fun h => by rw [p4] at h; cases h) (fun h => by rw [p5] at h; cases h)
    _ _ _

/-- The store has been saved. -/
theorem DataInvIn.afterSave (h : DataInvIn P result ss st) {k : Cont} (hw : st.pc.writes = []) (hs : st.pc.setting = false)
    (hcl : k ≠ .assign → ∀ q, q < st.nprocs → (st.procs q).static = ⟨[], []⟩) (hv : k = .config → st.pc.ver = true) :
    DataInvIn P result ss { st with pc := Mpi.afterSave k } := by
  cases k with
  | assign =>
    exact h.plain (by exact ⟨rfl, rfl, rfl, fun _ h => h⟩) hw hs (by intro h; cases h) (by intro h; cases h) _ _ _
  | exit => exact h.ended hw hs (hcl (by simp)) (Or.inl ⟨1, rfl⟩)
  | config =>
    exact h.move .newStore hw.symm rfl hs (by intro h; cases h) (fun q hq _ => hcl (by simp) q hq)
      (by intro q k _ h; cases h) (fun _ => hv rfl) (by intro h; cases h) _ _ _

theorem DataInvIn.toFill (h : DataInvIn P result ss st) (hpc : st.pc = .contains) {b : Block} {rest : List Cmd}
    (ht : st.todo = .assign b :: rest) {f : FileStoreObj} (hf : st.fileStore = some f)
    (hc : FileStore.contains f.initial b = false) {pc' : Pc} (hp : pc' = .flush .fill ∨ pc' = .take) :
    DataInvIn P result ss { st with pc := pc' } := by
  have h1 := h.plain (pc' := .main) (by exact ⟨rfl, rfl, rfl, fun _ h => h⟩) (by rw [hpc]; rfl) (by rw [hpc]; rfl)
    (by intro h; cases h) (by intro h; cases h) st.cpuQueue st.openclQueue st.assigned
  have hp' : pc'.Plain := by
    rcases hp with rfl | rfl <;> exact ⟨rfl, rfl, rfl, fun _ h => h⟩
  have hver : pc'.ver = false := by rcases hp with rfl | rfl <;> rfl
  refine ⟨?_, fun q _ hc => absurd hc (hp'.clean q), fun q k _ hc => absurd hc (hp'.noRecv q k), fun hx => ?_,
    fun hx => ?_, fun ix hx => ?_, fun _ b' rest' ht' f' hf' => ?_⟩
  · rcases h1.sects with hu | ⟨pre, s, post, done, rest, ha, a1, d, ps, w, ps₀, sv, sr, hcu⟩
    · exact Or.inl ⟨hu.todo, hu.kept, hu.blank, fun _ => hu.store rfl, hp'.saving⟩
    · exact Or.inr ⟨pre, s, post, done, rest, ⟨ha.sections, ha.blocks, ha.todo⟩, a1, d, ps, w, ps₀, sv, sr,
        hcu.dir, hcu.plain, by rw [show (State.pc _).writes = _ from hp'.writes]; exact hcu.holding, hcu.split, hcu.sound,
        hcu.tally, hcu.static, hcu.replies, hcu.sent, hcu.law, fun _ => hcu.store rfl, fun _ => hcu.cfg rfl⟩
  · rw [show (State.pc _).ver = _ from hver] at hx
    cases hx
  · rw [show (State.pc _).setting = _ from hp'.setting] at hx
    cases hx
  · have h2 := hp'.setting
    rw [show pc' = _ from hx] at h2
    cases h2
  · have e1 : st.todo = .assign b' :: rest' := ht'
    have e2 : st.fileStore = some f' := hf'
    rw [ht] at e1
    rw [hf] at e2
    cases e1
    cases e2
    exact hc

/-- The master gives a block to one of its own threads. -/
theorem assign_effect (hv : Inv st) {b : Block} {rest : List Cmd} (ht : st.todo = .assign b :: rest)
    {o : Bool} (hq : (o = true ∧ ∃ oq, st.openclQueue = 0 :: oq) ∨ (o = false ∧ ∃ cq, st.cpuQueue = 0 :: cq)) {r : Proc × Nat}
    (hr : (st.procs 0).assign b o = .ok r) : (st.procs 0).Same r.1 ∧ r.1.static = (st.procs 0).static ∧
      ∀ b', r.1.work b' = (st.procs 0).work b' + [b].count b' := by
  have hp := hv.each 0 hv.pos
  have hk : (st.procs 0).known b = 0 := by
    have h1 := hp.ledger b
    have h2 := hp.fresh b (by rw [ht]; exact List.mem_cons_self)
    rw [List.count_eq_zero.2 h2.1, List.count_eq_zero.2 h2.2] at h1
    unfold Proc.held at h1
    omega
  obtain ⟨r', e1, _, _, e4, _, e6, _, e8⟩ := hp.ok.assign (b := b) (opencl := o) hk (by
    rcases hq with ⟨rfl, oq, h1⟩ | ⟨rfl, cq, h1⟩
    · rw [h1, List.count_cons_self]
      simp only [if_true]
      omega
    · rw [h1, List.count_cons_self]
      simp only [Bool.false_eq_true, if_false]
      omega)
  rw [hr] at e1
  cases e1
  exact ⟨e4, e6, e8⟩

theorem DataInvIn.master (h : DataInvIn P result ss st) (hP : P.Keeps result ss) (hi : Tasks env ss result) (hv : Inv st) (hm : MStep st st') :
    DataInvIn P result ss st' := by
  have hs := hv.started
  -- no reply is on the way
  have silent : ∀ q, q < st.nprocs → st.pc.expects q = none → (st.procs q).saveOut = [] := fun q hq he => by
    have h1 := (hv.each q hq).prot
    rw [he] at h1
    exact h1.2.2.2
  cases hm with
  | mainEnd hpc ht =>
    exact h.plain (by exact ⟨rfl, rfl, rfl, fun _ h => h⟩) (by rw [hpc]; rfl) (by rw [hpc]; rfl) (by intro h; cases h)
      (by intro h; cases h) _ _ _
  | mainConfig hpc c rest ht create v hv => exact h.mainConfig hP hpc ht hv
  | mainAssign hpc b rest ht now =>
    cases now
    · exact h.plain (by exact ⟨rfl, rfl, rfl, fun _ h => h⟩) (by rw [hpc]; rfl) (by rw [hpc]; rfl) (by intro h; cases h)
        (by intro h; cases h) _ _ _
    · exact h.plain (by exact ⟨rfl, rfl, rfl, fun _ h => h⟩) (by rw [hpc]; rfl) (by rw [hpc]; rfl) (by intro h; cases h)
        (by intro h; cases h) _ _ _
  | flush c hpc a ha =>
    have h1 : DataInvIn P result ss (st.setProc 0 (st.procs 0).flushFinished.1) := by
      refine h.same hv.pos (fun _ => rfl) rfl (Or.inl rfl) rfl fun b hb => ?_
      unfold Proc.held Proc.known at hb ⊢
      show (st.procs 0).inBlocks.count b + (((st.procs 0).pool.busy.map Prod.fst).count b + 0) + _ = 0
      have : (st.procs 0).flushFinished.1.finishedOut = (st.procs 0).finishedOut := rfl
      rw [this]
      omega
    refine h1.plain (by exact ⟨rfl, rfl, rfl, fun _ h => h⟩) ?_ ?_ ?_ ?_ _ _ _
    · show st.pc.writes = _; rw [hpc]; rfl
    · show st.pc.setting = _; rw [hpc]; rfl
    · show _ → st.pc.ver = _; rw [hpc]; cases c with | fill => exact fun h => h | wait k => cases k <;> exact fun h => h
    · show _ → st.pc.filling = _; rw [hpc]; cases c <;> exact fun h => h
  | flushSend ix c hpc hx =>
    have h1 := h.send hx (m := .finishedBlocks) rfl (Or.inl (by simp))
    refine h1.plain (by exact ⟨rfl, rfl, rfl, fun _ h => h⟩) ?_ ?_ ?_ ?_ _ _ _
    · show st.pc.writes = _; rw [hpc]; rfl
    · show st.pc.setting = _; rw [hpc]; rfl
    · show _ → st.pc.ver = _; rw [hpc]; cases c with | fill => exact fun h => h | wait k => cases k <;> exact fun h => h
    · show _ → st.pc.filling = _; rw [hpc]; cases c <;> exact fun h => h
  | flushEnd ix c hpc hx =>
    refine h.plain ?_ (by rw [hpc]; rfl) (by rw [hpc]; rfl) ?_ ?_ _ _ _
    · cases c <;> exact ⟨rfl, rfl, rfl, fun _ h => h⟩
    · rw [hpc]; cases c with | fill => exact fun h => h | wait k => cases k <;> exact fun h => h
    · rw [hpc]; cases c with | fill => exact fun h => h | wait k => cases k <;> exact fun h => h
  | flushRecv ix c hpc bs rest ho a ha =>
    rw [hpc] at hs
    have h1 : DataInvIn P result ss (st.setProc ix { st.procs ix with finishedOut := rest }) := by
      refine h.same hs.2 (fun _ => rfl) rfl (Or.inl rfl) rfl fun b hb => ?_
      unfold Proc.held at hb ⊢
      rw [ho, List.flatten_cons, List.count_append] at hb
      show (st.procs ix).inBlocks.count b + (st.procs ix).known b + rest.flatten.count b = 0
      omega
    refine h1.plain (by exact ⟨rfl, rfl, rfl, fun _ h => h⟩) ?_ ?_ ?_ ?_ _ _ _
    · show st.pc.writes = _; rw [hpc]; rfl
    · show st.pc.setting = _; rw [hpc]; rfl
    · show _ → st.pc.ver = _; rw [hpc]; cases c with | fill => exact fun h => h | wait k => cases k <;> exact fun h => h
    · show _ → st.pc.filling = _; rw [hpc]; cases c <;> exact fun h => h
  | waited k hpc ha =>
    refine h.plain (by exact ⟨rfl, rfl, rfl, fun _ h => h⟩) (by rw [hpc]; rfl) (by rw [hpc]; rfl) ?_ (by intro h; cases h) _ _ _
    rw [hpc]; cases k <;> exact fun h => h
  | waitOn k hpc =>
    refine h.plain (by exact ⟨rfl, rfl, rfl, fun _ h => h⟩) (by rw [hpc]; rfl) (by rw [hpc]; rfl) ?_ (by intro h; cases h) _ _ _
    rw [hpc]; cases k <;> exact fun h => h
  | ready hpc =>
    have h1 : DataInvIn P result ss (st.setProc 0 (st.procs 0).flushReady.1) :=
      h.same hv.pos (fun _ => rfl) rfl (Or.inl rfl) rfl fun _ hb => hb
    exact h1.plain (pc' := .readySend 1) (by exact ⟨rfl, rfl, rfl, fun _ h => h⟩) (by show st.pc.writes = _; rw [hpc]; rfl)
      (by show st.pc.setting = _; rw [hpc]; rfl) (by intro h; cases h) (by show _ → st.pc.filling = _; rw [hpc]; exact fun h => h)
      _ _ _
  | readySend ix hpc hx =>
    have h1 := h.send hx (m := .readyThreads) rfl (Or.inl (by simp))
    exact h1.plain (pc' := .readyRecv ix) (by exact ⟨rfl, rfl, rfl, fun _ h => h⟩) (by show st.pc.writes = _; rw [hpc]; rfl)
      (by show st.pc.setting = _; rw [hpc]; rfl) (by intro h; cases h) (by show _ → st.pc.filling = _; rw [hpc]; exact fun h => h)
      _ _ _
  | readyEnd ix hpc hx =>
    exact h.plain (by exact ⟨rfl, rfl, rfl, fun _ h => h⟩) (by rw [hpc]; rfl) (by rw [hpc]; rfl) (by intro h; cases h)
      (by rw [hpc]; exact fun h => h) _ _ _
  | readyRecv ix hpc n rest ho =>
    rw [hpc] at hs
    have h1 : DataInvIn P result ss (st.setProc ix { st.procs ix with readyOut := rest }) :=
      h.same hs.2 (fun _ => rfl) rfl (Or.inl rfl) rfl fun _ hb => hb
    exact h1.plain (pc' := .readySend (ix + 1)) (by exact ⟨rfl, rfl, rfl, fun _ h => h⟩) (by show st.pc.writes = _; rw [hpc]; rfl)
      (by show st.pc.setting = _; rw [hpc]; rfl) (by intro h; cases h) (by show _ → st.pc.filling = _; rw [hpc]; exact fun h => h)
      _ _ _
  | fillOn hpc =>
    exact h.plain (by exact ⟨rfl, rfl, rfl, fun _ h => h⟩) (by rw [hpc]; rfl) (by rw [hpc]; rfl) (by intro h; cases h)
      (by rw [hpc]; exact fun h => h) _ _ _
  | filled hpc ha =>
    exact h.plain (by exact ⟨rfl, rfl, rfl, fun _ h => h⟩) (by rw [hpc]; rfl) (by rw [hpc]; rfl) (by intro h; cases h)
      (by rw [hpc]; exact fun h => h) _ _ _
  | saveNone k hpc hf =>
    refine h.afterSave (by rw [hpc]; rfl) (by rw [hpc]; rfl) (fun _ q hq => ?_) (fun hk => by rw [hpc, hk]; rfl)
    rcases h.sects with hu | ⟨pre, s, post, done, rest, ha, a1, d, ps, w, ps₀, sv, sr, hc⟩
    · exact (hu.blank q hq).static
    · obtain ⟨f, hf', _⟩ := hc.store (by rw [hpc]; rfl)
      rw [hf] at hf'
      cases hf'
  | saveLost k hpc f hf hl =>
    obtain ⟨pre, s, post, done, rs, ha, a1, d', ps, w, ps₀, sv, sr, hc, hcfg, hval, hini⟩ :=
      h.current hf (by rw [hpc]; rfl)
    rcases hl with hl | hl
    · rw [hval] at hl; cases hl
    · rw [hcfg, hc.dir] at hl; cases hl
  | saveStart k hpc f hf hval d hd id hid => exact h.saveStart hi hv hpc hf hd hid
  | saveSend ix k hpc hx =>
    have h1 := h.send hx (m := .save) rfl (Or.inl (by simp))
    refine h1.move (.saveRecv ix k) ?_ rfl ?_ ?_ ?_ ?_ ?_ ?_ _ _ _
    · show _ = st.pc.writes; rw [hpc]; rfl
    · show st.pc.setting = _; rw [hpc]; rfl
    · show _ → st.pc.saving = _; rw [hpc]; exact fun h => h
    · intro q hq hcl
      refine h1.clean q hq ?_
      show st.pc.clean q
      rw [hpc]
      exact hcl
    · intro q k' hq he _ hne
      cases he
      refine absurd ?_ hne
      simp only [State.send, State.setProc, Function.update_self]
      exact silent ix hx (by rw [hpc]; rfl)
    · show _ → st.pc.ver = _; rw [hpc]; cases k <;> exact fun h => h
    · intro h; cases h
  | saveEnd ix k hpc hx =>
    refine h.afterSave (by rw [hpc]; rfl) (by rw [hpc]; rfl) (fun hk q hq => h.clean q hq ?_) (fun hk => by rw [hpc, hk]; rfl)
    rw [hpc]
    exact ⟨hk, by omega⟩
  | recvLost ix k hpc x rest ho f hf hl =>
    obtain ⟨pre, s, post, done, rs, ha, a1, d', ps, w, ps₀, sv, sr, hc, hcfg, hval, hini⟩ :=
      h.current hf (by rw [hpc]; rfl)
    rcases hl with hl | hl
    · rw [hval] at hl; cases hl
    · rw [hcfg, hc.dir] at hl; cases hl
  | recvStart ix k hpc x rest ho f hf hval d hd id hid => exact h.recvStart hi hv hpc ho hf hd hid
  | writeEnd ix k hpc =>
    refine h.move (.saveSend (ix + 1) k) (by rw [hpc]; rfl) rfl (by rw [hpc]; rfl) (by rw [hpc]; exact fun h => h) ?_
      (by intro q k' _ h; cases h) ?_ (by intro h; cases h) _ _ _
    · intro q hq hcl
      refine h.clean q hq ?_
      rw [hpc]
      exact ⟨hcl.1, Nat.lt_succ_iff.1 hcl.2⟩
    · rw [hpc]; cases k <;> exact fun h => h
  | writeLost ix k n c ws hpc hl =>
    rcases h.sects with hu | ⟨pre, s, post, done, rest, ha, a1, d, ps, w, ps₀, sv, sr, hc⟩
    · have := hu.saving
      rw [hpc] at this
      cases this
    · obtain ⟨f, hf, hval, hcfg, _⟩ := hc.store (by rw [hpc]; rfl)
      have := hl f hf
      rw [hcfg, hc.dir] at this
      cases this
  | write ix k n c ws hpc f hf d hd => exact h.write hpc hf hd
  | newStoreInvalid hpc c rest ht hd =>
    obtain ⟨d, hd'⟩ := h.ver (by rw [hpc]; rfl) c rest ht
    rw [hd] at hd'
    cases hd'
  | newStore hpc c rest ht d hd r hr => exact h.newStore hpc ht hd hr
  | update hpc c rest ht =>
    have h1 : DataInvIn P result ss (st.setProc 0 ((st.procs 0).update c)) := by
      refine h.same hv.pos (fun _ => rfl) rfl (Or.inr ⟨by rw [hpc]; rfl, ?_⟩) rfl fun _ hb => hb
      rw [hpc]
      intro jx h
      cases h
    refine h1.tell (by show st.pc.setting = _; rw [hpc]; rfl) fun c' rest' ht' q hq hlt => ?_
    have e1 : st.todo = .config c' :: rest' := ht'
    rw [ht] at e1
    cases e1
    have h0 : q = 0 := by omega
    subst h0
    simp only [State.setProc, Function.update_self]
    rw [Proc.cfgOf_current]
    · rfl
    · intro c' ms hin
      have : (st.procs 0).inbox = .config c' :: ms := hin
      rw [(hv.each 0 hv.pos).zero rfl] at this
      cases this
  | configSend ix hpc c rest ht hx =>
    have h1 := h.send hx (m := .config c) rfl (Or.inr ⟨by rw [hpc]; rfl, fun jx hj => by rw [hpc] at hj; cases hj; exact le_rfl⟩)
    refine h1.tell (by show st.pc.setting = _; rw [hpc]; rfl) fun c' rest' ht' q hq hlt => ?_
    have e1 : st.todo = .config c' :: rest' := ht'
    rw [ht] at e1
    cases e1
    simp only [State.send, State.setProc]
    by_cases hqx : q = ix
    · subst hqx
      rw [Function.update_self]
      unfold Proc.cfgOf Proc.send
      simp only
      rw [(hv.each q hx).calm (by rw [hpc]; exact le_rfl)]
      rfl
    · rw [Function.update_of_ne hqx]
      exact h.told ix hpc c rest ht q hq (by omega)
  | configEnd ix hpc c rest ht hx => exact h.configEnd hP hi hv hpc ht hx
  | skip hpc b rest ht f hf hc => exact h.skip hi hpc ht hf hc
  | fill hpc b rest ht f hf hc => exact h.toFill hpc ht hf hc (Or.inl rfl)
  | noFill hpc b rest ht f hf hc ho => exact h.toFill hpc ht hf hc (Or.inr rfl)
  | takeLocal hpc b rest ht o cq oq hq r hr =>
    obtain ⟨e1, e2, e3⟩ := assign_effect hv ht (by
      rcases hq with ⟨h1, h2, _⟩ | ⟨h1, h2, _⟩
      · exact Or.inl ⟨h1, oq, h2⟩
      · exact Or.inr ⟨h1, cq, h2⟩) hr
    refine h.take hi hpc ht hv.pos (fun b' => ?_) e1.saveOut (Proc.cfgOf_congr e1.inbox e1.current) e2 cq oq
      (Or.inl ⟨r.2, rfl⟩)
    unfold Proc.load Proc.inBlocks
    rw [e1.inbox, e2, e3 b']
    omega
  | takeRemote hpc b rest ht o ix hix cq oq hq =>
    have hx : ix < st.nprocs := by
      refine hv.queue ix ?_
      rcases hq with ⟨rfl, h1, h2⟩ | ⟨rfl, h1, h2⟩ <;> rw [h1] <;> simp
    refine h.take (p := (st.procs ix).send (.assign o b)) hi hpc ht hx (fun b' => ?_) rfl (cfgOf_send (by simp)) rfl cq oq
      (Or.inr rfl)
    unfold Proc.load Proc.inBlocks Proc.send
    simp only
    rw [List.filterMap_append, List.filterMap_cons_some (f := Msg.block?) (b := b) rfl, List.filterMap_nil,
      List.count_append]
    show _ + _ + (st.procs ix).work b' + _ = _
    omega
  | notify i b hpc =>
    exact (h.wake hv hv.pos i).plain (pc' := .insert 0 b) (by exact ⟨rfl, rfl, rfl, fun _ h => h⟩) (by show st.pc.writes = _; rw [hpc]; rfl)
      (by show st.pc.setting = _; rw [hpc]; rfl) (by intro h; cases h) (by intro h; cases h) _ _ _
  | insert ix b hpc =>
    exact h.plain (by exact ⟨rfl, rfl, rfl, fun _ h => h⟩) (by rw [hpc]; rfl) (by rw [hpc]; rfl) (by intro h; cases h)
      (by intro h; cases h) _ _ _
  | stopSend ix hpc hx =>
    have h1 := h.send hx (m := .shutdown) rfl (Or.inl (by simp))
    exact h1.ended (by show st.pc.writes = _; rw [hpc]; rfl) (by show st.pc.setting = _; rw [hpc]; rfl)
      (fun q hq => h1.clean q hq (by show st.pc.clean q; rw [hpc]; trivial)) (Or.inl ⟨_, rfl⟩)
  | stopEnd ix hpc hx =>
    exact h.ended (by rw [hpc]; rfl) (by rw [hpc]; rfl) (fun q hq => h.clean q hq (by rw [hpc]; trivial))
      (Or.inr (Or.inl ⟨_, rfl⟩))
  | shutdown i hpc hx =>
    have h1 := h.stop hv hv.pos i
    exact h1.ended (by show st.pc.writes = _; rw [hpc]; rfl) (by show st.pc.setting = _; rw [hpc]; rfl)
      (fun q hq => h1.clean q hq (by show st.pc.clean q; rw [hpc]; trivial)) (Or.inr (Or.inr (Or.inl ⟨_, rfl⟩)))
  | shutdownEnd i hpc hx =>
    exact h.ended (by rw [hpc]; rfl) (by rw [hpc]; rfl) (fun q hq => h.clean q hq (by rw [hpc]; trivial))
      (Or.inr (Or.inr (Or.inr (Or.inr rfl))))
  | shutNotify i hpc =>
    have h1 := h.wake hv hv.pos i
    exact h1.ended (by show st.pc.writes = _; rw [hpc]; rfl) (by show st.pc.setting = _; rw [hpc]; rfl)
      (fun q hq => h1.clean q hq (by show st.pc.clean q; rw [hpc]; trivial))
      (Or.inr (Or.inr (Or.inr (Or.inl ⟨_, rfl⟩))))
  | join i hpc hp =>
    exact h.ended (by rw [hpc]; rfl) (by rw [hpc]; rfl) (fun q hq => h.clean q hq (by rw [hpc]; trivial))
      (Or.inr (Or.inl ⟨_, rfl⟩))

theorem DataInvIn.trans (h : DataInvIn P result ss st) (hP : P.Keeps result ss) (hi : Tasks env ss result) (hv : Inv st)
    (ht : Trans env st st') :
    DataInvIn P result ss st' := by
  cases ht with
  | thread ix hx i hlt p ht => exact h.thread hi hv hx hlt ht
  | worker ix h0 hx p hw => exact h.worker hv hx hw
  | master st' hm => exact h.master hP hi hv hm

theorem DataInvIn.initial {kinds : List (List Bool)} {fs : FileSystem} (h : ∀ p, P.after [] p (fs p)) :
    DataInvIn P result ss (Mpi.initial kinds fs (program ss)) :=
  ⟨Or.inl ⟨rfl, h, fun _ _ => ⟨fun _ => rfl, rfl, rfl⟩, fun _ => rfl, rfl⟩, (by intro q _ h; cases h),
    (by intro q k _ h; cases h), (by intro h; cases h), (by intro h; cases h), (by intro ix h; cases h),
    (by intro h; cases h)⟩

/-- What a run starts with. -/
theorem Inv.start {kinds : List (List Bool)} {fs : FileSystem} (hi : Input env ss result) (h0 : kinds ≠ [])
    (hk : ∀ k ∈ kinds, k.length < 4294967296) : Inv (Mpi.initial kinds fs (program ss)) :=
  .initial h0 hk fs (Run.distinct_program hi.blocks)

theorem DataInvIn.course {kinds : List (List Bool)} {fs : FileSystem} (hP : P.Keeps result ss) (hi : Tasks env ss result)
    (h0 : kinds ≠ []) (hk : ∀ k ∈ kinds, k.length < 4294967296) (h : ∀ p, P.after [] p (fs p))
    (hr : Reachable env (Mpi.initial kinds fs (program ss)) st) : DataInvIn P result ss st := by
  induction hr with
  | refl => exact .initial h
  | step l hr hs ih =>
    exact ih.trans hP hi ((Inv.initial h0 hk fs (Run.distinct_program hi.blocks)).reachable hr) (step_trans hs)

/-- The directories after a run that died. -/
theorem DataInvIn.left {fs' : FileSystem} (h : DataInvIn P result ss st) (hi : Tasks env ss result) (hd : Dies st fs') :
    P.Left result ss fs' := by
  cases hd with
  | between =>
    rcases h.sects with hu | ⟨pre, s, post, done, rs, ha, a1, d, ps, w, ps₀, sv, sr, hc⟩
    · exact Or.inl hu.kept
    · have h1 := hc.kept (hi.blocks s ha.mem) ha.blocks
      refine Or.inr ⟨pre, s, post, ha.sections, a1, ?_⟩
      rcases hc.holding.crash (.stop _ _) with h2 | h2
      · refine ⟨d, ps, hc.dir, hc.plain, h2, fun p hp => h1.tally p (List.mem_append_left _ hp), ?_⟩
        refine List.Subperm.trans ?_ h1.once
        rw [recorded_append]
        exact (List.sublist_append_left _ _).subperm
      · exact ⟨d, ps ++ w, hc.dir, hc.plain, h2, h1⟩
  | inside ws ix k f d d' hpc hf hd hcr =>
    obtain ⟨pre, s, post, done, rs, ha, a1, d₀, ps, w, ps₀, sv, sr, hc, hcfg, hv, hini⟩ :=
      h.current hf (by rw [hpc]; rfl)
    have hdir := hc.dir
    rw [← hcfg, hd] at hdir
    cases hdir
    have hset := path_set hcfg st.fs d'
    have h1 := hc.kept (hi.blocks s ha.mem) ha.blocks
    have hh := hc.holding
    rw [hpc] at hh
    have hfs : st.fs.set f.config.resultPath d' s.cfg.resultPath = some d' := by simp [FileSystem.set, hcfg]
    refine Or.inr ⟨pre, s, post, ha.sections, fun p hp => by rw [hset p hp]; exact a1 p hp, ?_⟩
    rcases hh.crash hcr with h2 | h2
    · refine ⟨d', ps, hfs, hc.plain.crash hcr, h2, fun p hp => h1.tally p (List.mem_append_left _ hp), ?_⟩
      refine List.Subperm.trans ?_ h1.once
      rw [recorded_append]
      exact (List.sublist_append_left _ _).subperm
    · exact ⟨d', ps ++ w, hfs, hc.plain.crash hcr, h2, h1⟩

/-- After a run that has ended: whatever is left to be done, the sections before are complete. -/
theorem DataInvIn.over (h : DataInvIn P result ss st) (hP : P.Keeps result ss) (hi : Tasks env ss result) (hv : Inv st)
    (hpc : st.pc = .finished) (ht : st.todo = [] ∨ ∃ c rest, st.todo = .config c :: rest) :
    ∃ pre post, ss = pre ++ post ∧ st.todo = program post ∧ ∀ p, P.after pre p (st.fs p) := by
  rcases h.sects with hu | ⟨pre, s, post, done, rs, ha, a1, d, ps, w, ps₀, sv, sr, hc⟩
  · exact ⟨[], ss, rfl, hu.todo, hu.kept⟩
  · have hrs : rs = [] := by
      cases rs with
      | nil => rfl
      | cons b rs =>
        have h1 := ha.todo
        rcases ht with ht | ⟨c, rest, ht⟩ <;> rw [ht] at h1 <;> cases h1
    subst hrs
    have hb := ha.blocks
    rw [List.append_nil] at hb
    rw [← hb] at hc
    refine ⟨pre ++ [s], post, by rw [ha.sections]; simp, ha.todo, fun p => ?_⟩
    by_cases hp : p = s.cfg.resultPath
    · obtain ⟨d, ps, c1, c2, c3, c4, c5⟩ :=
        hc.complete hv (hi.blocks s ha.mem) (fun q hq => h.clean q hq (by rw [hpc]; trivial)) (by rw [hpc]; trivial)
          (by rw [hpc]; rfl) (fun q => by rw [hpc]; rfl)
      rw [hp, c1]
      exact hP.closes ha.sections c2 c3 c4 c5
    · exact hP.other ha.sections hp (a1 p hp)

/-! Every section has a directory of its own. -/

theorem DataInvIn.reachable {kinds : List (List Bool)} {fs : FileSystem} (hi : Input env ss result) (h0 : kinds ≠ [])
    (hk : ∀ k ∈ kinds, k.length < 4294967296) (h : ∀ s ∈ ss, KeptIn L result fs s)
    (hr : Reachable env (Mpi.initial kinds fs (program ss)) st) : DataInvIn (L.course result ss) result ss st :=
  .course (L.keeps hi) hi.toTasks h0 hk (fun p s hs hp => ⟨(by simp), (h s hs).congr (congrArg fs hp).symm⟩) hr

theorem DataInvIn.dies {fs' : FileSystem} (h : DataInvIn (L.course result ss) result ss st) (hi : Input env ss result)
    (hd : Dies st fs') : ∀ s ∈ ss, KeptIn L result fs' s :=
  Layout.left hi (h.left hi.toTasks hd)

/-- Whatever is left to be done at the end: the sections before are complete. -/
theorem DataInvIn.stopped (h : DataInvIn (L.course result ss) result ss st) (hi : Input env ss result) (hv : Inv st)
    (hpc : st.pc = .finished) (ht : st.todo = [] ∨ ∃ c rest, st.todo = .config c :: rest) :
    ∃ pre post, ss = pre ++ post ∧ st.todo = program post ∧ ∀ s ∈ pre, CompleteIn L result st.fs s := by
  obtain ⟨pre, post, h1, h2, h3⟩ := h.over (L.keeps hi) hi.toTasks hv hpc ht
  exact ⟨pre, post, h1, h2, fun s hs =>
    ((h3 s.cfg.resultPath s (by rw [h1]; exact List.mem_append_left _ hs) rfl).1 hs).congr rfl⟩

/-- After a complete run. -/
theorem DataInvIn.finished (h : DataInvIn (L.course result ss) result ss st) (hi : Input env ss result) (hv : Inv st)
    (hpc : st.pc = .finished) (ht : st.todo = []) : ∀ s ∈ ss, CompleteIn L result st.fs s := by
  obtain ⟨pre, post, h1, h2, h3⟩ := h.stopped hi hv hpc (Or.inl ht)
  have h4 : post = [] := by
    rw [ht] at h2
    cases post with
    | nil => rfl
    | cons s post => cases h2
  rw [h4, List.append_nil] at h1
  rw [h1]
  exact h3

/-! The directories contain nothing but pairs. -/

abbrev DataInv (result : ConfigNode → Block → StoreMap) (ss : List Sect) (st : State) : Prop :=
  DataInvIn (exactly.course result ss) result ss st

theorem DataInv.reachable {kinds : List (List Bool)} {fs : FileSystem} (hi : Input env ss result) (h0 : kinds ≠ [])
    (hk : ∀ k ∈ kinds, k.length < 4294967296) (h : ∀ s ∈ ss, Kept result fs s)
    (hr : Reachable env (Mpi.initial kinds fs (program ss)) st) : DataInv result ss st :=
  DataInvIn.reachable hi h0 hk h hr

theorem Past.kept {fs : FileSystem} (hi : Input env ss result) (h : Past env ss fs) : ∀ s ∈ ss, Kept result fs s := by
  induction h with
  | start fs h =>
    intro s hs
    cases hd : fs s.cfg.resultPath with
    | none => exact Or.inl ⟨hd, holds_empty⟩
    | some d =>
      obtain ⟨h1, h2⟩ := h.holds hs hd
      exact Or.inr ⟨d, [], hd, h1, h2, (by simp), List.nil_subperm⟩
  | run fs fs' kinds st _ hk hr hd ih =>
    exact (Run.DataInv.reachable hi hk ih hr).dies hi ((Run.Good.init env hk fs hi.blocks).reachable hr) hd
  | mpi fs fs' kinds st _ h0 hk hr hd ih => exact (DataInv.reachable hi h0 hk ih hr).dies hi hd

end

end Mpi
end Hycu
