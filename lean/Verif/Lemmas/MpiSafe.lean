import Verif.Lemmas.MpiData
import Verif.Lemmas.RunSafe

/-!
Runs with several processes never fail.
-/

namespace Hycu

namespace Mpi

open Run (Tables Job Phase Thread ThreadPool FileStoreObj Cmd Cont Choice Env eraseFinished Book lead Distinct Sect program
  Input Tasks Course Layout recorded KeptIn map_ok verify_ok)

section

variable {L : Layout} {P : Course} {env : Env} {result : ConfigNode → Block → StoreMap} {ss : List Sect} {st : State}

/-- A block that is being computed belongs to the current section, with which it was assigned. -/
theorem DataInvIn.job (h : DataInvIn P result ss st) (hi : Tasks env ss result) (hv : Inv st) {ix : Nat}
    (hx : ix < st.nprocs) {i : Nat} (hlt : i < (st.procs ix).size) {j : Job}
    (hp : ((st.procs ix).thr i).phase = .compute j) :
    ∃ s ∈ ss, j.block ∈ s.blocks ∧ (∃ tb, j.tables = some tb ∧ tb.cfg = s.cfg) ∧
      Match (result s.cfg) (st.procs ix).static.record (st.procs ix).static.store := by
  have hpp := hv.each ix hx
  have hj : j ∈ ((st.procs ix).thr i).jobs := by simp [Thread.jobs, hp, Phase.jobs]
  have hjob : ¬ ∀ b, (st.procs ix).known b = 0 := fun hz => by
    rw [blank_idle hpp hz i hlt] at hj
    cases hj
  have hquiet : ¬ st.pc.quiet := fun hqu => hjob (hpp.known_zero (by
    revert hqu; cases st.pc <;> intro hqu <;> first | rfl | cases hqu) (hpp.quiet hqu))
  have hset : st.pc.setting = false := by
    revert hquiet
    cases st.pc <;> intro hquiet <;> first | rfl | exact absurd trivial hquiet
  have hcur : j.tables = (st.procs ix).current := hpp.ok.jobTables i hlt j hj
  have hhead : ∀ c ms, (st.procs ix).inbox ≠ .config c :: ms := fun c ms hc => hjob (hpp.head c ms hc)
  have hwork : 0 < (st.procs ix).work j.block := by
    unfold Proc.work
    refine lt_of_lt_of_le ?_ (le_sum hlt fun i => (unflushed ((st.procs ix).thr i)).count j.block)
    refine List.count_pos_iff.2 ?_
    unfold unflushed
    rw [hp]
    simp
  rcases h.sects with hu | ⟨pre, s, post, done, rest, ha, a1, d, ps, w, ps₀, sv, sr, hc⟩
  · exact absurd (held_known (hu.blank ix hx).held) hjob
  · have hs := ha.mem
    have hbd := hc.bound (hi.blocks s hs) ha.blocks j.block
    have hle := le_sum hx fun q => (st.procs q).load j.block + (recorded (sr q)).count j.block
    have hload : (st.procs ix).load j.block = (st.procs ix).inBlocks.count j.block + (st.procs ix).work j.block +
      (st.procs ix).static.record.count j.block := rfl
    have hb : j.block ∈ s.blocks := by
      have : 0 < (s.blocks.filter fun b => b ∉ recorded ps₀).count j.block := by omega
      exact (List.mem_filter.1 (List.count_pos_iff.1 this)).1
    have e := hc.cfg hset ix hx
    rw [Proc.cfgOf_current hhead, ← hcur] at e
    cases htb : j.tables with
    | none => rw [htb] at e; cases e
    | some tb =>
      rw [htb] at e
      exact ⟨s, hs, hb, ⟨tb, rfl, Option.some.inj e⟩, hc.static ix hx⟩

/-- Threads never fail. -/
theorem thread_ok (h : DataInvIn P result ss st) (hi : Tasks env ss result) (hv : Inv st) {ix : Nat}
    (hx : ix < st.nprocs) {i : Nat} (hlt : i < (st.procs ix).size) : ∃ o, (st.procs ix).threadStep env i = .ok o := by
  unfold Proc.threadStep
  simp only
  split
  · split
    · exact ⟨_, rfl⟩
    · split <;> exact ⟨_, rfl⟩
  · exact ⟨_, rfl⟩
  · exact ⟨_, rfl⟩
  · rename_i hp
    split
    · rename_i hq
      exact absurd hq ((hv.each ix hx).ok.pop i hp)
    · exact ⟨_, rfl⟩
  · rename_i j hp
    obtain ⟨s, hs, hb, ⟨tb, htb, hc⟩, hm⟩ := h.job hi hv hx hlt hp
    obtain ⟨m', h1, _⟩ := Store.addEntries_tally _ hm.tally (hi.entry_small hs hb)
    rw [htb]
    refine ⟨some ?_, ?_⟩
    rotate_left
    · simp only [hc, hi.compute s hs _ hb, Store.flushToStatic]
      show (do
        let r ← (do
          let m ← List.foldlM _ _ (result s.cfg j.block)
          pure _)
        _ : Res _) = _
      rw [h1]
      rfl
  · rename_i j hp
    obtain ⟨r, h1, _⟩ := (hv.each ix hx).ok.report hlt hp
    exact ⟨_, by rw [h1]; rfl⟩
  · exact ⟨_, rfl⟩

/-- Main threads of workers never fail. -/
theorem worker_ok (hv : Inv st) {ix : Nat} (hx : ix < st.nprocs) : ∃ o, (st.procs ix).workerStep = .ok o := by
  unfold Proc.workerStep
  split
  · split
    · exact ⟨_, rfl⟩
    · rename_i m ms hin
      refine map_ok ?_
      cases m with
      | assign o b =>
        obtain ⟨r, h1, _⟩ := (hv.each ix hx).assign hin
        exact ⟨_, by unfold Proc.handle; simp only; rw [h1]; rfl⟩
      | _ => exact ⟨_, rfl⟩
  · exact ⟨_, rfl⟩
  · split <;> exact ⟨_, rfl⟩
  · exact ⟨_, rfl⟩
  · split <;> exact ⟨_, rfl⟩
  · exact ⟨_, rfl⟩

/-- Passing a block to a process never fails. -/
theorem pass_ok (hv : Inv st) (hpc : st.pc = .take) {b : Block} {rest : List Cmd} (ht : st.todo = .assign b :: rest)
    {o : Bool} {ix : Nat}
    (hq : (o = true ∧ ∃ oq, st.openclQueue = ix :: oq) ∨ (o = false ∧ ∃ cq, st.cpuQueue = ix :: cq))
    {st' : State} (he : st'.procs = st.procs) : ∃ r, passBlock st' ix b o = .ok r := by
  unfold passBlock
  split
  · rename_i h0
    subst h0
    have hp := hv.each 0 hv.pos
    have hfr := hp.fresh b (by rw [ht]; exact List.mem_cons_self)
    have hex : ∃ cpu' ocl', st.cpuQueue.count 0 = cpu' + (if o = false then 1 else 0) ∧
        st.openclQueue.count 0 = ocl' + if o = true then 1 else 0 := by
      rcases hq with ⟨rfl, oq, h1⟩ | ⟨rfl, cq, h1⟩
      · exact ⟨_, oq.count 0, rfl, by rw [h1, List.count_cons_self]; rfl⟩
      · exact ⟨cq.count 0, _, by rw [h1, List.count_cons_self]; rfl, rfl⟩
    obtain ⟨cpu', ocl', h1, h2⟩ := hex
    obtain ⟨r, h3, _⟩ := hp.passLocal h1 h2 (by rw [hpc]; rfl) (by rw [hpc]; rfl) hfr.1
    rw [he, h3]
    exact ⟨_, rfl⟩
  · exact ⟨_, rfl⟩

/-- The main thread of the master never fails. -/
theorem master_ok (h : DataInvIn P result ss st) (hP : P.Keeps result ss) (hv : Inv st) (ch : Choice) :
    ∃ o, masterStep st ch = .ok o := by
  unfold masterStep
  split
  · refine map_ok ?_
    unfold mainStep
    split
    · exact ⟨_, rfl⟩
    · rename_i c _ _
      obtain ⟨v, hv⟩ := verify_ok c st.fs ch.create
      exact ⟨_, by rw [hv]; rfl⟩
    · exact ⟨_, rfl⟩
  · rename_i c hpc
    refine map_ok ?_
    obtain ⟨a, ha, _⟩ := (hv.each 0 hv.pos).flush (by rw [hpc]; rfl) (by rw [hpc]; rfl)
    unfold flushStep finishedBlocks
    have : eraseFinished (st.procs 0).flushFinished.2 ((st.setProc 0 (st.procs 0).flushFinished.1).assigned 0) = .ok a := ha
    simp only
    rw [this]
    exact ⟨_, rfl⟩
  · split <;> exact ⟨_, rfl⟩
  · rename_i ix c hpc
    have hs := hv.started
    rw [hpc] at hs
    unfold flushRecvStep
    split
    · exact ⟨_, rfl⟩
    · rename_i bs rest ho
      obtain ⟨a, ha, _⟩ := (hv.each ix hs.2).recvFinished (by rw [hpc]; exact if_pos rfl) (by rw [hpc]; rfl) ho
      unfold finishedBlocks
      have : eraseFinished bs ((st.setProc ix { st.procs ix with finishedOut := rest }).assigned ix) = .ok a := ha
      rw [this]
      exact ⟨_, rfl⟩
  · exact ⟨_, rfl⟩
  · exact ⟨_, rfl⟩
  · split <;> exact ⟨_, rfl⟩
  · exact ⟨_, rfl⟩
  · exact ⟨_, rfl⟩
  · exact ⟨_, rfl⟩
  · split <;> exact ⟨_, rfl⟩
  · rename_i ix k hpc
    unfold saveRecvStep
    split
    · exact ⟨_, rfl⟩
    · split
      · rename_i hf
        exfalso
        rcases h.sects with hu | ⟨pre, s, post, done, rest, ha, a1, d, ps, w, ps₀, sv, sr, hc⟩
        · have := hu.saving
          rw [hpc] at this
          cases this
        · obtain ⟨f, hf', _⟩ := hc.store (by rw [hpc]; rfl)
          rw [hf] at hf'
          cases hf'
      · exact ⟨_, rfl⟩
  · exact ⟨_, rfl⟩
  · exact ⟨_, rfl⟩
  · rename_i hpc
    split
    · rename_i c rest ht
      refine map_ok ?_
      unfold newStoreStep
      split
      · exact ⟨_, rfl⟩
      · rename_i d hd
        have hkept : ∃ (L : Layout) (s : Sect) (ps : List (OSet Block × StoreMap)), L.holds s d ps := by
          rcases h.sects with hu | ⟨pre, s, post, done, rs, ha, a1, d₀, ps, w, ps₀, sv, sr, hc⟩
          · have h1 := hu.todo
            rw [ht] at h1
            cases ss with
            | nil => cases h1
            | cons s ss =>
              cases h1
              have h2 := hu.kept s.cfg.resultPath
              rw [hd] at h2
              obtain ⟨ps, _, h3, _⟩ := hP.opens (pre := []) rfl h2
              exact ⟨_, _, ps, h3⟩
          · have h1 := ha.todo
            rw [ht] at h1
            cases rs with
            | cons b rs => cases h1
            | nil =>
              cases post with
              | nil => cases h1
              | cons s' post =>
                cases h1
                by_cases hp : s'.cfg.resultPath = s.cfg.resultPath
                · have hh := hc.holding
                  have h2 := hc.dir
                  rw [← hp, hd] at h2
                  cases h2
                  rw [hpc] at hh
                  exact ⟨_, _, _, hh.done.1⟩
                · have h2 := hP.other ha.sections hp (a1 _ hp)
                  rw [hd] at h2
                  obtain ⟨ps, _, h3, _⟩ := hP.opens (post := post) (by rw [ha.sections, List.append_assoc]; rfl) h2
                  exact ⟨_, _, ps, h3⟩
        obtain ⟨L, s, ps, hps⟩ := hkept
        obtain ⟨r, hr, _⟩ := L.initial hps
        rw [hr]
        exact ⟨_, rfl⟩
    · exact ⟨_, rfl⟩
  · split <;> exact ⟨_, rfl⟩
  · split
    · split <;> exact ⟨_, rfl⟩
    · exact ⟨_, rfl⟩
  · rename_i hpc
    split
    · rename_i b rest ht
      refine map_ok ?_
      obtain ⟨pre, s, post, done, rs, ha, a1, d, ps, w, ps₀, sv, sr, hc⟩ := h.begun ht
      obtain ⟨f, hf, _⟩ := hc.store (by rw [hpc]; rfl)
      unfold containsStep
      rw [hf]
      simp only
      split
      · exact ⟨_, rfl⟩
      · split <;> exact ⟨_, rfl⟩
    · exact ⟨_, rfl⟩
  · rename_i hpc
    split
    · rename_i b rest ht
      refine map_ok ?_
      unfold takeStep
      split
      · rename_i ix q hq
        exact pass_ok hv hpc ht (Or.inl ⟨rfl, q, hq⟩) rfl
      · rename_i hq
        split
        · rename_i ix q hq
          exact pass_ok hv hpc ht (Or.inr ⟨rfl, q, hq⟩) rfl
        · rename_i hq'
          exact absurd (hv.take hpc) (by rw [hq, hq']; simp)
    · exact ⟨_, rfl⟩
  · exact ⟨_, rfl⟩
  · exact ⟨_, rfl⟩
  · split <;> exact ⟨_, rfl⟩
  · split <;> exact ⟨_, rfl⟩
  · exact ⟨_, rfl⟩
  · split <;> exact ⟨_, rfl⟩
  · exact ⟨_, rfl⟩

/-- No step fails. -/
theorem safe_step (h : DataInvIn P result ss st) (hP : P.Keeps result ss) (hi : Tasks env ss result) (hv : Inv st) (l : Label) :
    ∃ o, step env st l = .ok o := by
  cases l with
  | thread ix i =>
    simp only [step]
    split
    · rename_i hx
      obtain ⟨o, ho⟩ := thread_ok h hi hv hx.1 hx.2
      exact ⟨_, by rw [ho]; rfl⟩
    · exact ⟨_, rfl⟩
  | master ch => exact master_ok h hP hv ch
  | worker ix =>
    simp only [step]
    split
    · rename_i hx
      obtain ⟨o, ho⟩ := worker_ok hv hx.2
      exact ⟨_, by rw [ho]; rfl⟩
    · exact ⟨_, rfl⟩
  | spurious ix i =>
    simp only [step]
    split <;> exact ⟨_, rfl⟩

theorem step_ok (h : DataInvIn (L.course result ss) result ss st) (hi : Input env ss result) (hv : Inv st) (l : Label) :
    ∃ o, step env st l = .ok o := safe_step h (L.keeps hi) hi.toTasks hv l

end

end Mpi
end Hycu
