import Verif.Lemmas.Making
import Verif.Props.Attempts

/-!
C84: runs in which the tables of a configuration are made by the main threads when it is announced.
-/

namespace Hycu

open Run (Env Sect program)

variable {tab : ConfigNode → Res Unit} {env : Env} {ss : List Sect} {fs : FileSystem}

theorem config_mem_program {s : Sect} (h : s ∈ ss) : .config s.cfg ∈ program ss :=
  List.mem_flatMap.2 ⟨s, h, List.mem_cons_self⟩

theorem config_of_mem_program {c : ConfigNode} (h : .config c ∈ program ss) : ∃ s ∈ ss, s.cfg = c := by
  obtain ⟨s, hs, h⟩ := List.mem_flatMap.1 h
  rcases List.mem_cons.1 h with h | h
  · cases h
    exact ⟨s, hs, rfl⟩
  · obtain ⟨b, _, hb⟩ := List.mem_map.1 h
    cases hb

/-- The computation of a block, once its tables have been made. -/
theorem Flint.compute_made {w : Flint} {c : ConfigNode} (h : w.makeTables c = .ok ()) : ∃ t rts,
    w.fqTable c.prime c.primeExponent = .ok t ∧ w.reductionTables c = .ok rts ∧
    ∀ b, w.env.compute c b = Compute.block (w.poly c.prime c.primeExponent) t rts b := by
  unfold Flint.makeTables at h
  obtain ⟨t, h1, h⟩ := Res.bind_eq_ok.1 h
  obtain ⟨rts, h2, -⟩ := Res.bind_eq_ok.1 h
  refine ⟨t, rts, h1, h2, fun b => ?_⟩
  show (w.fqTable c.prime c.primeExponent >>= fun table => w.reductionTables c >>= fun rts =>
    Compute.block (w.poly c.prime c.primeExponent) table rts b) = _
  rw [h1, h2]
  rfl

/-- C84: with fields that are too large no tables are made. -/
theorem C84_no_tables {w : Flint} {c : ConfigNode} (hw : Presents w c)
    (hb : 2147483648 < c.prime ^ (c.countExponent * c.primeExponent)) : w.makeTables c ≠ .ok () := by
  intro h
  obtain ⟨t, rts, -, h, -⟩ := Flint.compute_made h
  rcases Nat.lt_or_ge (c.prime ^ (c.countExponent * c.primeExponent)) 4294967296 with h1 | h1
  · rw [(C80_too_large hw hb).2 h1] at h; cases h
  · rw [(C80_too_large hw hb).1 h1] at h; cases h

theorem saved_of_complete (h : Attempts env ss) (hp : Mpi.Past env ss fs) {s : Sect} (hs : s ∈ ss)
    (hc : Run.CompleteIn Run.exactly (succeeded env) fs s) : Saved env fs s := by
  obtain ⟨d, ps, h1, _, h3, ⟨h4, _⟩, h5⟩ := hc
  obtain ⟨o, h6, h7⟩ := merge_holds h3
  refine ⟨fun b hb => recorded_ok h hp hs h1 h3 (h.nonempty s hs b hb) (h5.mem_iff.2 hb),
    d, o.1, o.2, h1, h6, Run.tally_sections h4 h5 h7.sum, fun b hb => ?_⟩
  rw [h7.union.mem b hb, ← h5.mem_iff, Run.recorded, List.mem_flatMap]

theorem before_complete {result : ConfigNode → Block → StoreMap} {pre post : List Sect} {s s' : Sect}
    (h : Attempts env ss) (hss : ss = pre ++ s :: post) (hs : s' ∈ pre)
    (ha : ∀ p, p ≠ s.cfg.resultPath → (Run.exactly.course result ss).after pre p (fs p)) :
    Run.CompleteIn Run.exactly result fs s' := by
  have hn := h.paths
  rw [hss, List.map_append, List.map_cons] at hn
  have hne : s'.cfg.resultPath ≠ s.cfg.resultPath := fun e =>
    (List.nodup_append.1 hn).2.2 _ (List.mem_map.2 ⟨s', hs, rfl⟩) _ List.mem_cons_self e
  obtain ⟨d, ps, h1, h2⟩ := (ha _ hne s' (by rw [hss]; simp [hs]) rfl).1 hs
  exact ⟨d, ps, h1, h2⟩

namespace Run

variable {kinds : List Bool} {st : State}

/-- C84: if all tables can be made, the runs are the same as without this step. -/
theorem C84_same (ht : ∀ s ∈ ss, tab s.cfg = .ok ()) :
    (∀ st, MakingReachable tab env (initial kinds fs (program ss)) st ↔
      Reachable env (initial kinds fs (program ss)) st) ∧
    ∀ st, Reachable env (initial kinds fs (program ss)) st → ∀ l, makingStep tab env st l = step env st l := by
  have same : ∀ st, Reachable env (initial kinds fs (program ss)) st → ∀ l, makingStep tab env st l = step env st l := by
    intro st h l
    unfold makingStep
    rw [makes_ok (fun c hc => ?_) l]
    · rfl
    · obtain ⟨s, hs, rfl⟩ := config_of_mem_program (h.todo_mem hc)
      exact ht s hs
  refine ⟨fun st => ⟨MakingReachable.reachable, fun h => ?_⟩, same⟩
  induction h with
  | refl => exact .refl
  | step l h hs ih => exact .step l ih ((same _ h l).trans hs)

/-- C84: in any case they are runs as before. -/
theorem C84_runs (h : MakingReachable tab env (initial kinds fs (program ss)) st) :
    Reachable env (initial kinds fs (program ss)) st := h.reachable

/-- C84: a thread only gets blocks of configurations whose tables have been made. -/
theorem C84_made (h : MakingReachable tab env (initial kinds fs (program ss)) st) {i : Nat} (hi : i < st.size) :
    ∀ j ∈ (st.thr i).given, ∀ tb, j.tables = some tb → tab tb.cfg = .ok () :=
  ((made_initial kinds fs (program ss)).reachable h i hi).2

/-- C84: when all calls have been made, all tables have been made. -/
theorem C84_complete (hk : kinds ≠ []) (h : MakingReachable tab env (initial kinds fs (program ss)) st)
    (ht : st.todo = []) : ∀ s ∈ ss, tab s.cfg = .ok () := by
  intro s hs
  rcases (todo_made (by simpa [initial] using hk) h).2 s.cfg (config_mem_program hs) with h | h
  · rw [ht] at h
    cases h
  · exact h

/-- C84: what can fail in a run of hycu-threaded: the main thread when it makes the tables of a configuration, or a
thread when it computes a block with tables that have been made. -/
theorem C84_fails {w : Flint} (h : Attempts w.env ss) (hp : Mpi.Past w.env ss fs) (hk : kinds.length < 4294967296)
    (hr : MakingReachable w.makeTables w.env (initial kinds fs (program ss)) st) (l : Label)
    (hf : ∀ o, makingStep w.makeTables w.env st l ≠ .ok o) :
    (∃ ch c rest, l = .master ch ∧ st.pc = .update ∧ st.todo = .config c :: rest ∧ st.size ≠ 0 ∧
      w.makeTables c ≠ .ok ()) ∨
    ∃ i j tb t rts, l = .thread i ∧ i < st.size ∧ (st.thr i).phase = .compute j ∧ j.tables = some tb ∧
      w.fqTable tb.cfg.prime tb.cfg.primeExponent = .ok t ∧ w.reductionTables tb.cfg = .ok rts ∧
      ∀ m, Compute.block (w.poly tb.cfg.prime tb.cfg.primeExponent) t rts j.block ≠ .ok m := by
  by_cases hm : makes w.makeTables st l = .ok ()
  · right
    unfold makingStep at hf
    rw [hm] at hf
    obtain ⟨i, r, rfl, hi, ⟨j, tb, h1, h2, h3⟩, h4⟩ := C83_fails h hp hk hr.reachable l hf
    have hj : j ∈ (st.thr i).given := List.mem_append_right _ (by rw [h1]; exact List.mem_singleton_self j)
    obtain ⟨t, rts, h5, h6, h7⟩ := Flint.compute_made (C84_made hr hi j hj tb h2)
    exact ⟨i, j, tb, t, rts, rfl, hi, h1, h2, h5, h6, fun m hm => h4 m (h3 ▸ (h7 _).trans hm)⟩
  · left
    cases l with
    | master ch =>
      simp only [makes] at hm
      split at hm
      · rename_i c rest h1 h2
        unfold makeAll at hm
        split at hm
        · exact absurd rfl hm
        · rename_i h3
          exact ⟨ch, c, rest, rfl, h1, h2, h3, hm⟩
      · exact absurd rfl hm
    | _ => exact absurd rfl hm

/-- C84: the main thread fails in the same way as the making of the tables. -/
theorem C84_stops {c : ConfigNode} {rest : List Cmd} (hs : st.size ≠ 0) (hpc : st.pc = .update)
    (ht : st.todo = .config c :: rest) (ch : Choice) :
    (tab c = .ub → makingStep tab env st (.master ch) = .ub) ∧
    (tab c = .abort → makingStep tab env st (.master ch) = .abort) ∧
    (tab c = .diverge → makingStep tab env st (.master ch) = .diverge) := by
  unfold makingStep
  simp only [makes, hpc, ht, makeAll, if_neg hs]
  exact ⟨fun h => by rw [h]; rfl, fun h => by rw [h]; rfl, fun h => by rw [h]; rfl⟩

/-- C84: when the main thread is about to make the tables of a configuration, all blocks of the sections before it have
been computed and saved, so that nothing of them is lost if it fails. -/
theorem C84_before (h : Attempts env ss) (hp : Mpi.Past env ss fs) (hk : kinds.length < 4294967296)
    (hr : MakingReachable tab env (initial kinds fs (program ss)) st) (hpc : st.pc = .update) {c : ConfigNode}
    {rest : List Cmd} (ht : st.todo = .config c :: rest) :
    ∃ pre s post, ss = pre ++ s :: post ∧ s.cfg = c ∧ ∀ s' ∈ pre, Saved env st.fs s' := by
  have hi := h.input
  have hr' := hr.reachable.repair fun _ _ => []
  have hr2 := hr'.step (.master ⟨true, true, 0⟩) (st' := updateStep st c rest) (by simp only [step, masterStep, hpc, ht])
  rcases (DataInv.reachable hi hk ((hp.repair _).kept hi) hr2).sects with
    ⟨-, h1, -⟩ | ⟨pre, s, post, done, rest', tb, ha, h1, -⟩
  · cases h1
  · have hc : s.cfg = c := by
      have := ha.current
      cases Option.some.inj this
      exact ha.cfg.symm
    refine ⟨pre, s, post, ha.sections, hc, fun s' hs' => ?_⟩
    exact saved_of_complete h (.run _ _ _ _ hp hk hr.reachable .between) (by rw [ha.sections]; simp [hs'])
      (before_complete h ha.sections hs' h1)

end Run

namespace Mpi

open Run (Cmd Choice)

variable {kinds : List (List Bool)} {st : State}

theorem known_initial : Known (program ss) (initial kinds fs (program ss)) :=
  ⟨fun _ h => h, fun _ _ h => absurd h (by simp [initial, Proc.initial])⟩

/-- C84: the same for hycu-mpi. -/
theorem C84_same (ht : ∀ s ∈ ss, tab s.cfg = .ok ()) :
    (∀ st, MakingReachable tab env (initial kinds fs (program ss)) st ↔
      Reachable env (initial kinds fs (program ss)) st) ∧
    ∀ st, Reachable env (initial kinds fs (program ss)) st → ∀ l, makingStep tab env st l = step env st l := by
  have same : ∀ st, Reachable env (initial kinds fs (program ss)) st → ∀ l, makingStep tab env st l = step env st l := by
    intro st h l
    unfold makingStep
    rw [makes_ok (known_initial.reachable h) (fun c hc => ?_) l]
    · rfl
    · obtain ⟨s, hs, rfl⟩ := config_of_mem_program hc
      exact ht s hs
  refine ⟨fun st => ⟨MakingReachable.reachable, fun h => ?_⟩, same⟩
  induction h with
  | refl => exact .refl
  | step l h hs ih => exact .step l ih ((same _ h l).trans hs)

/-- C84: in any case they are runs as before. -/
theorem C84_runs (h : MakingReachable tab env (initial kinds fs (program ss)) st) :
    Reachable env (initial kinds fs (program ss)) st := h.reachable

/-- C84: a thread of any process only gets blocks of configurations whose tables have been made. -/
theorem C84_made (h : MakingReachable tab env (initial kinds fs (program ss)) st) {ix i : Nat}
    (hi : i < (st.procs ix).size) :
    ∀ j ∈ ((st.procs ix).thr i).given, ∀ tb, j.tables = some tb → tab tb.cfg = .ok () :=
  (made_reachable (made_initial kinds fs (program ss)) h ix i hi).2

/-- C84: when all calls have been made and process 0 has a thread, all tables have been made. -/
theorem C84_complete {k : List Bool} {ks : List (List Bool)} (hk : k ≠ [])
    (h : MakingReachable tab env (initial (k :: ks) fs (program ss)) st) (ht : st.todo = []) :
    ∀ s ∈ ss, tab s.cfg = .ok () := by
  intro s hs
  rcases (todo_made (by simpa [initial, Proc.initial] using hk) (by simp [initial]) h).2.1 s.cfg
    (config_mem_program hs) with h | h
  · rw [ht] at h
    cases h
  · exact h

/-- C84: what can fail in a run of hycu-mpi: the main thread of a process that has threads, when it makes the tables of a
configuration, or a thread when it computes a block with tables that have been made. -/
theorem C84_fails {w : Flint} (h : Attempts w.env ss) (hp : Mpi.Past w.env ss fs) (h0 : kinds ≠ [])
    (hk : ∀ k ∈ kinds, k.length < 4294967296)
    (hr : MakingReachable w.makeTables w.env (initial kinds fs (program ss)) st) (l : Label)
    (hf : ∀ o, makingStep w.makeTables w.env st l ≠ .ok o) :
    (∃ ch c rest, l = .master ch ∧ st.pc = .update ∧ st.todo = .config c :: rest ∧ (st.procs 0).size ≠ 0 ∧
      w.makeTables c ≠ .ok ()) ∨
    (∃ ix c ms, l = .worker ix ∧ 0 < ix ∧ ix < st.nprocs ∧ (st.procs ix).pc = .probe ∧
      (st.procs ix).inbox = .config c :: ms ∧ (st.procs ix).size ≠ 0 ∧ w.makeTables c ≠ .ok ()) ∨
    ∃ ix i j tb t rts, l = .thread ix i ∧ ix < st.nprocs ∧ i < (st.procs ix).size ∧
      ((st.procs ix).thr i).phase = .compute j ∧ j.tables = some tb ∧
      w.fqTable tb.cfg.prime tb.cfg.primeExponent = .ok t ∧ w.reductionTables tb.cfg = .ok rts ∧
      ∀ m, Compute.block (w.poly tb.cfg.prime tb.cfg.primeExponent) t rts j.block ≠ .ok m := by
  by_cases hm : makes w.makeTables st l = .ok ()
  · right; right
    unfold makingStep at hf
    rw [hm] at hf
    obtain ⟨ix, i, r, rfl, hx, hi, ⟨j, tb, h1, h2, h3⟩, h4⟩ := C83_fails h hp h0 hk hr.reachable l hf
    have hj : j ∈ ((st.procs ix).thr i).given := List.mem_append_right _ (by rw [h1]; exact List.mem_singleton_self j)
    obtain ⟨t, rts, h5, h6, h7⟩ := Flint.compute_made (C84_made hr hi j hj tb h2)
    exact ⟨ix, i, j, tb, t, rts, rfl, hx, hi, h1, h2, h5, h6, fun m hm => h4 m (h3 ▸ (h7 _).trans hm)⟩
  · cases l with
    | master ch =>
      left
      simp only [makes] at hm
      split at hm
      · rename_i c rest h1 h2
        unfold makeAll at hm
        split at hm
        · exact absurd rfl hm
        · rename_i h3
          exact ⟨ch, c, rest, rfl, h1, h2, h3, hm⟩
      · exact absurd rfl hm
    | worker ix =>
      right; left
      simp only [makes] at hm
      split at hm
      · rename_i hx
        split at hm
        · rename_i c ms h1 h2
          unfold makeAll at hm
          split at hm
          · exact absurd rfl hm
          · rename_i h3
            exact ⟨ix, c, ms, rfl, hx.1, hx.2, h1, h2, h3, hm⟩
        · exact absurd rfl hm
      · exact absurd rfl hm
    | _ => exact absurd rfl hm

/-- C84: the main thread of the master fails in the same way as the making of the tables. -/
theorem C84_stops {c : ConfigNode} {rest : List Cmd} (hs : (st.procs 0).size ≠ 0) (hpc : st.pc = .update)
    (ht : st.todo = .config c :: rest) (ch : Choice) :
    (tab c = .ub → makingStep tab env st (.master ch) = .ub) ∧
    (tab c = .abort → makingStep tab env st (.master ch) = .abort) ∧
    (tab c = .diverge → makingStep tab env st (.master ch) = .diverge) := by
  unfold makingStep
  simp only [makes, hpc, ht, makeAll, if_neg hs]
  exact ⟨fun h => by rw [h]; rfl, fun h => by rw [h]; rfl, fun h => by rw [h]; rfl⟩

/-- The master can go on to send a configuration until all processes have got it. -/
theorem sends_all {st₀ : State} {c : ConfigNode} {rest : List Cmd} (n : Nat) : ∀ (st : State) (ix : Nat), st.nprocs ≤ ix + n →
    Reachable env st₀ st → st.pc = .configSend ix → st.todo = .config c :: rest →
    ∃ st', Reachable env st₀ st' ∧ st'.pc = .main ∧ st'.todo = rest ∧ st'.fs = st.fs ∧ st'.fileStore = st.fileStore := by
  induction n with
  | zero =>
    intro st ix hn hr hpc ht
    refine ⟨{ st with todo := rest, pc := .main }, hr.step (.master ⟨true, true, 0⟩) ?_, rfl, rfl, rfl, rfl⟩
    simp only [step, masterStep, hpc, ht]
    rw [if_neg (by omega)]
  | succ n ih =>
    intro st ix hn hr hpc ht
    by_cases hx : ix < st.nprocs
    · refine ih { st.send ix (.config c) with pc := .configSend (ix + 1) } (ix + 1) ?_
        (hr.step (.master ⟨true, true, 0⟩) ?_) rfl ht
      · show st.nprocs ≤ _
        omega
      · simp only [step, masterStep, hpc, ht]
        rw [if_pos hx]
    · refine ⟨{ st with todo := rest, pc := .main }, hr.step (.master ⟨true, true, 0⟩) ?_, rfl, rfl, rfl, rfl⟩
      simp only [step, masterStep, hpc, ht]
      rw [if_neg hx]

/-- C84: when the master is about to make the tables of a configuration, all blocks of the sections before it have been
computed and saved. -/
theorem C84_before (h : Attempts env ss) (hp : Past env ss fs) (h0 : kinds ≠ []) (hk : ∀ k ∈ kinds, k.length < 4294967296)
    (hr : MakingReachable tab env (initial kinds fs (program ss)) st) (hpc : st.pc = .update) {c : ConfigNode}
    {rest : List Cmd} (ht : st.todo = .config c :: rest) :
    ∃ pre s post, ss = pre ++ s :: post ∧ s.cfg = c ∧ ∀ s' ∈ pre, Saved env st.fs s' := by
  have hi := h.input
  have hr' := hr.reachable.repair fun _ _ => []
  obtain ⟨f, _, hf, -, hfc, -⟩ := (DataInv.reachable hi h0 hk ((hp.repair _).kept hi) hr').next (by rw [hpc]; rfl) c rest ht
  obtain ⟨st', hr2, h1, h2, h3, h4⟩ := sends_all (c := c) (rest := rest) st.nprocs
    { st.setProc 0 ((st.procs 0).update c) with pc := .configSend 1 } 1 (Nat.le_add_left _ _)
    (hr'.step (.master ⟨true, true, 0⟩) (by simp only [step, masterStep, hpc, ht])) rfl ht
  have hf' : st'.fileStore = some f := h4.trans hf
  rcases (DataInv.reachable hi h0 hk ((hp.repair _).kept hi) hr2).sects with
    hu | ⟨pre, s, post, done, rest', ha, h5, _, _, _, _, _, _, hcur⟩
  · have := hu.store (by rw [h1]; rfl)
    rw [hf'] at this
    cases this
  · obtain ⟨f', h6, -, h7, -⟩ := hcur.store (by rw [h1]; rfl)
    rw [hf'] at h6
    cases h6
    refine ⟨pre, s, post, ha.sections, h7.symm.trans hfc, fun s' hs' => ?_⟩
    have h8 := before_complete h ha.sections hs' h5
    rw [h3] at h8
    exact saved_of_complete h (.mpi _ _ _ _ hp h0 hk hr.reachable .between) (by rw [ha.sections]; simp [hs']) h8

/-- C84: so does a worker that receives the configuration. -/
theorem C84_worker_stops {c : ConfigNode} {ms : List Msg} {ix : Nat} (h1 : 0 < ix) (h2 : ix < st.nprocs)
    (hs : (st.procs ix).size ≠ 0) (hpc : (st.procs ix).pc = .probe) (hi : (st.procs ix).inbox = .config c :: ms) :
    (tab c = .ub → makingStep tab env st (.worker ix) = .ub) ∧
    (tab c = .abort → makingStep tab env st (.worker ix) = .abort) ∧
    (tab c = .diverge → makingStep tab env st (.worker ix) = .diverge) := by
  unfold makingStep
  simp only [makes, h1, h2, and_self, if_true, hpc, hi, makeAll, if_neg hs]
  exact ⟨fun h => by rw [h]; rfl, fun h => by rw [h]; rfl, fun h => by rw [h]; rfl⟩

end Mpi

/-- C84: a run whose input has a configuration with fields that are too large does not make all calls, even if there are
no blocks for it or all of them are recorded, as soon as the only or the first process has a thread. -/
theorem C84_too_large {w : Flint} {c : ConfigNode} (hw : Presents w c)
    (hb : 2147483648 < c.prime ^ (c.countExponent * c.primeExponent)) {s : Sect} (hs : s ∈ ss) (hc : s.cfg = c) :
    (∀ (kinds : List Bool) (st : Run.State), kinds ≠ [] →
      Run.MakingReachable w.makeTables env (Run.initial kinds fs (program ss)) st → st.todo ≠ []) ∧
    (∀ (k : List Bool) (ks : List (List Bool)) (st : Mpi.State), k ≠ [] →
      Mpi.MakingReachable w.makeTables env (Mpi.initial (k :: ks) fs (program ss)) st → st.todo ≠ []) :=
  ⟨fun _ _ hk h ht => C84_no_tables hw hb (hc ▸ Run.C84_complete hk h ht s hs),
    fun _ _ _ hk h ht => C84_no_tables hw hb (hc ▸ Mpi.C84_complete hk h ht s hs)⟩

/-! ### Non-trivial instances -/

/-- The tables of the second configuration of the example cannot be made. -/
def someTab (c : ConfigNode) : Res Unit := if c.prime = 11 then .abort else .ok ()

namespace Run

/-- Execute a list of steps. -/
def makingExec (tab : ConfigNode → Res Unit) (env : Env) (st : State) : List Label → Option State
  | [] => some st
  | l :: ls =>
    match makingStep tab env st l with
    | .ok (some st') => makingExec tab env st' ls
    | _ => none

theorem makingExec_reachable {tab : ConfigNode → Res Unit} {env : Env} {st₀ : State} {ls : List Label} :
    ∀ {st st' : State}, MakingReachable tab env st₀ st → makingExec tab env st ls = some st' →
      MakingReachable tab env st₀ st' := by
  induction ls with
  | nil => rintro st st' h hs; cases hs; exact h
  | cons l ls ih =>
    intro st st' h hs
    unfold makingExec at hs
    split at hs
    · rename_i h1
      exact ih (.step l h h1) hs
    · cases hs

set_option maxRecDepth 20000 in
/-- Hypotheses of `C84_complete` and `C84_same`: a run with one thread that makes all calls. -/
example : ∃ st, MakingReachable someTab onceEnv (initial [false] (fun _ => none) (program [onceSect])) st ∧
    st.pc = .finished ∧ st.todo = [] ∧ ∀ s ∈ [onceSect], someTab s.cfg = .ok () :=
  ⟨_, makingExec_reachable (ls := onceLabels 8 ++ onceEnd) .refl rfl, rfl, rfl, by simp [onceSect, someTab]⟩

set_option maxRecDepth 20000 in
/-- Hypotheses of `C84_made`: the thread computes a block. -/
example : ∃ st, MakingReachable someTab onceEnv (initial [false] (fun _ => none) (program [onceSect])) st ∧
    0 < st.size ∧ (st.thr 0).given = [⟨[(0, 10)], some ⟨onceSect.cfg, 0⟩⟩] :=
  ⟨_, makingExec_reachable (ls := threadSteps 0 2 ++ mainSteps 12 ++ threadSteps 0 2) .refl rfl, by decide, rfl⟩

end Run

namespace Mpi

/-- The scheduler tries a step. -/
def makingAttempt (tab : ConfigNode → Res Unit) (env : Env) (st : State) (l : Label) : State :=
  match makingStep tab env st l with
  | .ok (some st') => st'
  | _ => st

theorem makingAttempts_reachable {tab : ConfigNode → Res Unit} {env : Env} {st₀ : State} :
    ∀ (ls : List Label) {st : State}, MakingReachable tab env st₀ st →
      MakingReachable tab env st₀ (ls.foldl (makingAttempt tab env) st)
  | [], _, h => h
  | l :: ls, st, h => by
    refine makingAttempts_reachable ls ?_
    unfold makingAttempt
    split
    · rename_i hs
      exact .step l h hs
    · exact h

/-- Some rounds of the scheduler. -/
def makingRun (kinds : List (List Bool)) (n : Nat) : State :=
  ((List.range n).flatMap round).foldl (makingAttempt someTab demoEnv) (initial kinds (fun _ => none) (program demoSects))

theorem makingRun_reachable (kinds : List (List Bool)) (n : Nat) :
    MakingReachable someTab demoEnv (initial kinds (fun _ => none) (program demoSects)) (makingRun kinds n) :=
  makingAttempts_reachable _ .refl

set_option maxRecDepth 20000 in
/-- Hypotheses of `C84_stops` and `C84_before`: the first section is finished and saved, the master cannot make the tables of the second
one. -/
example : (((makingRun [[false], [true, false]] 110).procs 0).size ≠ 0 ∧
    (makingRun [[false], [true, false]] 110).pc = .update ∧
    ∃ c rest, (makingRun [[false], [true, false]] 110).todo = .config c :: rest ∧ someTab c = .abort) ∧
    Attempts demoEnv demoSects ∧ Past demoEnv demoSects (fun _ => none) ∧
    makingStep someTab demoEnv (makingRun [[false], [true, false]] 110) (.master ⟨false, true, 1⟩) = .abort ∧
    ((makingRun [[false], [true, false]] 110).fs "a".toList).map List.length = some 4 :=
  ⟨⟨by decide, rfl, _, _, rfl, rfl⟩, demo_input.attempts, .start _ (by intro s hs d hd; cases hd), rfl, rfl⟩

set_option maxRecDepth 20000 in
/-- Hypotheses of `C84_worker_stops`: the master has no threads, the worker cannot make the tables. -/
example : 0 < ((makingRun [[], [true, false]] 110).procs 1).size ∧
    ((makingRun [[], [true, false]] 110).procs 1).pc = .probe ∧
    (∃ c ms, ((makingRun [[], [true, false]] 110).procs 1).inbox = .config c :: ms ∧ someTab c = .abort) ∧
    makingStep someTab demoEnv (makingRun [[], [true, false]] 110) (.worker 1) = .abort :=
  ⟨by decide, rfl, ⟨_, _, rfl, rfl⟩, rfl⟩

end Mpi

/-- Hypotheses of `C84_too_large` and `C84_fails`: a field of `3^20` elements; there are no blocks, and the main thread is
about to make the tables. -/
example : ∃ (w : Flint) (c : ConfigNode), Nonempty (Presents w c) ∧
    2147483648 < c.prime ^ (c.countExponent * c.primeExponent) ∧ Attempts w.env [⟨c, []⟩] ∧
    Mpi.Past w.env [⟨c, []⟩] (fun _ => none) ∧ ∃ st, Run.MakingReachable w.makeTables w.env
      (Run.initial [false] (fun _ => none) (program [⟨c, []⟩])) st ∧ st.pc = .update ∧
      ∀ ch o, Run.makingStep w.makeTables w.env st (.master ch) ≠ .ok o := by
  have : Fact (Nat.Prime 3) := ⟨by decide⟩
  have hw : Presents (galoisFlint 3 fun _ => ⟨fun _ _ => 0, fun _ => true, fun _ => true, fun _ => [], fun _ => []⟩)
      ⟨3, 1, 1, false, 20, ['d'], 1⟩ := galoisPresents 3 _ _ rfl (by decide) (by decide) (by decide)
  refine ⟨_, _, ⟨hw⟩, by decide, ⟨by simp, by simp, by simp, by simp, by simp, ?_, by simp⟩,
    .start _ (by intro s hs d hd; cases hd), _, Run.makingExec_reachable (ls := Run.mainSteps 4) .refl rfl, rfl, ?_⟩
  · intro s hs k
    rw [List.mem_singleton.1 hs]
    simp [total, Small]
  · intro ch o h
    obtain ⟨u, h1, -⟩ := Res.bind_eq_ok.1 h
    exact C84_no_tables hw (by decide) h1

end Hycu
