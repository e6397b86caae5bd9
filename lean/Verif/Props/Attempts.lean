import Verif.Lemmas.Attempts
import Verif.Props.Range

/-!
C83: runs over blocks some of which cannot be computed.
-/

namespace Hycu

open Run (Env Sect program recorded)

section

variable {env : Env} {ss : List Sect} {fs : FileSystem}

/-- C83: after any number of runs, with one or several processes, that ended or died at any time except inside the write
of a record file, the directory of a section does not exist or holds pairs of records and stores, where no block occurs
twice, every recorded block has been computed successfully, and every store is the sum of the results of the blocks in
its record. -/
theorem C83_recorded (h : Attempts env ss) (hp : Mpi.Past env ss fs) : ∀ s ∈ ss, fs s.cfg.resultPath = none ∨
    ∃ d ps, fs s.cfg.resultPath = some d ∧ d.Holds ps ∧ (∀ p ∈ ps, Match (succeeded env s.cfg) p.1 p.2) ∧
      (ps.flatMap Prod.fst).Nodup ∧
      ∀ b ∈ ps.flatMap Prod.fst, b ∈ s.blocks ∧ ∃ m, env.compute s.cfg b = .ok m := by
  intro s hs
  rcases (hp.repair fun _ _ => []).kept h.input s hs with ⟨h1, _⟩ | ⟨d, ps, h1, _, h3, h4, h5⟩
  · exact Or.inl h1
  · refine Or.inr ⟨d, ps, h1, h3, h4, ?_, fun b hb => ⟨h5.subset hb, ?_⟩⟩
    · obtain ⟨l, h6, h7⟩ := h5
      exact (h6.nodup_iff).1 (h7.nodup (h.blocks s hs))
    · exact recorded_ok h hp hs h1 h3 (h.nonempty s hs b (h5.subset hb)) hb

/-- C83: the only step of a run of hycu-threaded that can fail is that of a thread that computes a block whose
computation fails. -/
theorem Run.C83_fails {kinds : List Bool} {st : Run.State} (h : Attempts env ss) (hp : Mpi.Past env ss fs)
    (hk : kinds.length < 4294967296) (hr : Run.Reachable env (Run.initial kinds fs (program ss)) st) (l : Run.Label)
    (hf : ∀ o, Run.step env st l ≠ .ok o) :
    ∃ i r, l = .thread i ∧ i < st.size ∧ Computes env (st.thr i) r ∧ ∀ m, r ≠ .ok m :=
  Run.step_fails (Run.step_ok (Run.DataInv.reachable h.input hk ((hp.repair _).kept h.input) (hr.repair _)) h.input
    ((Run.Good.init _ hk fs h.blocks).reachable (hr.repair _)) l) hf

/-- C83: the same for hycu-mpi. -/
theorem Mpi.C83_fails {kinds : List (List Bool)} {st : Mpi.State} (h : Attempts env ss) (hp : Mpi.Past env ss fs)
    (h0 : kinds ≠ []) (hk : ∀ k ∈ kinds, k.length < 4294967296)
    (hr : Mpi.Reachable env (Mpi.initial kinds fs (program ss)) st) (l : Mpi.Label) (hf : ∀ o, Mpi.step env st l ≠ .ok o) :
    ∃ ix i r, l = .thread ix i ∧ ix < st.nprocs ∧ i < (st.procs ix).size ∧ Computes env ((st.procs ix).thr i) r ∧
      ∀ m, r ≠ .ok m :=
  Mpi.step_fails (Mpi.C42_safe h.input (hp.repair _) h0 hk (hr.repair _) l).2.2 hf

/-- C83: if a run of hycu-threaded comes to its end, the computation of every block succeeds, and the merger gives the sum
of their results. -/
theorem Run.C83_complete {kinds : List Bool} {st : Run.State} (h : Attempts env ss) (hp : Mpi.Past env ss fs)
    (hk : kinds.length < 4294967296) (hr : Run.Reachable env (Run.initial kinds fs (program ss)) st)
    (hpc : st.pc = .finished) (ht : st.todo = []) : ∀ s ∈ ss, (∀ b ∈ s.blocks, ∃ m, env.compute s.cfg b = .ok m) ∧
      ∃ d r m, st.fs s.cfg.resultPath = some d ∧ Merger.merge d = .ok ⟨0, some (Store.print m, Record.print r)⟩ ∧
        Tally m (s.blocks.flatMap (succeeded env s.cfg)) ∧ ∀ b, b ≠ [] → (b ∈ r ↔ b ∈ s.blocks) := by
  intro s hs
  have hr' := hr.repair fun _ _ => []
  have hi := h.input
  have hg := (Run.Good.init (env.repair fun _ _ => []) hk fs hi.blocks).reachable hr'
  obtain ⟨d, ps, h1, _, h3, ⟨h4, _⟩, h5⟩ := (Run.DataInv.reachable hi hk ((hp.repair _).kept hi) hr').finished hi hg
    (Run.all_done hk hi.blocks hr' (by rw [hpc]; rfl)).2.1 hpc ht s hs
  obtain ⟨o, h6, h7⟩ := merge_holds h3
  refine ⟨fun b hb => recorded_ok h (.run _ _ _ _ hp hk hr .between) hs h1 h3 (h.nonempty s hs b hb) (h5.mem_iff.2 hb),
    d, o.1, o.2, h1, h6, Run.tally_sections h4 h5 h7.sum, fun b hb => ?_⟩
  rw [h7.union.mem b hb, ← h5.mem_iff, recorded, List.mem_flatMap]

/-- C83: the same for hycu-mpi. -/
theorem Mpi.C83_complete {kinds : List (List Bool)} {st : Mpi.State} (h : Attempts env ss) (hp : Mpi.Past env ss fs)
    (h0 : kinds ≠ []) (hk : ∀ k ∈ kinds, k.length < 4294967296)
    (hr : Mpi.Reachable env (Mpi.initial kinds fs (program ss)) st) (hpc : st.pc = .finished) (ht : st.todo = []) :
    ∀ s ∈ ss, (∀ b ∈ s.blocks, ∃ m, env.compute s.cfg b = .ok m) ∧
      ∃ d r m, st.fs s.cfg.resultPath = some d ∧ Merger.merge d = .ok ⟨0, some (Store.print m, Record.print r)⟩ ∧
        Tally m (s.blocks.flatMap (succeeded env s.cfg)) ∧ ∀ b, b ≠ [] → (b ∈ r ↔ b ∈ s.blocks) := by
  intro s hs
  obtain ⟨d, ps, h1, h3, h5, r, m, h6, h7, _, h8⟩ := Mpi.C43_exact h.input (hp.repair _) h0 hk (hr.repair _) hpc ht s hs
  refine ⟨fun b hb => recorded_ok h (.mpi _ _ _ _ hp h0 hk hr .between) hs h1 h3 (h.nonempty s hs b hb) ?_,
    d, r, m, h1, h6, h7, h8⟩
  have := h5 b
  rw [if_pos hb] at this
  exact List.count_pos_iff.1 (by rw [recorded]; omega)

end

/-- C83 and C80: a run whose input has a block of a configuration with fields that are too large does not come to its
end. -/
theorem C83_too_large {w : Flint} {c : ConfigNode} (hw : Presents w c)
    (hb : 2147483648 < c.prime ^ (c.countExponent * c.primeExponent)) {ss : List Sect} {fs : FileSystem}
    (h : Attempts w.env ss) (hp : Mpi.Past w.env ss fs) {s : Sect} (hs : s ∈ ss) (hc : s.cfg = c) (hne : s.blocks ≠ []) :
    (∀ (kinds : List Bool) (st : Run.State), kinds.length < 4294967296 →
      Run.Reachable w.env (Run.initial kinds fs (program ss)) st → ¬ (st.pc = .finished ∧ st.todo = [])) ∧
    (∀ (kinds : List (List Bool)) (st : Mpi.State), kinds ≠ [] → (∀ k ∈ kinds, k.length < 4294967296) →
      Mpi.Reachable w.env (Mpi.initial kinds fs (program ss)) st → ¬ (st.pc = .finished ∧ st.todo = [])) := by
  obtain ⟨b, hbs⟩ := List.exists_mem_of_ne_nil _ hne
  have hno : ¬ ∃ m, w.env.compute s.cfg b = .ok m := by
    rintro ⟨m, hm⟩
    rw [hc] at hm
    have e := C80_compute hw hb b
    rcases Nat.lt_or_ge (c.prime ^ (c.countExponent * c.primeExponent)) 4294967296 with h1 | h1
    · rw [e.2 h1] at hm; cases hm
    · rw [e.1 h1] at hm; cases hm
  exact ⟨fun kinds st hk hr ⟨h1, h2⟩ => hno ((Run.C83_complete h hp hk hr h1 h2 s hs).1 b hbs),
    fun kinds st h0 hk hr ⟨h1, h2⟩ => hno ((Mpi.C83_complete h hp h0 hk hr h1 h2 s hs).1 b hbs)⟩

/-! ### Non-trivial instances -/

/-- Inputs that can be computed are a special case. -/
theorem Run.Input.attempts {env : Env} {ss : List Sect} {result : ConfigNode → Block → StoreMap}
    (h : Run.Input env ss result) : Attempts env ss where
  blocks := h.blocks
  nonempty := h.nonempty
  fit := h.fit
  paths := h.paths
  keys := by
    intro s hs b hb m hm
    rw [h.compute s hs b hb] at hm
    exact Res.ok.inj hm ▸ h.keys s hs b hb
  counts := by
    intro s hs b hb m hm
    rw [h.compute s hs b hb] at hm
    exact Res.ok.inj hm ▸ h.counts s hs b hb
  small := by
    intro s hs k
    have : s.blocks.flatMap (succeeded env s.cfg) = s.blocks.flatMap (result s.cfg) :=
      List.flatMap_congr fun b hb => succeeded_ok (h.compute s hs b hb)
    rw [this]
    exact h.small s hs k

set_option maxRecDepth 20000 in
/-- Hypotheses of `C83_complete`: runs with one and with two processes end. -/
example : Attempts Mpi.demoEnv Mpi.demoSects ∧ Mpi.Past Mpi.demoEnv Mpi.demoSects (fun _ => none) ∧
    Mpi.Reachable Mpi.demoEnv (Mpi.initial [[false], [true, false]] (fun _ => none) (program Mpi.demoSects))
      (Mpi.demoRun 150) ∧ (Mpi.demoRun 150).pc = .finished ∧ (Mpi.demoRun 150).todo = [] :=
  ⟨Mpi.demo_input.attempts, .start _ (by intro s hs d hd; cases hd), Mpi.demo_reachable 150, rfl, rfl⟩

example : Attempts Run.onceEnv [Run.onceSect] ∧ ∃ st, Run.Reachable Run.onceEnv
    (Run.initial [false] (fun _ => none) (program [Run.onceSect])) st ∧ st.pc = .finished ∧ st.todo = [] :=
  ⟨Run.once_input.attempts, _, Run.exec_reachable (ls := Run.onceLabels 8 ++ Run.onceEnd) .refl rfl, rfl, rfl⟩

/-- The computation of one of four blocks fails. -/
def failEnv : Env := ⟨fun c b => if b = [(10, 20)] then .abort else .ok (Mpi.demoResult c b)⟩

/-- Some rounds of the scheduler, where the failing step is put off. -/
def failRun (n : Nat) : Mpi.State := ((List.range n).flatMap Mpi.round).foldl (Mpi.attempt failEnv) Mpi.demoInit

theorem fail_attempts : Attempts failEnv Mpi.demoSects where
  blocks := by decide
  nonempty := by decide
  fit := by decide
  paths := by decide
  keys := by
    intro s hs b hb m hm
    simp only [failEnv] at hm
    split at hm
    · cases hm
    · exact Res.ok.inj hm ▸ Mpi.demo_input.keys s hs b hb
  counts := by
    intro s hs b hb m hm
    simp only [failEnv] at hm
    split at hm
    · cases hm
    · exact Res.ok.inj hm ▸ Mpi.demo_input.counts s hs b hb
  small := by
    intro s hs k
    rcases List.mem_cons.1 hs with rfl | hs
    · show Small (total [(⟨[7], [1]⟩, 3)] k)
      by_cases hk : (⟨[7], [1]⟩ : Key) = k
      · subst hk
        exact ⟨by decide, by decide⟩
      · simp [total, hk, Small]
    · rw [List.mem_singleton.1 hs]
      show Small (total [(⟨[11], [1]⟩, 3), (⟨[11], [1]⟩, 3)] k)
      by_cases hk : (⟨[11], [1]⟩ : Key) = k
      · subst hk
        exact ⟨by decide, by decide⟩
      · simp [total, hk, Small]

set_option maxRecDepth 20000 in
/-- Hypotheses of `C83_recorded` and `Mpi.C83_fails`: the first section is finished, the blocks of the second have been
assigned, and the step that computes the second block fails. -/
example : Attempts failEnv Mpi.demoSects ∧ Mpi.Past failEnv Mpi.demoSects (failRun 110).fs ∧
    Mpi.Reachable failEnv (Mpi.initial [[false], [true, false]] (fun _ => none) (program Mpi.demoSects)) (failRun 110) ∧
    Mpi.step failEnv (failRun 110) (.thread 0 0) = .abort ∧
    ((failRun 110).fs "a".toList).map (fun d => d.map Prod.fst) = some ["55.hycu_store".toList, "55.hycu_record".toList,
      "60.hycu_store".toList, "60.hycu_record".toList] :=
  have hr : Mpi.Reachable failEnv Mpi.demoInit (failRun 110) := Mpi.attempts_reachable _ .refl
  ⟨fail_attempts, .mpi _ _ [[false], [true, false]] _ (.start _ (by intro s hs d hd; cases hd)) (by simp) (by decide) hr
    .between, hr, rfl, rfl⟩

theorem attempts_of_fails {env : Env} {c : ConfigNode} (h : ∀ b m, env.compute c b ≠ .ok m) :
    Attempts env [⟨c, [[(0, 1)], [(1, 2)]]⟩] where
  blocks := by simp
  nonempty := by simp
  fit := by simp
  paths := by simp
  keys s hs b _ m hm := by
    rw [List.mem_singleton.1 hs] at hm
    exact absurd hm (h b m)
  counts s hs b _ m hm := by
    rw [List.mem_singleton.1 hs] at hm
    exact absurd hm (h b m)
  small s hs k := by
    rw [List.mem_singleton.1 hs]
    simp [succeeded_fails (h _), total, Small]

/-- Hypotheses of `C83_too_large`: a field of `3^20` elements. -/
example : ∃ (w : Flint) (c : ConfigNode) (s : Sect), Nonempty (Presents w c) ∧
    2147483648 < c.prime ^ (c.countExponent * c.primeExponent) ∧ Attempts w.env [s] ∧
    Mpi.Past w.env [s] (fun _ => none) ∧ s.cfg = c ∧ s.blocks ≠ [] := by
  have : Fact (Nat.Prime 3) := ⟨by decide⟩
  have hw : Presents (galoisFlint 3 fun _ => ⟨fun _ _ => 0, fun _ => true, fun _ => true, fun _ => [], fun _ => []⟩)
      ⟨3, 1, 1, false, 20, ['d'], 1⟩ := galoisPresents 3 _ _ rfl (by decide) (by decide) (by decide)
  refine ⟨_, _, _, ⟨hw⟩, by decide, attempts_of_fails fun b m h => ?_, .start _ (by intro s hs d hd; cases hd), rfl,
    by simp⟩
  rw [(C80_compute hw (by decide) b).2 (by decide)] at h
  cases h

end Hycu
