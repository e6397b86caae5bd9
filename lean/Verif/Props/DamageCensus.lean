import Verif.Lemmas.CutBlocks
import Verif.Props.Damage
import Verif.Props.EndToEnd

/-!
C73: the numbers of curves after runs that died at any time.
-/

namespace Hycu

variable {w : Flint} {ss : List Run.Sect} {fs : FileSystem}

/-- C73: with a marked point, or if `2 genus + 2` is not divisible by the prime, no block of a configuration that is cut
off looks like another block. -/
theorem C73_distinguishable (hw : ∀ s ∈ ss, w.Setting s.cfg) (hc : ∀ s ∈ ss, s.cfg.Feasible)
    (hb : ∀ s ∈ ss, Terminates (w.blocks s.cfg) s.blocks)
    (hm : ∀ s ∈ ss, s.cfg.withMarkedPoint = true ∨ ¬ s.cfg.prime ∣ 2 * s.cfg.genus + 2) : Run.Distinguishable ss :=
  fun s hs => (hw s hs).cutBlock_eq (hc s hs) (hm s hs) (hb s hs)

/-- What is known of the sums over all blocks, each of which occurs at least once. -/
theorem Flint.Setting.least {c : ConfigNode} (s : w.Setting c) (hc : c.Feasible)
    (hs : ∀ k, s.count k < 4611686018427387904) {boxes : List Block} (hb : Terminates (w.blocks c) boxes)
    {l : List Block} {m : StoreMap} (hl : ∀ b, b ∈ l ↔ b ∈ boxes) (hm : Tally m (l.flatMap (w.resultOf c))) :
    (∀ k, s.count k ≤ total m k) ∧ ∀ k, k ∈ m.map Prod.fst ↔ 0 < s.count k := by
  obtain ⟨h1, h2, h3⟩ := s.totals hc hs hb
  have hp : ∀ b ∈ l, ∀ e ∈ w.resultOf c b, 0 < e.2 := fun b hb e he => ((h2 b ((hl b).1 hb)).2.2.2 e he).1
  refine ⟨fun k => ?_, fun k => ?_⟩
  · rw [hm.total_eq k, ← h3 k]
    exact Run.total_le (fun b hb => (hl b).2 hb) h1 (fun b hb e he => (hp b hb e he).le) k
  · rw [hm.mem_keys k]
    have h4 : k ∈ (l.flatMap (w.resultOf c)).map Prod.fst ↔ k ∈ (boxes.flatMap (w.resultOf c)).map Prod.fst := by
      simp only [List.mem_map, List.mem_flatMap, hl]
    rw [h4, ← Int.natCast_pos, ← h3 k]
    constructor
    · intro h5
      refine total_pos (fun e he => ?_) h5
      obtain ⟨b, hb, he⟩ := List.mem_flatMap.1 he
      exact hp b ((hl b).2 hb) e he
    · intro h5
      by_contra h6
      have h7 : total (boxes.flatMap (w.resultOf c)) k = 0 := by
        unfold total
        rw [List.filter_eq_nil_iff.2]
        · rfl
        · intro e he hk
          exact h6 (List.mem_map.2 ⟨e, he, by simpa using hk⟩)
      omega

/-- C73: after any number of runs of the program that ended or died at any time, also inside the write of a record, a
complete run with one process gives every ramification type and all Hasse-Weil offsets that occur, and never less
polynomials than there are. -/
theorem C73_threaded (hw : ∀ s ∈ ss, w.Setting s.cfg) (hc : ∀ s ∈ ss, s.cfg.Feasible)
    (hn : ∀ s hs k, (hw s hs).count k < 4611686018427387904) (hp : (ss.map fun s => s.cfg.resultPath).Nodup)
    (hb : ∀ s ∈ ss, Terminates (w.blocks s.cfg) s.blocks)
    (hm : ∀ s ∈ ss, s.cfg.withMarkedPoint = true ∨ ¬ s.cfg.prime ∣ 2 * s.cfg.genus + 2)
    (hf : Mpi.AnyPast w.env ss fs) {kinds : List Bool} (hk : kinds.length < 4294967296) {st : Run.State}
    (hr : Run.Reachable w.env (Run.initial kinds fs (Run.program ss)) st) (hpc : st.pc = .finished)
    (ht : st.todo = []) : ∀ s hs, ∃ d r m, st.fs s.cfg.resultPath = some d ∧
      Merger.merge d = .ok ⟨0, some (Store.print m, Record.print r)⟩ ∧
      (∀ k, (hw s hs).count k ≤ total m k) ∧ ∀ k, k ∈ m.map Prod.fst ↔ 0 < (hw s hs).count k := by
  intro s hs
  obtain ⟨d, l, r, m, h1, h2, h3, h4, _⟩ := Run.C73_never_less
    (Flint.input (fun s hs => ⟨hw s hs, hn s hs⟩) hc hp hb) (C73_distinguishable hw hc hb hm) hf hk hr hpc ht s hs
  exact ⟨d, r, m, h1, h2, (hw s hs).least (hc s hs) (hn s hs) (hb s hs) h3 h4⟩

/-- C73: the same with several processes. -/
theorem C73_several (hw : ∀ s ∈ ss, w.Setting s.cfg) (hc : ∀ s ∈ ss, s.cfg.Feasible)
    (hn : ∀ s hs k, (hw s hs).count k < 4611686018427387904) (hp : (ss.map fun s => s.cfg.resultPath).Nodup)
    (hb : ∀ s ∈ ss, Terminates (w.blocks s.cfg) s.blocks)
    (hm : ∀ s ∈ ss, s.cfg.withMarkedPoint = true ∨ ¬ s.cfg.prime ∣ 2 * s.cfg.genus + 2)
    (hf : Mpi.AnyPast w.env ss fs) {kinds : List (List Bool)} (h0 : kinds ≠ [])
    (hk : ∀ k ∈ kinds, k.length < 4294967296) {st : Mpi.State}
    (hr : Mpi.Reachable w.env (Mpi.initial kinds fs (Run.program ss)) st) (hpc : st.pc = .finished)
    (ht : st.todo = []) : ∀ s hs, ∃ d r m, st.fs s.cfg.resultPath = some d ∧
      Merger.merge d = .ok ⟨0, some (Store.print m, Record.print r)⟩ ∧
      (∀ k, (hw s hs).count k ≤ total m k) ∧ ∀ k, k ∈ m.map Prod.fst ↔ 0 < (hw s hs).count k := by
  intro s hs
  obtain ⟨d, l, r, m, h1, h2, h3, h4, _⟩ := Mpi.C73_never_less
    (Flint.input (fun s hs => ⟨hw s hs, hn s hs⟩) hc hp hb) (C73_distinguishable hw hc hb hm) hf h0 hk hr hpc ht s hs
  exact ⟨d, r, m, h1, h2, (hw s hs).least (hc s hs) (hn s hs) (hb s hs) h3 h4⟩

/-- The table for the field of 3 elements. -/
def tableThree : FqElementTable (ZMod 3) := ⟨3, 1, 3, 2, [1, 2, 0]⟩

/-- C73: without marked point and if `2 genus + 2` is divisible by the prime, there can be blocks that look like others
that are cut off: for the field of 3 elements, genus 2, and packages of size 1, the iterator gives the first two blocks
of `Run.C73_less`. -/
theorem C73_collision : ∃ it boxes, CurveIterator.make tableThree 2 false 1 = .ok it ∧
    Terminates (fun n => CurveIterator.visits CurveIterator.asBlock n it) boxes ∧ ∃ b ∈ boxes, ∃ b' ∈ boxes,
      CutBlock b b' ∧ b' ≠ b ∧ b' = Run.lessShort := by
  have h : (match CurveIterator.make tableThree 2 false 1 with
    | .ok it => match CurveIterator.visits CurveIterator.asBlock 500 it with
      | .ok boxes => decide (Run.lessShort ++ [(0, 1)] ∈ boxes ∧ Run.lessShort ∈ boxes)
      | _ => false
    | _ => false) = true := by decide +kernel
  split at h
  · rename_i it h1
    split at h
    · rename_i boxes h2
      have h3 := of_decide_eq_true h
      exact ⟨it, boxes, h1, ⟨500, fun n hn => CurveIterator.visits_mono hn h2⟩, _, h3.1, _, h3.2, .pairs _ _ rfl, by decide, rfl⟩
    · cases h
  · cases h

theorem Mpi.demo_distinguishable : Run.Distinguishable Mpi.demoSects := by
  have h : ∀ s ∈ Mpi.demoSects, ∀ b ∈ s.blocks, ∀ b' ∈ s.blocks, b'.map Prod.fst <+: b.map Prod.fst → b' = b := by
    decide
  exact fun s hs b hb b' hb' hc => h s hs b hb b' hb' hc.corner

set_option maxRecDepth 20000 in
/-- Hypotheses of `Mpi.C73_never_less`: the master dies inside the write of the last record. -/
example : ∃ fs, Run.Distinguishable Mpi.demoSects ∧ Mpi.AnyPast Mpi.demoEnv Mpi.demoSects fs ∧
    (fs "b".toList).map (fun d => d.map Prod.fst) = some ["130.hycu_store".toList, "130.hycu_record".toList,
      "135.hycu_store".toList, "135.hycu_record".toList] ∧
    (fs "b".toList).map (fun d => d.getLast?.map Prod.snd) = some (some (.file "0 10 \n2".toList)) := by
  refine ⟨_, Mpi.demo_distinguishable, .mpi (fun _ => none) _ [[false], [true, false]] _ (.start _ (by intro s hs d hd; cases hd))
    (by simp) (by decide) (Mpi.demo_reachable 137) (.inside _ _ "0 10 \n2".toList _ _ _ _ _ rfl rfl rfl ⟨"0 22 \n".toList, rfl⟩),
    rfl, rfl⟩

/-- Hypotheses of `C73_threaded` and `C73_several`: a section over the field of 3 elements and genus 1, where 4 is
not divisible by 3. -/
example : ∃ (w : Flint) (ss : List Run.Sect) (hw : ∀ s ∈ ss, w.Setting s.cfg), ss.length = 1 ∧
    (∀ s ∈ ss, s.cfg.Feasible) ∧ (∀ s hs k, (hw s hs).count k < 4611686018427387904) ∧
    (∀ s hs, ∃ k, 0 < (hw s hs).count k) ∧ (ss.map fun s => s.cfg.resultPath).Nodup ∧
    (∀ s ∈ ss, Terminates (w.blocks s.cfg) s.blocks) ∧
    (∀ s ∈ ss, s.cfg.withMarkedPoint = true ∨ ¬ s.cfg.prime ∣ 2 * s.cfg.genus + 2) ∧
    ∃ fs, Mpi.AnyPast w.env ss fs := by
  obtain ⟨w, hw⟩ := setting_three
  obtain ⟨t⟩ := hw (threeCfg false ['a']) rfl rfl le_rfl
  obtain ⟨boxes, h, _⟩ := C47_blocks t (threeCfg_feasible _ _) (threeCfg_small _ _ t)
  have hall : ∀ s ∈ [(⟨threeCfg false ['a'], boxes⟩ : Run.Sect)], s = ⟨threeCfg false ['a'], boxes⟩ :=
    fun s hs => List.mem_singleton.1 hs
  refine ⟨w, [⟨threeCfg false ['a'], boxes⟩], fun s hs => (hall s hs) ▸ t, rfl, fun s hs => ?_, fun s hs k => ?_,
    fun s hs => ?_, by simp, fun s hs => ?_, fun s hs => ?_, fun _ => none, .start _ fun s _ d hd => by cases hd⟩
  · rw [hall s hs]
    exact threeCfg_feasible _ _
  · obtain rfl := hall s hs
    exact threeCfg_small _ _ t k
  · obtain rfl := hall s hs
    exact count_ne _ rfl rfl
  · rw [hall s hs]
    exact h
  · rw [hall s hs]
    right
    show ¬ 3 ∣ 2 * 1 + 2
    decide

end Hycu
