import Verif.Lemmas.RunSafe
import Verif.Props.Files
import Verif.Props.Pool

/-!
C35: runs that are repeated over the same blocks after crashes.
-/

namespace Hycu
namespace Run

variable {env : Env} {ss : List Sect} {result : ConfigNode → Block → StoreMap} {kinds : List Bool} {fs : FileSystem}
  {st : State}

/-- C38: a run over blocks that can be computed never fails, whatever happened before: no queue is empty when something
is taken from it, no block is unknown when it is reported, and whatever is read from files can be read. -/
theorem C38_safe (hi : Input env ss result) (hp : Past env ss fs) (hk : kinds.length < 4294967296)
    (hr : Reachable env (initial kinds fs (program ss)) st) (l : Label) : ∃ o, step env st l = .ok o :=
  step_ok (DataInv.reachable hi hk (hp.kept hi) hr) hi ((Good.init env hk fs hi.blocks).reachable hr) l

/-- C35: whatever happened before, the directory of a section does not exist or holds pairs of records and stores,
where no block occurs twice, and every store is the sum of the results of the blocks in its record. -/
theorem C35_sound_partial (hi : Input env ss result) (hp : Past env ss fs) : ∀ s ∈ ss, fs s.cfg.resultPath = none ∨
    ∃ d ps, fs s.cfg.resultPath = some d ∧ d.Holds ps ∧ (∀ p ∈ ps, Match (result s.cfg) p.1 p.2) ∧
      (ps.flatMap Prod.fst).Nodup ∧ ∀ b ∈ ps.flatMap Prod.fst, b ∈ s.blocks := by
  intro s hs
  rcases hp.kept hi s hs with ⟨h, _⟩ | ⟨d, ps, h1, _, h3, h4, h5⟩
  · exact Or.inl h
  · refine Or.inr ⟨d, ps, h1, h3, h4, ?_, fun b hb => h5.subset hb⟩
    obtain ⟨l, h6, h7⟩ := h5
    exact (h6.nodup_iff).1 (h7.nodup (hi.blocks s hs))

theorem tally_sections {s : Sect} {ps : List (OSet Block × StoreMap)} {m : StoreMap}
    (h : ∀ p ∈ ps, Match (result s.cfg) p.1 p.2) (hp : (ps.flatMap Prod.fst).Perm s.blocks)
    (hm : Tally m (ps.flatMap Prod.snd)) : Tally m (s.blocks.flatMap (result s.cfg)) := by
  have key : ∀ k, (k ∈ (ps.flatMap Prod.snd).map Prod.fst ↔
      k ∈ ((ps.flatMap Prod.fst).flatMap (result s.cfg)).map Prod.fst) ∧
      total (ps.flatMap Prod.snd) k = total ((ps.flatMap Prod.fst).flatMap (result s.cfg)) k := by
    intro k
    clear hp hm
    induction ps with
    | nil => simp
    | cons p ps ih =>
      obtain ⟨h1, h2⟩ := ih fun q hq => h q (List.mem_cons_of_mem _ hq)
      have h3 := (h p List.mem_cons_self).tally
      simp only [List.flatMap_cons, List.flatMap_append, List.map_append, List.mem_append, total_append]
      exact ⟨or_congr (h3.mem_keys k) h1, by rw [h3.total_eq k, h2]⟩
  exact Tally.perm (Tally.congr hm (fun k => (key k).1) fun k => (key k).2) (hp.flatMap_right _)

/-- C35: after any number of runs over the same blocks, each of which ended or died at any time except inside the
write of a record file, a run that ends leaves a directory in which every block is in exactly one record, and the
merger gives the sum of the results of all blocks. -/
theorem C35_exact_partial (hi : Input env ss result) (hp : Past env ss fs) (hk : kinds.length < 4294967296)
    (hr : Reachable env (initial kinds fs (program ss)) st) (hpc : st.pc = .finished) (ht : st.todo = []) :
    ∀ s ∈ ss, ∃ d ps, st.fs s.cfg.resultPath = some d ∧ d.Holds ps ∧
      (∀ b, (ps.flatMap Prod.fst).count b = if b ∈ s.blocks then 1 else 0) ∧
      ∃ r m, Merger.merge d = .ok ⟨0, some (Store.print m, Record.print r)⟩ ∧
        Tally m (s.blocks.flatMap (result s.cfg)) ∧ ∀ b, b ≠ [] → (b ∈ r ↔ b ∈ s.blocks) := by
  intro s hs
  have hg := (Good.init env hk fs hi.blocks).reachable hr
  obtain ⟨d, ps, h1, _, h3, ⟨h4, _⟩, h5⟩ := (DataInv.reachable hi hk (hp.kept hi) hr).finished hi hg
    (all_done hk hi.blocks hr (by rw [hpc]; rfl)).2.1 hpc ht s hs
  obtain ⟨o, h6, h7⟩ := merge_holds h3
  refine ⟨d, ps, h1, h3, fun b => ?_, o.1, o.2, h6, tally_sections h4 h5 h7.sum, fun b hb => ?_⟩
  · have h8 : (ps.flatMap Prod.fst).count b = s.blocks.count b := h5.count_eq b
    rw [h8]
    split
    · rename_i hb
      exact List.count_eq_one_of_mem (hi.blocks s hs) hb
    · rename_i hb
      exact List.count_eq_zero.2 hb
  · rw [h7.union.mem b hb, ← h5.mem_iff, recorded, List.mem_flatMap]

/-- One section with one block. -/
def onceSect : Sect := ⟨⟨7, 1, 2, false, 1, "out".toList, 100⟩, [[(0, 10)]]⟩

def onceResult : ConfigNode → Block → StoreMap := fun _ _ => [(⟨[1, 1, 2], [0, 5]⟩, 12)]

def onceEnv : Env := ⟨fun c b => .ok (onceResult c b)⟩

/-- One thread, until the run is about to write its files. -/
def onceLabels (id : Nat) : List Label :=
  threadSteps 0 2 ++ mainSteps 12 ++ threadSteps 0 4 ++ mainSteps 2 ++ [.master ⟨false, true, id⟩]

/-- The rest of the run. -/
def onceEnd : List Label := mainSteps 5 ++ threadSteps 0 1 ++ mainSteps 2

theorem once_input : Input onceEnv [onceSect] onceResult where
  paths := List.nodup_singleton _
  blocks := by decide
  nonempty := by decide
  fit := by decide
  compute := fun _ _ _ _ => rfl
  keys := by
    intro s _ b _ e he
    rw [List.mem_singleton.1 he]
    exact ⟨by simp, by simp, by decide, by decide⟩
  counts := by
    intro s _ b _ e he
    rw [List.mem_singleton.1 he]
    decide
  small := by
    intro s hs k
    rw [List.mem_singleton.1 hs]
    show Small (total [(⟨[1, 1, 2], [0, 5]⟩, 12)] k)
    by_cases hk : (⟨[1, 1, 2], [0, 5]⟩ : Key) = k
    · subst hk
      exact ⟨by decide, by decide⟩
    · simp [total, hk, Small]

/-- The directory after the first run in `C35_false`. -/
def onceTorn : Dir :=
  Dir.write (Dir.write [] (FileStore.storeName 5) (Store.print (onceResult onceSect.cfg []))) (FileStore.recordName 5) []

/-- The directory after the second run in `C35_false`. -/
def onceTwice : Dir :=
  FileStore.save onceTorn 8 (Record.print [[(0, 10)]], Store.print (onceResult onceSect.cfg []))

/-- The exception in C35 is necessary: a run that dies after it created a record file and before it wrote to it leaves
a store without recorded blocks.  The next run computes the block again, and the merger counts it twice. -/
theorem C35_false : ∃ (env : Env) (ss : List Sect) (result : ConfigNode → Block → StoreMap) (kinds : List Bool)
    (fs fs' : FileSystem) (st st' : State) (n c part : List Char) (ws : List (List Char × List Char)) (k : Cont)
    (f : FileStoreObj) (d : Dir), Input env ss result ∧ Past env ss fs ∧
    Reachable env (initial kinds fs (program ss)) st ∧ st.pc = .write ((n, c) :: ws) k ∧ st.fileStore = some f ∧
    st.fs f.config.resultPath = some d ∧ part <+: c ∧ fs' = st.fs.set f.config.resultPath (d.write n part) ∧
    Reachable env (initial kinds fs' (program ss)) st' ∧ st'.pc = .finished ∧ st'.todo = [] ∧
    ∃ s ∈ ss, ∃ d', st'.fs s.cfg.resultPath = some d' ∧ Merger.merge d' = .ok ⟨0, some ("1,1,2;0,5:24\n".toList, "\n0 10 \n".toList)⟩ ∧
      Tally [(⟨[1, 1, 2], [0, 5]⟩, 12)] (s.blocks.flatMap (result s.cfg)) := by
  refine ⟨onceEnv, [onceSect], onceResult, [false], fun _ => none, _, _, _, _, _, [], _, _, _, _, once_input,
    .start _ (by intro s hs d hd; cases hd), exec_reachable (ls := onceLabels 5 ++ mainSteps 1) .refl rfl, rfl, rfl,
    rfl, List.nil_prefix, rfl, exec_reachable (ls := onceLabels 8 ++ onceEnd) .refl rfl, rfl, rfl, onceSect,
    List.mem_singleton_self _, onceTwice, rfl, by decide, Tally.self (List.pairwise_singleton _ _)⟩

/-- Hypotheses of `C35_exact_partial`: the first run dies before it writes the record, the second inside the write of
the store, the third run ends.  Three stores have been written, one block is recorded. -/
example : ∃ fs st, Past onceEnv [onceSect] fs ∧ Reachable onceEnv (initial [false] fs (program [onceSect])) st ∧
    st.pc = .finished ∧ st.todo = [] ∧ (st.fs "out".toList).map (fun d => d.map Prod.fst) =
      some ["5.hycu_store".toList, "6.hycu_store".toList, "8.hycu_store".toList, "8.hycu_record".toList] := by
  refine ⟨_, _, .run _ _ [false] _ (.run (fun _ => none) _ [false] _ (.start _ (by intro s hs d hd; cases hd))
    (by decide) (exec_reachable (ls := onceLabels 5 ++ mainSteps 1) .refl rfl) .between) (by decide)
    (exec_reachable (ls := onceLabels 6) .refl rfl) (.inside _ _ _ _ _ rfl rfl rfl
      (.inside _ _ "1,1".toList _ _ ⟨_, rfl⟩ ?_)), exec_reachable (ls := onceLabels 8 ++ onceEnd) .refl rfl, rfl, rfl, rfl⟩
  rintro ⟨s, hs⟩
  have h1 := congrArg List.getLast? hs
  rw [List.getLast?_append] at h1
  cases h1

end Run
end Hycu
