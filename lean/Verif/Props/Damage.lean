import Verif.Lemmas.DamageCount
import Verif.Lemmas.MpiSafe
import Verif.Props.Mpi

/-!
C73: runs over directories that are damaged, and runs that died at any time.
-/

namespace Hycu
namespace Run

section

variable {env : Env} {ss : List Sect} {result : ConfigNode → Block → StoreMap} {kinds : List Bool} {fs : FileSystem}
  {st : State}

/-- C73: a run over directories with any files never fails, if the records in them can be read. -/
theorem C73_safe (hi : Input env ss result) (ho : Open ss fs) (hk : kinds.length < 4294967296)
    (hr : Reachable env (initial kinds fs (program ss)) st) (l : Label) : ∃ o, step env st l = .ok o :=
  step_ok (DataInvIn.reachable hi hk (ho.kept hi) hr) hi ((Good.init env hk fs hi.blocks).reachable hr) l

theorem tally_added {s : Sect} {l : List Block} {ps : List (OSet Block × StoreMap)} {m m₀ : StoreMap}
    (h : ∀ p ∈ ps, Match (result s.cfg) p.1 p.2) (hp : (recorded ps).Perm l)
    (hm : Tally m (m₀ ++ ps.flatMap Prod.snd)) : Tally m (m₀ ++ l.flatMap (result s.cfg)) := by
  have key : ∀ k, (k ∈ (ps.flatMap Prod.snd).map Prod.fst ↔
      k ∈ ((ps.flatMap Prod.fst).flatMap (result s.cfg)).map Prod.fst) ∧
      total (ps.flatMap Prod.snd) k = total ((ps.flatMap Prod.fst).flatMap (result s.cfg)) k := by
    intro k
    clear hp hm
    induction ps with
    | nil => simp
    | cons p ps ih =>
      obtain ⟨h1, h2⟩ := ih fun q hq => h q (List.mem_cons_of_mem _ hq)
      have h3 := (h p List.mem_cons_self).tally
      simp only [List.flatMap_cons, List.flatMap_append, List.map_append, List.mem_append, total_append]
      exact ⟨or_congr (h3.mem_keys k) h1, by rw [h3.total_eq k, h2]⟩
  refine Tally.perm (Tally.congr hm (l' := m₀ ++ (ps.flatMap Prod.fst).flatMap (result s.cfg)) (fun k => ?_) fun k => ?_)
    ((hp.flatMap_right _).append_left _)
  · rw [List.map_append, List.map_append, List.mem_append, List.mem_append, (key k).1]
  · rw [total_append, total_append, (key k).2]

/-- What a complete run has done to a directory. -/
theorem CompleteIn.added {s : Sect} {fs' : FileSystem} (h : CompleteIn (since fs) result fs' s) (hn : s.blocks.Nodup)
    {d₀ : Dir} (hd : fs s.cfg.resultPath = some d₀ ∨ fs s.cfg.resultPath = none ∧ d₀ = []) :
    ∃ r₀ d sv, FileStore.initialRecord d₀ = .ok r₀ ∧ fs' s.cfg.resultPath = some d ∧ d₀.Grows d sv ∧
      (∀ p ∈ sv, Match (result s.cfg) p.1 p.2) ∧
      (∀ b, (sv.flatMap Prod.fst).count b = if b ∈ s.blocks ∧ b ∉ r₀ then 1 else 0) ∧
      ((∃ r₁ m₁ r m, Merger.merge d₀ = .ok ⟨0, some (Store.print m₁, Record.print r₁)⟩ ∧
          Merger.merge d = .ok ⟨0, some (Store.print m, Record.print r)⟩ ∧ OMap.Sorted m₁ ∧
          Tally m (m₁ ++ (s.blocks.filter fun b => b ∉ r₀).flatMap (result s.cfg)) ∧
          ∀ b, b ≠ [] → (b ∈ r ↔ b ∈ r₁ ∨ b ∈ s.blocks ∧ b ∉ r₀)) ∨
        (∀ o, Merger.merge d₀ ≠ .ok ⟨0, o⟩) ∧ Merger.merge d = Merger.merge d₀) := by
  obtain ⟨r₀, d, sv, h1, h2, h3, h4, h5⟩ := h.grows hn hd
  refine ⟨r₀, d, sv, h1, h2, h3, h4, fun b => ?_, ?_⟩
  · have h6 : (sv.flatMap Prod.fst).count b = (s.blocks.filter fun b => b ∉ r₀).count b := h5.count_eq b
    rw [h6]
    split
    · rename_i hb
      exact List.count_eq_one_of_mem (hn.filter _) (List.mem_filter.2 ⟨hb.1, by simpa using hb.2⟩)
    · rename_i hb
      refine List.count_eq_zero.2 fun hc => hb ?_
      have := List.mem_filter.1 hc
      exact ⟨this.1, by simpa using this.2⟩
  · by_cases hx : ∃ x, Merger.mergeLoop d₀ d₀ [] [] = .ok (some x)
    · obtain ⟨⟨r₁, m₁⟩, h6⟩ := hx
      obtain ⟨m, h7, h8⟩ := h3.loop h6
      refine Or.inl ⟨r₁, m₁, (sv.flatMap fun p => (pairReads p).1).foldl OSet.insert r₁, m, ?_, ?_,
        (Merger.mergeLoop_sorted _ _ _ _ _ List.Pairwise.nil OMap.sorted_nil h6).2, tally_added h4 h5 h8, fun b hb => ?_⟩
      · unfold Merger.merge
        rw [h6]
        rfl
      · unfold Merger.merge
        rw [h7]
        rfl
      · rw [Record.mem_foldl_insert]
        refine or_congr Iff.rfl ?_
        have h9 := h5.mem_iff (a := b)
        rw [List.mem_filter, decide_eq_true_eq] at h9
        rw [← h9]
        unfold recorded
        rw [List.mem_flatMap, List.mem_flatMap]
        exact exists_congr fun p => and_congr Iff.rfl (mem_pairReads hb)
    · refine Or.inr ⟨fun o h6 => ?_, ?_⟩
      · unfold Merger.merge at h6
        obtain ⟨x, h7, h8⟩ := Res.bind_eq_ok.1 h6
        cases x with
        | none => cases h8
        | some x => exact hx ⟨x, h7⟩
      · unfold Merger.merge
        rw [h3.stuck fun x h6 => hx ⟨x, h6⟩]

/-- C73: a run with one process that ends over directories with any files, if the records in them can be read, leaves
all files as they are, computes every block that is in no record exactly once, and adds its results to what the merger
found before. -/
theorem C73_run (hi : Input env ss result) (ho : Open ss fs) (hk : kinds.length < 4294967296)
    (hr : Reachable env (initial kinds fs (program ss)) st) (hpc : st.pc = .finished) (ht : st.todo = []) :
    ∀ s ∈ ss, ∀ d₀, fs s.cfg.resultPath = some d₀ ∨ fs s.cfg.resultPath = none ∧ d₀ = [] →
      ∃ r₀ d sv, FileStore.initialRecord d₀ = .ok r₀ ∧ st.fs s.cfg.resultPath = some d ∧ d₀.Grows d sv ∧
        (∀ p ∈ sv, Match (result s.cfg) p.1 p.2) ∧
        (∀ b, (sv.flatMap Prod.fst).count b = if b ∈ s.blocks ∧ b ∉ r₀ then 1 else 0) ∧
        ((∃ r₁ m₁ r m, Merger.merge d₀ = .ok ⟨0, some (Store.print m₁, Record.print r₁)⟩ ∧
            Merger.merge d = .ok ⟨0, some (Store.print m, Record.print r)⟩ ∧ OMap.Sorted m₁ ∧
            Tally m (m₁ ++ (s.blocks.filter fun b => b ∉ r₀).flatMap (result s.cfg)) ∧
            ∀ b, b ≠ [] → (b ∈ r ↔ b ∈ r₁ ∨ b ∈ s.blocks ∧ b ∉ r₀)) ∨
          (∀ o, Merger.merge d₀ ≠ .ok ⟨0, o⟩) ∧ Merger.merge d = Merger.merge d₀) := by
  intro s hs d₀ hd
  exact ((DataInvIn.reachable hi hk (ho.kept hi) hr).finished hi ((Good.init env hk fs hi.blocks).reachable hr)
    (all_done hk hi.blocks hr (by rw [hpc]; rfl)).2.1 hpc ht s hs).added (hi.blocks s hs) hd

/-- Sums over more blocks are not smaller. -/
theorem total_le {l l' : List Block} {f : Block → StoreMap} (hs : ∀ b ∈ l, b ∈ l') (hn : l.Nodup)
    (hf : ∀ b ∈ l', ∀ e ∈ f b, 0 ≤ e.2) (k : Key) : total (l.flatMap f) k ≤ total (l'.flatMap f) k := by
  obtain ⟨l₁, h1, h2⟩ := List.subperm_of_subset hn hs
  rw [← total_perm (h1.flatMap_right f)]
  clear hs hn h1
  induction h2 with
  | slnil => exact le_rfl
  | @cons l₁ l₂ b _ ih =>
    rw [List.flatMap_cons, total_append]
    have h3 := ih fun b hb => hf b (List.mem_cons_of_mem _ hb)
    have h4 := total_nonneg (hf b List.mem_cons_self) k
    omega
  | @cons_cons l₁ l₂ b _ ih =>
    rw [List.flatMap_cons, total_append, List.flatMap_cons, total_append]
    have h3 := ih fun b hb => hf b (List.mem_cons_of_mem _ hb)
    omega

/-- C73: after any number of runs, each of which ended or died at any time, also inside the write of a record file, a
run that ends leaves a directory from which the merger gives the sum of the results of the blocks, where every block is
counted at least once, and all blocks are recorded.  It is assumed that no block that is cut off looks like another. -/
theorem C73_never_less (hi : Input env ss result) (hu : Distinguishable ss) (hp : Mpi.AnyPast env ss fs)
    (hk : kinds.length < 4294967296) (hr : Reachable env (initial kinds fs (program ss)) st) (hpc : st.pc = .finished)
    (ht : st.todo = []) : ∀ s ∈ ss, ∃ (d : Dir) (l : List Block) (r : OSet Block) (m : StoreMap), st.fs s.cfg.resultPath = some d ∧
      Merger.merge d = .ok ⟨0, some (Store.print m, Record.print r)⟩ ∧ (∀ b, b ∈ l ↔ b ∈ s.blocks) ∧
      Tally m (l.flatMap (result s.cfg)) ∧ (∀ b ∈ s.blocks, b ∈ r) ∧
      ∀ k, total (s.blocks.flatMap (result s.cfg)) k ≤ total m k := by
  intro s hs
  have h0 := hp.rough hi hu
  obtain ⟨d, h1, l, r, m, h2, h3, h4, h5⟩ := ((DataInvIn.reachable hi hk ((Rough.open h0).kept hi) hr).finished hi
    ((Good.init env hk fs hi.blocks).reachable hr) (all_done hk hi.blocks hr (by rw [hpc]; rfl)).2.1 hpc ht s hs).merge
    (h0 s hs) (hi.nonempty s hs) (hu s hs)
  exact ⟨d, l, r, m, h1, h2, h3, h4, h5, fun k => (total_le (fun b hb => (h3 b).2 hb) (hi.blocks s hs) (fun b hb =>
    hi.counts s hs b ((h3 b).1 hb)) k).trans (h4.total_eq k).ge⟩

end

/-- Three blocks for the field of 3 elements and genus 2, in the order of the iterator. -/
def lessShort : Block := [(0, 1), (0, 1), (0, 1), (0, 1), (2, 3), (0, 1)]

def lessSect : Sect := ⟨⟨3, 1, 2, false, 1, "out".toList, 1⟩,
  [lessShort, lessShort ++ [(0, 1)], [(1, 2), (0, 1), (0, 1), (0, 1), (2, 3), (0, 1), (0, 1)]]⟩

def lessResult : ConfigNode → Block → StoreMap := fun _ b => [(⟨[b.length], [0]⟩, 12)]

def lessEnv : Env := ⟨fun c b => .ok (lessResult c b)⟩

/-- The first run, in which the second thread is faster than the first, until it writes the record. -/
def lessFirst : List Label :=
  threadSteps 0 2 ++ threadSteps 1 2 ++ mainSteps 19 ++ threadSteps 0 4 ++ [.master ⟨true, true, 5⟩] ++ mainSteps 2

/-- The second run. -/
def lessSecond : List Label :=
  threadSteps 0 2 ++ threadSteps 1 2 ++ mainSteps 21 ++ threadSteps 0 4 ++ threadSteps 1 4 ++ mainSteps 2 ++
    [.master ⟨false, true, 8⟩] ++ mainSteps 5 ++ threadSteps 0 1 ++ mainSteps 3 ++ threadSteps 1 1 ++ mainSteps 2

theorem less_input : Input lessEnv [lessSect] lessResult where
  paths := List.nodup_singleton _
  blocks := by decide
  nonempty := by decide
  fit := by decide
  compute := fun _ _ _ _ => rfl
  keys := by
    intro s hs b hb e he
    rw [List.mem_singleton.1 hs] at hb
    have h1 : b.length < 2147483648 := by
      clear he
      revert b
      decide
    rw [List.mem_singleton.1 he]
    exact ⟨by simp, by simp, by simpa using h1, by simp⟩
  counts := by
    intro s _ b _ e he
    rw [List.mem_singleton.1 he]
    show (0 : Int) ≤ 12
    decide
  small := by
    intro s hs k
    rw [List.mem_singleton.1 hs]
    show Small (total [(⟨[6], [0]⟩, 12), (⟨[7], [0]⟩, 12), (⟨[7], [0]⟩, 12)] k)
    unfold total Small
    by_cases h6 : (⟨[6], [0]⟩ : Key) = k
    · subst h6
      exact ⟨by decide, by decide⟩
    · by_cases h7 : (⟨[7], [0]⟩ : Key) = k
      · subst h7
        exact ⟨by decide, by decide⟩
      · simp [h6, h7]

/-- The directory after the first run in `C73_less`. -/
def lessTorn : Dir :=
  Dir.write (Dir.write [] (FileStore.storeName 5) (Store.print [(⟨[7], [0]⟩, 12)])) (FileStore.recordName 5)
    "0 1 0 1 0 1 0 1 2 3 0 1".toList

/-- The directory after the second run in `C73_less`. -/
def lessWrong : Dir :=
  FileStore.save lessTorn 8 (Record.print [lessShort ++ [(0, 1)], [(1, 2), (0, 1), (0, 1), (0, 1), (2, 3), (0, 1), (0, 1)]],
    Store.print [(⟨[7], [0]⟩, 24)])

/-- The assumption in C73 that no block looks like another that is cut off is necessary: a run dies inside the write of
the record, and what is left of the line of a block is another block, which the next run does not compute.  Nothing is
counted for this block, and the merger reports that it is recorded. -/
theorem C73_less : ∃ (env : Env) (ss : List Sect) (result : ConfigNode → Block → StoreMap) (kinds : List Bool)
    (fs : FileSystem) (st : State), Input env ss result ∧ Mpi.AnyPast env ss fs ∧
    Reachable env (initial kinds fs (program ss)) st ∧ st.pc = .finished ∧ st.todo = [] ∧
    ∃ s ∈ ss, ∃ d, st.fs s.cfg.resultPath = some d ∧ ∃ r m,
      Merger.merge d = .ok ⟨0, some (Store.print m, Record.print r)⟩ ∧ (∀ b ∈ s.blocks, b ∈ r) ∧
      ∃ b ∈ s.blocks, ∃ e ∈ result s.cfg b, 0 < e.2 ∧ e.1 ∉ m.map Prod.fst := by
  refine ⟨lessEnv, [lessSect], lessResult, [false, false], _, _, less_input,
    .run (fun _ => none) _ [false, false] _ (.start _ (by intro s hs d hd; cases hd)) (by decide)
      (exec_reachable (ls := lessFirst) .refl rfl) (.inside _ _ "0 1 0 1 0 1 0 1 2 3 0 1".toList _ _ _ _ rfl rfl rfl
        ⟨" 0 1 \n".toList, rfl⟩),
    exec_reachable (ls := lessSecond) .refl rfl, rfl, rfl, lessSect, List.mem_singleton_self _, lessWrong, rfl,
    [[], lessShort, lessShort ++ [(0, 1)], [(1, 2), (0, 1), (0, 1), (0, 1), (2, 3), (0, 1), (0, 1)]],
    [(⟨[7], [0]⟩, 36)], by decide, by decide, lessShort, by decide, (⟨[6], [0]⟩, 12), by decide, by decide, by decide⟩

/-- Hypotheses of `C73_run`: a directory with a store that cannot be read, a record without store, and other files.  The
block in the record is not computed, and the merger fails as before. -/
example : ∃ fs st d, Open [lessSect] fs ∧ Reachable lessEnv (initial [false, false] fs (program [lessSect])) st ∧
    st.pc = .finished ∧ st.todo = [] ∧ st.fs lessSect.cfg.resultPath = some d ∧
    (fs lessSect.cfg.resultPath).isSome ∧ Merger.merge d = .ok ⟨1, none⟩ ∧ d.length = 5 := by
  refine ⟨fun _ => some [("a.txt".toList, .file []), ("3.hycu_store".toList, .file "7;".toList),
    ("9.hycu_record".toList, .file "0 1 0 1 0 1 0 1 2 3 0 1 \n".toList)], _, _, ?_,
    exec_reachable (ls := lessSecond) .refl rfl, rfl, rfl, rfl, rfl, by decide, by decide⟩
  intro s _ d hd
  obtain rfl := Option.some.inj hd
  refine ⟨by unfold Dir.NamesDiffer; decide, ?_, _, rfl⟩
  intro e he _
  rcases he with _ | ⟨_, he⟩
  · rfl
  · rcases he with _ | ⟨_, he⟩
    · rfl
    · rw [List.mem_singleton.1 he]
      rfl

/-- Hypotheses of `C73_never_less`: the directory of `C35_false`, from which the block is counted twice. -/
example : ∃ fs st d, Distinguishable [onceSect] ∧ Mpi.AnyPast onceEnv [onceSect] fs ∧
    Reachable onceEnv (initial [false] fs (program [onceSect])) st ∧ st.pc = .finished ∧ st.todo = [] ∧
    st.fs onceSect.cfg.resultPath = some d ∧
    Merger.merge d = .ok ⟨0, some ("1,1,2;0,5:24\n".toList, "\n0 10 \n".toList)⟩ := by
  refine ⟨_, _, onceTwice, ?_, .run (fun _ => none) _ [false] _ (.start _ (by intro s hs d hd; cases hd)) (by decide)
    (exec_reachable (ls := onceLabels 5 ++ mainSteps 1) .refl rfl) (.inside _ _ [] _ _ _ _ rfl rfl rfl List.nil_prefix),
    exec_reachable (ls := onceLabels 8 ++ onceEnd) .refl rfl, rfl, rfl, rfl, by decide⟩
  intro s hs b hb b' hb' _
  rw [List.mem_singleton.1 hs] at hb hb'
  rw [List.mem_singleton.1 hb, List.mem_singleton.1 hb']

end Run

namespace Mpi

open Run (Env Sect program Input Open Distinguishable Rough)

section

variable {env : Env} {ss : List Sect} {result : ConfigNode → Block → StoreMap} {kinds : List (List Bool)}
  {fs : FileSystem} {st : State}

/-- C73: the same for several processes. -/
theorem C73_safe (hi : Input env ss result) (ho : Open ss fs) (h0 : kinds ≠ []) (hk : ∀ k ∈ kinds, k.length < 4294967296)
    (hr : Reachable env (initial kinds fs (program ss)) st) (l : Label) : ∃ o, step env st l = .ok o :=
  step_ok (DataInvIn.reachable hi h0 hk (ho.kept hi) hr) hi ((Inv.start hi h0 hk).reachable hr) l

/-- C73: the same for several processes. -/
theorem C73_run (hi : Input env ss result) (ho : Open ss fs) (h0 : kinds ≠ []) (hk : ∀ k ∈ kinds, k.length < 4294967296)
    (hr : Reachable env (initial kinds fs (program ss)) st) (hpc : st.pc = .finished) (ht : st.todo = []) :
    ∀ s ∈ ss, ∀ d₀, fs s.cfg.resultPath = some d₀ ∨ fs s.cfg.resultPath = none ∧ d₀ = [] →
      ∃ r₀ d sv, FileStore.initialRecord d₀ = .ok r₀ ∧ st.fs s.cfg.resultPath = some d ∧ d₀.Grows d sv ∧
        (∀ p ∈ sv, Match (result s.cfg) p.1 p.2) ∧
        (∀ b, (sv.flatMap Prod.fst).count b = if b ∈ s.blocks ∧ b ∉ r₀ then 1 else 0) ∧
        ((∃ r₁ m₁ r m, Merger.merge d₀ = .ok ⟨0, some (Store.print m₁, Record.print r₁)⟩ ∧
            Merger.merge d = .ok ⟨0, some (Store.print m, Record.print r)⟩ ∧ OMap.Sorted m₁ ∧
            Tally m (m₁ ++ (s.blocks.filter fun b => b ∉ r₀).flatMap (result s.cfg)) ∧
            ∀ b, b ≠ [] → (b ∈ r ↔ b ∈ r₁ ∨ b ∈ s.blocks ∧ b ∉ r₀)) ∨
          (∀ o, Merger.merge d₀ ≠ .ok ⟨0, o⟩) ∧ Merger.merge d = Merger.merge d₀) := by
  intro s hs d₀ hd
  exact ((DataInvIn.reachable hi h0 hk (ho.kept hi) hr).finished hi ((Inv.start hi h0 hk).reachable hr) hpc ht s
    hs).added (hi.blocks s hs) hd

/-- C73: the same for several processes. -/
theorem C73_never_less (hi : Input env ss result) (hu : Distinguishable ss) (hp : AnyPast env ss fs)
    (h0 : kinds ≠ []) (hk : ∀ k ∈ kinds, k.length < 4294967296) (hr : Reachable env (initial kinds fs (program ss)) st)
    (hpc : st.pc = .finished) (ht : st.todo = []) : ∀ s ∈ ss, ∃ (d : Dir) (l : List Block) (r : OSet Block) (m : StoreMap), st.fs s.cfg.resultPath = some d ∧
      Merger.merge d = .ok ⟨0, some (Store.print m, Record.print r)⟩ ∧ (∀ b, b ∈ l ↔ b ∈ s.blocks) ∧
      Tally m (l.flatMap (result s.cfg)) ∧ (∀ b ∈ s.blocks, b ∈ r) ∧
      ∀ k, total (s.blocks.flatMap (result s.cfg)) k ≤ total m k := by
  intro s hs
  have hr0 := hp.rough hi hu
  obtain ⟨d, h1, l, r, m, h2, h3, h4, h5⟩ := ((DataInvIn.reachable hi h0 hk ((Rough.open hr0).kept hi) hr).finished hi
    ((Inv.start hi h0 hk).reachable hr) hpc ht s hs).merge (hr0 s hs) (hi.nonempty s hs) (hu s hs)
  exact ⟨d, l, r, m, h1, h2, h3, h4, h5, fun k => (Run.total_le (fun b hb => (h3 b).2 hb) (hi.blocks s hs) (fun b hb =>
    hi.counts s hs b ((h3 b).1 hb)) k).trans (h4.total_eq k).ge⟩

end

end Mpi
end Hycu
