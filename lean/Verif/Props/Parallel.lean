import Verif.Lemmas.ParallelSafe
import Verif.Props.Damage

/-!
C74: several runs at the same time.
-/

namespace Hycu
namespace Parallel

open Run (Env Input Sect program Open Untouched recorded tally_added onceEnv onceSect onceResult once_input onceLabels onceEnd lessEnv
  lessSect lessResult less_input lessShort threadSteps mainSteps)

section

variable {env : Env} {result : ConfigNode → Block → StoreMap} {jobs : List Job} {fs : FileSystem} {P : State}

/-- C74: as long as the records can be read that were in the directories before, no step of any of the runs fails. -/
theorem C74_safe (H : Jobs env result jobs) (h0 : ∀ j ∈ jobs, Open j.sects fs)
    (hr : Reachable env jobs.length NoClash (initial jobs fs) P) (l : Label) :
    ∃ o, step env jobs.length P l = .ok o := by
  obtain ⟨g, h1, h2⟩ := Inv.reachable H h0 hr
  cases l with
  | test i =>
    unfold step
    dsimp only
    split
    · exact ⟨_, rfl⟩
    · split <;> exact ⟨_, rfl⟩
  | refuse i =>
    unfold step
    dsimp only
    split
    · exact ⟨_, rfl⟩
    · split <;> exact ⟨_, rfl⟩
  | step i l =>
    unfold step
    dsimp only
    split
    · rename_i hc
      have hj := List.getElem?_eq_getElem hc.1
      generalize jobs[i] = j at hj
      have hm := List.mem_of_getElem? hj
      obtain ⟨o, ho⟩ := safe_step (F := P.fs) (reach_safe (H.input j hm) (H.possible j hm) (h1.opens i j hj)
        (h1.reach i j hj) l) fun h3 c rest h4 => by
          refine (h2 _ i j hj ⟨?_, fun _ _ _ _ => by omega⟩).symm
          rw [h4]
          show _ ∈ c.resultPath :: _
          exact List.mem_cons_self
      rw [ho]
      exact ⟨_, rfl⟩
    · exact ⟨_, rfl⟩

/-- What is in a directory while several runs use it, with the loop of the merger in place of the merger. -/
theorem runs_loop (H : Jobs env result jobs) (h0 : ∀ j ∈ jobs, Open j.sects fs)
    (hr : Reachable env jobs.length NoClash (initial jobs fs) P) :
    ∀ j ∈ jobs, ∀ s ∈ j.sects, ∀ d₀, fs s.cfg.resultPath = some d₀ ∨ fs s.cfg.resultPath = none ∧ d₀ = [] →
      ∃ (r₀ : OSet Block) (d new : Dir) (l : List Block), FileStore.initialRecord d₀ = .ok r₀ ∧
        (P.fs s.cfg.resultPath = some d ∨ P.fs s.cfg.resultPath = none ∧ d = []) ∧ d = d₀ ++ new ∧ d.NamesDiffer ∧
        (∀ b ∈ l, b ∈ s.blocks ∧ b ∉ r₀) ∧ (∀ b, l.count b ≤ (users jobs s.cfg.resultPath).length) ∧
        (∀ r₁ m₁, Merger.mergeLoop d₀ d₀ [] [] = .ok (some (r₁, m₁)) → ∃ r m,
          Merger.mergeLoop d d [] [] = .ok (some (r, m)) ∧ Tally m (m₁ ++ l.flatMap (result s.cfg)) ∧
          ∀ b, b ≠ [] → (b ∈ r ↔ b ∈ r₁ ∨ b ∈ l)) ∧
        ((∀ x, Merger.mergeLoop d₀ d₀ [] [] ≠ .ok (some x)) →
          Merger.mergeLoop d d [] [] = Merger.mergeLoop d₀ d₀ [] []) ∧
        ∀ i j', jobs[i]? = some j' → s ∈ j'.sects → (P.runs i).complete →
          P.fs s.cfg.resultPath = some d ∧ ∀ b ∈ s.blocks, b ∉ r₀ → b ∈ l := by
  intro j hjm s hs d₀ hd
  obtain ⟨g, h1, h2⟩ := Inv.reachable H h0 hr
  obtain ⟨i, hj⟩ := List.mem_iff_getElem?.1 hjm
  have hd' : dirOf (fs s.cfg.resultPath) = d₀ := by
    rcases hd with hd | ⟨hd, rfl⟩ <;> rw [hd] <;> rfl
  obtain ⟨a1, a2, r₀, a3⟩ := open_dir (h0 j hjm) hs
  obtain ⟨ps, b1, b2, b3, b4, b5, b6, b7, b8, b9⟩ := h1.content H hj hs a1 a2 a3
  have hn := h1.names _ a1
  have hreal := h1.real s.cfg.resultPath
  rw [hd'] at a3 b3 hreal
  refine ⟨r₀, dirOf (P.fs s.cfg.resultPath), g.all s.cfg.resultPath, recorded ps, a3, ?_, hreal, hn, b7, b6, ?_, ?_, ?_⟩
  · cases P.fs s.cfg.resultPath with
    | none => exact Or.inr ⟨rfl, rfl⟩
    | some d => exact Or.inl rfl
  · rw [hreal] at hn b2 ⊢
    intro r₁ m₁ h6
    obtain ⟨m, h7, h8⟩ := merge_pairs hn b3 b2 b5 h6
    refine ⟨_, m, h7, tally_added b4 (List.Perm.refl _) h8, fun b hb => ?_⟩
    rw [Record.mem_foldl_insert]
    refine or_congr Iff.rfl ?_
    unfold recorded
    rw [List.mem_flatMap, List.mem_flatMap]
    exact exists_congr fun p => and_congr Iff.rfl (mem_pairReads hb)
  · rw [hreal]
    exact fun hx => merge_stuck b3 hx
  · intro i' j' hj' hs' hc
    have hm := List.mem_of_getElem? hj'
    refine ⟨?_, fun b hb hr0 => (b9 i' j' hj' hc hs' b hb).resolve_left hr0⟩
    obtain ⟨d, ps', c1, _⟩ := reach_complete (H.input j' hm) (H.possible j' hm) (h1.opens i' j' hj') (h1.reach i' j' hj')
      (by simpa using hc) s hs'
    rw [Prog.fs_withFs] at c1
    have c2 := h1.exist i' s.cfg.resultPath (by rw [c1]; rfl)
    obtain ⟨d', c3⟩ := Option.isSome_iff_exists.1 c2
    rw [c3]
    rfl

/-- C74: what is in a directory while several runs use it, and after they have ended or died.  All files that were there
are left as they are, and every run only adds files.  `l` are the blocks of which results have been added: none of
them was recorded before, and no block is added more often than there are runs that use the directory.  The results
are added to what the merger found before.  If one of the runs that use the directory is complete, then nothing is
missing. -/
theorem C74_runs (H : Jobs env result jobs) (h0 : ∀ j ∈ jobs, Open j.sects fs)
    (hr : Reachable env jobs.length NoClash (initial jobs fs) P) :
    ∀ j ∈ jobs, ∀ s ∈ j.sects, ∀ d₀, fs s.cfg.resultPath = some d₀ ∨ fs s.cfg.resultPath = none ∧ d₀ = [] →
      ∃ (r₀ : OSet Block) (d new : Dir) (l : List Block), FileStore.initialRecord d₀ = .ok r₀ ∧
        (P.fs s.cfg.resultPath = some d ∨ P.fs s.cfg.resultPath = none ∧ d = []) ∧ d = d₀ ++ new ∧ d.NamesDiffer ∧
        (∀ b ∈ l, b ∈ s.blocks ∧ b ∉ r₀) ∧ (∀ b, l.count b ≤ (users jobs s.cfg.resultPath).length) ∧
        ((∃ r₁ m₁ r m, Merger.merge d₀ = .ok ⟨0, some (Store.print m₁, Record.print r₁)⟩ ∧
            Merger.merge d = .ok ⟨0, some (Store.print m, Record.print r)⟩ ∧ OMap.Sorted m₁ ∧
            Tally m (m₁ ++ l.flatMap (result s.cfg)) ∧ ∀ b, b ≠ [] → (b ∈ r ↔ b ∈ r₁ ∨ b ∈ l)) ∨
          (∀ o, Merger.merge d₀ ≠ .ok ⟨0, o⟩) ∧ Merger.merge d = Merger.merge d₀) ∧
        ∀ i j', jobs[i]? = some j' → s ∈ j'.sects → (P.runs i).complete →
          P.fs s.cfg.resultPath = some d ∧ ∀ b ∈ s.blocks, b ∉ r₀ → b ∈ l := by
  intro j hjm s hs d₀ hd
  obtain ⟨r₀, d, new, l, a1, a2, a3, a4, a5, a6, a7, a8, a9⟩ := runs_loop H h0 hr j hjm s hs d₀ hd
  refine ⟨r₀, d, new, l, a1, a2, a3, a4, a5, a6, ?_, a9⟩
  by_cases hx : ∃ x, Merger.mergeLoop d₀ d₀ [] [] = .ok (some x)
  · obtain ⟨⟨r₁, m₁⟩, h6⟩ := hx
    obtain ⟨r, m, h7, h8, h9⟩ := a7 r₁ m₁ h6
    refine Or.inl ⟨r₁, m₁, r, m, ?_, ?_, (Merger.mergeLoop_sorted _ _ _ _ _ List.Pairwise.nil OMap.sorted_nil h6).2, h8, h9⟩
    · unfold Merger.merge
      rw [h6]
      rfl
    · unfold Merger.merge
      rw [h7]
      rfl
  · refine Or.inr ⟨fun o h6 => ?_, ?_⟩
    · unfold Merger.merge at h6
      obtain ⟨x, h7, h8⟩ := Res.bind_eq_ok.1 h6
      cases x with
      | none => cases h8
      | some x => exact hx ⟨x, h7⟩
    · unfold Merger.merge
      rw [a8 fun x h6 => hx ⟨x, h6⟩]

/-- C74: a run whose directories are used by no other run does what it does alone, also if other runs use other
directories at the same time. -/
theorem C74_alone (H : Jobs env result jobs) (h0 : ∀ j ∈ jobs, Open j.sects fs)
    (hr : Reachable env jobs.length NoClash (initial jobs fs) P) {i : Nat} {j : Job} (hj : jobs[i]? = some j)
    (hc : (P.runs i).complete) : ∀ s ∈ j.sects, (users jobs s.cfg.resultPath).length = 1 → ∀ d₀,
      fs s.cfg.resultPath = some d₀ ∨ fs s.cfg.resultPath = none ∧ d₀ = [] →
      ∃ (r₀ : OSet Block) (d new : Dir), FileStore.initialRecord d₀ = .ok r₀ ∧ P.fs s.cfg.resultPath = some d ∧
        d = d₀ ++ new ∧
        ((∃ r₁ m₁ r m, Merger.merge d₀ = .ok ⟨0, some (Store.print m₁, Record.print r₁)⟩ ∧
            Merger.merge d = .ok ⟨0, some (Store.print m, Record.print r)⟩ ∧ OMap.Sorted m₁ ∧
            Tally m (m₁ ++ (s.blocks.filter fun b => b ∉ r₀).flatMap (result s.cfg)) ∧
            ∀ b, b ≠ [] → (b ∈ r ↔ b ∈ r₁ ∨ b ∈ s.blocks ∧ b ∉ r₀)) ∨
          (∀ o, Merger.merge d₀ ≠ .ok ⟨0, o⟩) ∧ Merger.merge d = Merger.merge d₀) := by
  intro s hs hu d₀ hd
  have hm := List.mem_of_getElem? hj
  obtain ⟨r₀, d, new, l, a1, a2, a3, a4, a5, a6, a7, a8⟩ := C74_runs H h0 hr j hm s hs d₀ hd
  obtain ⟨b1, b2⟩ := a8 i j hj hs hc
  have hmem : ∀ b, b ∈ l ↔ b ∈ s.blocks ∧ b ∉ r₀ := fun b => ⟨a5 b, fun h => b2 b h.1 h.2⟩
  have hp : l.Perm (s.blocks.filter fun b => b ∉ r₀) := by
    refine (List.perm_ext_iff_of_nodup (List.nodup_iff_count_le_one.2 fun b => hu ▸ a6 b)
      (((H.input j hm).blocks s hs).filter _)).2 fun b => ?_
    rw [hmem, List.mem_filter]
    simp
  refine ⟨r₀, d, new, a1, b1, a3, ?_⟩
  rcases a7 with ⟨r₁, m₁, r, m, c1, c2, c3, c4, c5⟩ | h
  · refine Or.inl ⟨r₁, m₁, r, m, c1, c2, c3, c4.perm ((hp.flatMap_right _).append_left _), fun b hb => ?_⟩
    rw [c5 b hb, hmem]
  · exact Or.inr h

/-- C74: if several runs start with directories in which nothing is recorded, and one of them is complete, then the merger
counts every block at least once, and at most as often as there are runs that use the directory. -/
theorem C74_fresh (H : Jobs env result jobs) (h0 : ∀ j ∈ jobs, Untouched j.sects fs)
    (hr : Reachable env jobs.length NoClash (initial jobs fs) P) {i : Nat} {j : Job} (hj : jobs[i]? = some j)
    (hc : (P.runs i).complete) : ∀ s ∈ j.sects, ∃ (d : Dir) (l : List Block) (r : OSet Block) (m : StoreMap),
      P.fs s.cfg.resultPath = some d ∧ Merger.merge d = .ok ⟨0, some (Store.print m, Record.print r)⟩ ∧
      Tally m (l.flatMap (result s.cfg)) ∧ (∀ b, b ∈ l ↔ b ∈ s.blocks) ∧
      (∀ b ∈ s.blocks, 1 ≤ l.count b ∧ l.count b ≤ (users jobs s.cfg.resultPath).length) ∧
      (∀ b, b ≠ [] → (b ∈ r ↔ b ∈ s.blocks)) := by
  intro s hs
  have hm := List.mem_of_getElem? hj
  have ho : ∀ j ∈ jobs, Open j.sects fs := fun j' hj' =>
    Run.Rough.open (result := result) fun s' hs' d hd => (h0 j' hj').rough hs' hd
  obtain ⟨d₀, hd⟩ : ∃ d₀, fs s.cfg.resultPath = some d₀ ∨ fs s.cfg.resultPath = none ∧ d₀ = [] := by
    cases fs s.cfg.resultPath with
    | none => exact ⟨[], Or.inr ⟨rfl, rfl⟩⟩
    | some d => exact ⟨d, Or.inl rfl⟩
  obtain ⟨r₀, d, new, l, a1, a2, a3, a4, a5, a6, a7, _, a8⟩ := runs_loop H ho hr j hm s hs d₀ hd
  obtain ⟨b1, b2⟩ := a8 i j hj hs hc
  have hno : d₀.filter FileStore.isRecordFile = [] := by
    rcases hd with hd | ⟨hd, rfl⟩
    · have h1 := ((h0 j hm).holds hs hd).2.files
      generalize d₀.filter FileStore.isRecordFile = x at h1
      cases h1
      rfl
    · rfl
  have hread : ∀ e ∈ d₀, FileStore.isRecordFile e ≠ true := fun e he h => by
    have : e ∈ d₀.filter FileStore.isRecordFile := List.mem_filter.2 ⟨he, h⟩
    rw [hno] at this
    cases this
  have hr0 : r₀ = [] := by
    have h1 : FileStore.initialRecord d₀ = .ok [] := by
      unfold FileStore.initialRecord
      have key : ∀ es : List (List Char × FileEntry), (∀ e ∈ es, FileStore.isRecordFile e ≠ true) →
          es.foldlM (FileStore.readRecord d₀) [] = Res.ok [] := by
        intro es
        induction es with
        | nil => exact fun _ => rfl
        | cons e es ih =>
          intro he
          rw [List.foldlM_cons]
          have h2 : FileStore.readRecord d₀ [] e = .ok [] := by
            unfold FileStore.readRecord
            rw [if_neg (he e List.mem_cons_self)]
          rw [h2]
          exact ih fun e' he' => he e' (List.mem_cons_of_mem _ he')
      exact key d₀ hread
    rw [h1] at a1
    exact (Res.ok.inj a1).symm
  subst hr0
  have hloop : Merger.mergeLoop d₀ d₀ [] [] = .ok (some ([], [])) := by
    have key : ∀ es : Dir, (∀ e ∈ es, FileStore.isRecordFile e ≠ true) →
        Merger.mergeLoop d₀ es [] [] = .ok (some ([], [])) := by
      intro es
      induction es with
      | nil => exact fun _ => rfl
      | cons e es ih =>
        intro he
        unfold Merger.mergeLoop
        rw [if_neg (he e List.mem_cons_self)]
        exact ih fun e' he' => he e' (List.mem_cons_of_mem _ he')
    exact key d₀ hread
  obtain ⟨r, m, h7, h8, h9⟩ := a7 [] [] hloop
  have hmem : ∀ b, b ∈ l ↔ b ∈ s.blocks := fun b => ⟨fun h => (a5 b h).1, fun h => b2 b h List.not_mem_nil⟩
  refine ⟨d, l, r, m, b1, ?_, by simpa using h8, hmem, fun b hb => ⟨List.count_pos_iff.2 ((hmem b).2 hb), a6 b⟩,
    fun b hb => ?_⟩
  · unfold Merger.merge
    rw [h7]
    rfl
  · rw [h9 b hb, ← hmem]
    simp

end

/-- A decision of `NoClash`. -/
def free (P : State) : Label → Bool
  | .step i _ =>
    match (P.runs i).writing with
    | none => true
    | some (p, n) =>
      match P.fs p with
      | none => true
      | some d => d.all fun e => e.1 ≠ n
  | _ => true

theorem noClash_of_free {P : State} {l : Label} (h : free P l = true) : NoClash P l := by
  cases l with
  | step i l =>
    intro p n hw d hd e he
    unfold free at h
    dsimp only at h
    rw [hw] at h
    dsimp only at h
    rw [hd] at h
    exact of_decide_eq_true (List.all_eq_true.1 h e he)
  | test i => trivial
  | refuse i => trivial

/-- The state after some steps. -/
def exec (env : Env) (n : Nat) (ok : State → Label → Bool) (P : State) : List Label → Option State
  | [] => some P
  | l :: ls =>
    if ok P l = true then
      match step env n P l with
      | .ok (some P') => exec env n ok P' ls
      | _ => none
    else none

theorem exec_reachable {env : Env} {n : Nat} {P₀ : State} {ok : State → Label → Bool} {ok' : State → Label → Prop}
    (hok : ∀ P l, ok P l = true → ok' P l) {ls : List Label} : ∀ {P P' : State}, Reachable env n ok' P₀ P →
      exec env n ok P ls = some P' → Reachable env n ok' P₀ P' := by
  induction ls with
  | nil => intro P P' hr h; cases h; exact hr
  | cons l ls ih =>
    intro P P' hr h
    simp only [exec] at h
    split at h
    · rename_i ho
      split at h
      · rename_i P1 hs
        exact ih (.step l hr (hok _ _ ho) hs) h
      · cases h
    · cases h

/-- Steps of one of the runs. -/
def stepsOf (i : Nat) (ls : List Run.Label) : List Label := ls.map fun l => .step i (.threaded l)


/-- Two runs with the same configuration. -/
def twoJobs : List Job := [⟨.threaded [false], [onceSect]⟩, ⟨.threaded [false], [onceSect]⟩]

theorem two_jobs : Jobs onceEnv onceResult twoJobs where
  possible := by
    intro j hj
    obtain rfl : j = ⟨.threaded [false], [onceSect]⟩ := by simpa [twoJobs] using hj
    show _ < _
    decide
  input := by
    intro j hj
    obtain rfl : j = ⟨.threaded [false], [onceSect]⟩ := by simpa [twoJobs] using hj
    exact once_input
  agree := by
    intro j hj j' hj' s hs s' hs' _
    obtain rfl : j = ⟨.threaded [false], [onceSect]⟩ := by simpa [twoJobs] using hj
    obtain rfl : j' = ⟨.threaded [false], [onceSect]⟩ := by simpa [twoJobs] using hj'
    rw [List.mem_singleton.1 hs, List.mem_singleton.1 hs']

/-- The first run reads the directory and computes its block, then the second run starts and ends, then the first run
writes its files. -/
def twiceLabels : List Label := stepsOf 0 (onceLabels 5) ++ stepsOf 1 (onceLabels 8 ++ onceEnd) ++ stepsOf 0 onceEnd

/-- The directory after these two runs. -/
def twiceDir : Dir :=
  FileStore.save (FileStore.save [] 8 (Record.print [[(0, 10)]], Store.print (onceResult onceSect.cfg []))) 5
    (Record.print [[(0, 10)]], Store.print (onceResult onceSect.cfg []))

/-- C74: the bound cannot be improved.  Two runs with the same configuration that start with no directory both compute
the only block, both are complete, and the merger counts the block twice; it is recorded once. -/
theorem C74_twice : ∃ (env : Env) (result : ConfigNode → Block → StoreMap) (jobs : List Job) (P : State) (s : Sect) (d : Dir),
    Jobs env result jobs ∧ (∀ j ∈ jobs, j.sects = [s]) ∧ jobs.length = 2 ∧
    Reachable env jobs.length NoClash (initial jobs fun _ => none) P ∧ (P.runs 0).complete ∧ (P.runs 1).complete ∧
    P.fs s.cfg.resultPath = some d ∧
    Merger.merge d = .ok ⟨0, some ("1,1,2;0,5:24\n".toList, "\n0 10 \n".toList)⟩ ∧
    Tally [(⟨[1, 1, 2], [0, 5]⟩, 12)] (s.blocks.flatMap (result s.cfg)) := by
  refine ⟨onceEnv, onceResult, twoJobs, _, onceSect, twiceDir, two_jobs, by simp [twoJobs], rfl,
    exec_reachable (ls := twiceLabels) (fun _ _ => noClash_of_free) .refl rfl, ⟨rfl, rfl⟩, ⟨rfl, rfl⟩, rfl, by decide,
    Tally.self (List.pairwise_singleton _ _)⟩

/-- Two runs with the same configuration and two threads. -/
def clashJobs : List Job := [⟨.threaded [false, false], [lessSect]⟩, ⟨.threaded [false, false], [lessSect]⟩]

theorem clash_jobs : Jobs lessEnv lessResult clashJobs where
  possible := by
    intro j hj
    obtain rfl : j = ⟨.threaded [false, false], [lessSect]⟩ := by simpa [clashJobs] using hj
    show _ < _
    decide
  input := by
    intro j hj
    obtain rfl : j = ⟨.threaded [false, false], [lessSect]⟩ := by simpa [clashJobs] using hj
    exact less_input
  agree := by
    intro j hj j' hj' s hs s' hs' _
    obtain rfl : j = ⟨.threaded [false, false], [lessSect]⟩ := by simpa [clashJobs] using hj
    obtain rfl : j' = ⟨.threaded [false, false], [lessSect]⟩ := by simpa [clashJobs] using hj'
    rw [List.mem_singleton.1 hs, List.mem_singleton.1 hs']

/-- The first run computes one block and chooses the number 5, the second run is complete and uses the number 5, the
first run writes its files. -/
def clashLabels : List Label :=
  stepsOf 0 (threadSteps 0 2 ++ threadSteps 1 2 ++ mainSteps 19 ++ threadSteps 0 4 ++ [.master ⟨true, true, 5⟩] ++ mainSteps 1) ++
  stepsOf 1 (threadSteps 0 2 ++ threadSteps 1 2 ++ mainSteps 11 ++ threadSteps 1 6 ++ mainSteps 7 ++ threadSteps 1 6 ++
    mainSteps 7 ++ threadSteps 1 6 ++ mainSteps 9 ++ threadSteps 0 1 ++ mainSteps 3 ++ threadSteps 1 1 ++ mainSteps 2) ++
  stepsOf 0 (mainSteps 2)

/-- The directory after these steps. -/
def clashDir : Dir :=
  FileStore.save [] 5 (Record.print [lessShort ++ [(0, 1)]], Store.print [(⟨[7], [0]⟩, 12)])

set_option maxRecDepth 20000 in
/-- C74: it is necessary that no two runs choose the same name.  The test whether a name is used and the writing of
the file are different steps: another run can choose and write the same name between them, and its files are
overwritten.  The results of a complete run are missing then. -/
theorem C74_clash : ∃ (env : Env) (result : ConfigNode → Block → StoreMap) (jobs : List Job) (P : State) (s : Sect) (d : Dir),
    Jobs env result jobs ∧ (∀ j ∈ jobs, j.sects = [s]) ∧
    Reachable env jobs.length (fun _ _ => True) (initial jobs fun _ => none) P ∧ (P.runs 1).complete ∧
    P.fs s.cfg.resultPath = some d ∧ ∃ r m, Merger.merge d = .ok ⟨0, some (Store.print m, Record.print r)⟩ ∧
    ∃ b ∈ s.blocks, b ∉ r ∧ ∃ e ∈ result s.cfg b, 0 < e.2 ∧ e.1 ∉ m.map Prod.fst := by
  refine ⟨lessEnv, lessResult, clashJobs, _, lessSect, clashDir, clash_jobs, by simp [clashJobs],
    exec_reachable (ls := clashLabels) (ok := fun _ _ => true) (fun _ _ _ => trivial) .refl rfl, ⟨rfl, rfl⟩, rfl,
    [[], lessShort ++ [(0, 1)]], [(⟨[7], [0]⟩, 12)], by decide, lessShort, by decide, by decide, (⟨[6], [0]⟩, 12),
    by decide, by decide, by decide⟩

/-- Both runs find that there is no directory, the second run makes it, and then the first run tries to make it. -/
def refusedLabels : List Label :=
  stepsOf 0 (threadSteps 0 2) ++ [.test 0] ++ stepsOf 1 (onceLabels 8 ++ onceEnd) ++ [.refuse 0] ++
    stepsOf 0 (mainSteps 4 ++ threadSteps 0 1 ++ mainSteps 2)

/-- C74: a run can end with an error because another run was started at the same time: `create_directories` returns
false if the directory was made between the test and its call. -/
theorem C74_refused : ∃ (env : Env) (result : ConfigNode → Block → StoreMap) (jobs : List Job) (P : State) (st : Run.State)
    (s : Sect), Jobs env result jobs ∧ (∀ j ∈ jobs, j.sects = [s]) ∧
    Reachable env jobs.length NoClash (initial jobs fun _ => none) P ∧ (P.runs 1).complete ∧
    P.runs 0 = .threaded st ∧ st.pc = .finished ∧ st.todo = program [s] := by
  refine ⟨onceEnv, onceResult, twoJobs, _, _, onceSect, two_jobs, by simp [twoJobs],
    exec_reachable (ls := refusedLabels) (fun _ _ => noClash_of_free) .refl rfl, ⟨rfl, rfl⟩, rfl, rfl, rfl⟩

/-- Hypotheses of `C74_safe` and `C74_runs`: a directory with a store that cannot be read, a record without store, and
another file.  Both runs are complete, and all files that were there are left. -/
example : ∃ fs P d, (∀ j ∈ twoJobs, Open j.sects fs) ∧ Reachable onceEnv twoJobs.length NoClash (initial twoJobs fs) P ∧
    (P.runs 0).complete ∧ (P.runs 1).complete ∧ P.fs onceSect.cfg.resultPath = some d ∧ (fs onceSect.cfg.resultPath).isSome ∧
    d.map Prod.fst = ["a.txt".toList, "3.hycu_store".toList, "9.hycu_record".toList, "8.hycu_store".toList,
      "8.hycu_record".toList, "5.hycu_store".toList, "5.hycu_record".toList] := by
  refine ⟨fun _ => some [("a.txt".toList, .file []), ("3.hycu_store".toList, .file "7;".toList),
    ("9.hycu_record".toList, .file "0 1 0 1 0 1 0 1 2 3 0 1 \n".toList)], _, _, ?_,
    exec_reachable (ls := twiceLabels) (fun _ _ => noClash_of_free) .refl rfl, ⟨rfl, rfl⟩, ⟨rfl, rfl⟩, rfl, rfl, by decide⟩
  intro j _ s _ d hd
  obtain rfl := Option.some.inj hd
  refine ⟨by unfold Dir.NamesDiffer; decide, ?_, _, rfl⟩
  intro e he _
  rcases he with _ | ⟨_, he⟩
  · rfl
  rcases he with _ | ⟨_, he⟩
  · rfl
  rcases he with _ | ⟨_, he⟩
  · rfl
  cases he

/-- Hypotheses of `C74_fresh`. -/
example : ∀ j ∈ twoJobs, Untouched j.sects fun _ => none := by
  intro j _ s _ d hd
  cases hd

/-- Another section. -/
def otherSect : Sect := ⟨⟨7, 1, 2, false, 1, "other".toList, 100⟩, [[(0, 10)]]⟩

theorem other_input : Input onceEnv [otherSect] onceResult where
  paths := List.nodup_singleton _
  blocks := by decide
  nonempty := by decide
  fit := by decide
  compute := fun _ _ _ _ => rfl
  keys := by
    intro s _ b _ e he
    rw [List.mem_singleton.1 he]
    exact ⟨by simp, by simp, by decide, by decide⟩
  counts := by
    intro s _ b _ e he
    rw [List.mem_singleton.1 he]
    decide
  small := by
    intro s hs k
    rw [List.mem_singleton.1 hs]
    exact once_input.small onceSect (List.mem_singleton_self _) k

/-- Two runs with different directories, one of them with two processes. -/
def apartJobs : List Job := [⟨.threaded [false], [onceSect]⟩, ⟨.mpi [[], [false]], [otherSect]⟩]

theorem apart_jobs : Jobs onceEnv onceResult apartJobs where
  possible := by
    intro j hj
    rcases List.mem_cons.1 hj with rfl | hj
    · show _ < _
      decide
    · rw [List.mem_singleton.1 hj]
      exact ⟨nofun, by decide⟩
  input := by
    intro j hj
    rcases List.mem_cons.1 hj with rfl | hj
    · exact once_input
    · rw [List.mem_singleton.1 hj]
      exact other_input
  agree := by
    intro j hj j' hj' s hs s' hs' h
    rcases List.mem_cons.1 hj with rfl | hj
    · rcases List.mem_cons.1 hj' with rfl | hj'
      · rw [List.mem_singleton.1 hs, List.mem_singleton.1 hs']
      · rw [List.mem_singleton.1 hj'] at hs'
        rw [List.mem_singleton.1 hs, List.mem_singleton.1 hs'] at h
        exact absurd h (by decide)
    · rw [List.mem_singleton.1 hj] at hs
      rcases List.mem_cons.1 hj' with rfl | hj'
      · rw [List.mem_singleton.1 hs, List.mem_singleton.1 hs'] at h
        exact absurd h (by decide)
      · rw [List.mem_singleton.1 hj'] at hs'
        rw [List.mem_singleton.1 hs, List.mem_singleton.1 hs']

def apartLabels : List Label :=
  stepsOf 0 (onceLabels 5) ++ [.test 1, .step 1 (.mpi (.master ⟨false, true, 5⟩))] ++ stepsOf 0 onceEnd

/-- Hypotheses of `C74_alone`: the run with two processes has made its directory. -/
example : ∃ P, Reachable onceEnv apartJobs.length NoClash (initial apartJobs fun _ => none) P ∧ (P.runs 0).complete ∧
    (P.fs "other".toList).isSome ∧ (users apartJobs onceSect.cfg.resultPath).length = 1 := by
  refine ⟨_, exec_reachable (ls := apartLabels) (fun _ _ => noClash_of_free) .refl rfl, ⟨rfl, rfl⟩, rfl, by decide⟩

end Parallel
end Hycu
