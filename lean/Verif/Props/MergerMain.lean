import Verif.Props.Files
import Verif.Spec.MergerMain

/-!
Property C56: the main function of `hycu-merger`.
-/

namespace Hycu

open FileStore

/-! ### Writing -/

theorem Dir.lookup_write_ne {n m c : List Char} (h : n ≠ m) : ∀ d : Dir, Dir.lookup (d.write n c) m = Dir.lookup d m
  | [] => if_neg h
  | (a, e) :: d => by
    unfold Dir.write
    split
    · rename_i ha
      split
      · rw [Dir.lookup, Dir.lookup, if_neg (by rw [ha]; exact h), if_neg (by rw [ha]; exact h)]
      · rfl
    · rw [Dir.lookup, Dir.lookup, Dir.lookup_write_ne h d]

theorem Dir.lookup_write {n c : List Char} : ∀ d : Dir, Merger.Writable d n →
    Dir.lookup (d.write n c) n = some (.file c)
  | [], _ => if_pos rfl
  | (a, e) :: d, hw => by
    unfold Dir.write
    by_cases ha : a = n
    · rw [if_pos ha]
      obtain ⟨c', rfl⟩ := hw e (by rw [Dir.lookup, if_pos ha])
      exact if_pos ha
    · rw [if_neg ha, Dir.lookup, if_neg ha]
      exact Dir.lookup_write d fun e he => hw e (by rw [Dir.lookup, if_neg ha]; exact he)

theorem Dir.write_append {n c : List Char} {d' : Dir} : ∀ {d : Dir}, (∀ e ∈ d, e.1 ≠ n) →
    Dir.write (d ++ d') n c = d ++ Dir.write d' n c
  | [], _ => rfl
  | (a, e) :: d, h => by
    rw [List.cons_append]
    conv_lhs => unfold Dir.write
    rw [if_neg (h (a, e) (by simp)), Dir.write_append fun e he => h e (by simp [he])]
    rfl

theorem record_ne_store (s t : List Char) : s ++ recordExtension ≠ t ++ storeExtension := by
  intro h
  have h1 := Dir.extension_record s
  rw [h, Dir.extension_store] at h1
  exact absurd h1 (by decide)

namespace Merger

theorem writeFile_some {fs : FileSystem} {p n c : List Char} {d : Dir} (h : fs p = some d) :
    writeFile fs p n c = fs.set p (d.write n c) := by
  unfold writeFile
  rw [h]

theorem writeFile_none {fs : FileSystem} {p n c : List Char} (h : fs p = none) : writeFile fs p n c = fs := by
  unfold writeFile
  rw [h]

/-- Writing to names in one directory. -/
theorem writeFiles {p : List Char} : ∀ (ws : List (List Char × List Char)) {fs : FileSystem} {d : Dir},
    fs p = some d → ws.foldl (fun fs x => writeFile fs p x.1 x.2) fs p =
      some (ws.foldl (fun d x => d.write x.1 x.2) d) ∧
    ∀ q, q ≠ p → ws.foldl (fun fs x => writeFile fs p x.1 x.2) fs q = fs q
  | [], _, _, h => ⟨h, fun _ _ => rfl⟩
  | x :: ws, fs, d, h => by
    rw [List.foldl_cons, List.foldl_cons, writeFile_some h]
    obtain ⟨h1, h2⟩ := writeFiles ws (fs := fs.set p (d.write x.1 x.2)) (d := d.write x.1 x.2) (if_pos rfl)
    exact ⟨h1, fun q hq => (h2 q hq).trans (if_neg hq)⟩

theorem writeFiles_none {p : List Char} : ∀ (ws : List (List Char × List Char)) {fs : FileSystem},
    fs p = none → ws.foldl (fun fs x => writeFile fs p x.1 x.2) fs = fs
  | [], _, _ => rfl
  | x :: ws, fs, h => by
    rw [List.foldl_cons, writeFile_none h]
    exact writeFiles_none ws h

/-! ### The course of a run -/

/-- The files that a merge of `st` and `rc` writes for the path `output`. -/
def outputPlan (w : World) (output st rc : List Char) : Plan :=
  ⟨(w.locate output).1, [((w.locate output).2 ++ storeExtension, st), ((w.locate output).2 ++ recordExtension, rc)], 0⟩

theorem plan_asks {w : World} {o : Options} {d : Dir} {output : List Char} (h : Asks w o d output) :
    plan w o = merge d >>= fun out => match out.written with
      | none => pure (.stop out.exitCode)
      | some (store, record) => pure ⟨(w.locate output).1, [((w.locate output).2 ++ storeExtension, store),
          ((w.locate output).2 ++ recordExtension, record)], out.exitCode⟩ := by
  obtain ⟨h1, h2, input, dir, h3, h4, h5⟩ := h
  unfold plan
  rw [if_neg (by simp [h1]), h3, h2]
  simp only
  rw [h4]
  simp only
  rw [h5]
  rfl

/-- All ways in which `plan` ends. -/
theorem plan_ok {w : World} {o : Options} {p : Plan} (h : plan w o = .ok p) :
    (o.help = true ∧ p = .stop 0) ∨
    (o.help = false ∧ (¬ ∃ d output, Asks w o d output) ∧ p = .stop 1) ∨
    (∃ d output, Asks w o d output ∧ StoreMissing d ∧ p = .stop 1) ∨
    ∃ d output st rc, Asks w o d output ∧ ¬ StoreMissing d ∧ merge d = .ok ⟨0, some (st, rc)⟩ ∧
      p = outputPlan w output st rc := by
  by_cases ha : ∃ d output, Asks w o d output
  · right; right
    obtain ⟨d, output, ha⟩ := ha
    rw [plan_asks ha] at h
    obtain ⟨out, h1, h2⟩ := Res.bind_eq_ok.1 h
    obtain ⟨h3, h4⟩ := C33_missing_store h1
    by_cases hs : StoreMissing d
    · rw [h3 hs] at h2
      exact Or.inl ⟨d, output, ha, hs, (Res.ok.inj h2).symm⟩
    · obtain ⟨h5, h6⟩ := h4 hs
      obtain ⟨c, wr⟩ := out
      cases wr with
      | none => exact absurd rfl h6
      | some x =>
        obtain ⟨st, rc⟩ := x
        obtain rfl : c = 0 := h5
        exact Or.inr ⟨d, output, st, rc, ha, hs, h1, (Res.ok.inj h2).symm⟩
  · cases hh : o.help with
    | true =>
      unfold plan at h
      rw [if_pos hh] at h
      exact Or.inl ⟨rfl, (Res.ok.inj h).symm⟩
    | false =>
      refine Or.inr (Or.inl ⟨rfl, ha, ?_⟩)
      unfold plan at h
      rw [if_neg (by simp [hh])] at h
      split at h
      · exact (Res.ok.inj h).symm
      · rename_i input hi
        split at h
        · exact (Res.ok.inj h).symm
        · rename_i output ho
          split at h
          · exact (Res.ok.inj h).symm
          · exact (Res.ok.inj h).symm
          · rename_i dir hk
            split at h
            · cases h
            · rename_i d hd
              exact absurd ⟨d, output, hh, ho, input, dir, hi, hk, hd⟩ ha

theorem main_ok {w : World} {o : Options} {fs : FileSystem} {c : Nat} (h : main w o = .ok (fs, c)) :
    ∃ p, plan w o = .ok p ∧ fs = p.writes.foldl (fun fs x => writeFile fs p.dir x.1 x.2) w.fs ∧ c = p.exitCode := by
  obtain ⟨p, h1, h2⟩ := Res.bind_eq_ok.1 h
  have h3 := Res.ok.inj h2
  exact ⟨p, h1, (congrArg Prod.fst h3).symm, (congrArg Prod.snd h3).symm⟩

theorem main_of_plan {w : World} {o : Options} {p : Plan} (h : plan w o = .ok p) :
    main w o = .ok (p.writes.foldl (fun fs x => writeFile fs p.dir x.1 x.2) w.fs, p.exitCode) := by
  unfold main
  rw [h]
  rfl

/-! ### C56 -/

/-- C56: a run for the help text writes nothing and returns 0. -/
theorem C56_help {w : World} {o : Options} (h : o.help = true) : main w o = .ok (w.fs, 0) := by
  unfold main plan
  rw [if_pos h]
  rfl

/-- C56: a run that ends returns 0 exactly if it is for the help text, or if both options are given, the input is a
directory and no record in it is without store.  Otherwise it returns 1 and writes nothing. -/
theorem C56_exit {w : World} {o : Options} {fs : FileSystem} {c : Nat} (h : main w o = .ok (fs, c)) :
    (c = 0 ↔ o.help = true ∨ ∃ d output, Asks w o d output ∧ ¬ StoreMissing d) ∧ (c ≠ 0 → c = 1 ∧ fs = w.fs) := by
  obtain ⟨p, h1, rfl, rfl⟩ := main_ok h
  have uniq : ∀ {d d' output output'}, Asks w o d output → Asks w o d' output' → d = d' := by
    rintro d d' output output' ⟨_, _, i, r, a1, a2, a3⟩ ⟨_, _, i', r', b1, b2, b3⟩
    obtain rfl : i = i' := Option.some.inj (a1.symm.trans b1)
    obtain rfl : r = r' := PathKind.directory.inj (a2.symm.trans b2)
    exact Option.some.inj (a3.symm.trans b3)
  rcases plan_ok h1 with ⟨h2, rfl⟩ | ⟨h2, h3, rfl⟩ | ⟨d, output, h2, h3, rfl⟩ | ⟨d, output, st, rc, h2, h3, h4, rfl⟩
  · exact ⟨⟨fun _ => Or.inl h2, fun _ => rfl⟩, fun h => absurd rfl h⟩
  · refine ⟨⟨fun h => absurd h (by simp [Plan.stop]), ?_⟩, fun _ => ⟨rfl, rfl⟩⟩
    rintro (h | ⟨d, output, h, _⟩)
    · exact absurd h (by simp [h2])
    · exact absurd ⟨d, output, h⟩ h3
  · refine ⟨⟨fun h => absurd h (by simp [Plan.stop]), ?_⟩, fun _ => ⟨rfl, rfl⟩⟩
    rintro (h | ⟨d', output', h, h'⟩)
    · exact absurd h (by simp [h2.1])
    · exact absurd (uniq h2 h ▸ h3) h'
  · exact ⟨⟨fun _ => Or.inr ⟨d, output, h2, h3⟩, fun _ => rfl⟩, fun h => absurd rfl h⟩

/-- C56: the only files that a run changes are the two output files. -/
theorem C56_frame {w : World} {o : Options} {fs : FileSystem} {c : Nat} (h : main w o = .ok (fs, c)) (q : List Char) :
    (w.fs q = none ↔ fs q = none) ∧ ∀ d d', w.fs q = some d → fs q = some d' → ∀ n,
      (∀ output, o.outputFile = some output → q = (w.locate output).1 →
        n ≠ (w.locate output).2 ++ ".hycu_store".toList ∧ n ≠ (w.locate output).2 ++ ".hycu_record".toList) →
      Dir.lookup d' n = Dir.lookup d n := by
  obtain ⟨p, h1, rfl, rfl⟩ := main_ok h
  have same : ∀ {fs : FileSystem}, fs q = w.fs q → (w.fs q = none ↔ fs q = none) ∧
      ∀ d d', w.fs q = some d → fs q = some d' → ∀ n,
      (∀ output, o.outputFile = some output → q = (w.locate output).1 →
        n ≠ (w.locate output).2 ++ ".hycu_store".toList ∧ n ≠ (w.locate output).2 ++ ".hycu_record".toList) →
      Dir.lookup d' n = Dir.lookup d n := by
    intro fs hfs
    rw [hfs]
    refine ⟨Iff.rfl, fun d d' hd hd' n _ => ?_⟩
    obtain rfl : d = d' := Option.some.inj (hd.symm.trans hd')
    rfl
  rcases plan_ok h1 with ⟨_, rfl⟩ | ⟨_, _, rfl⟩ | ⟨_, _, _, _, rfl⟩ | ⟨d0, output, st, rc, h2, h3, h4, rfl⟩
  · exact same rfl
  · exact same rfl
  · exact same rfl
  · cases hd : w.fs (w.locate output).1 with
    | none =>
      apply same
      exact congrFun (writeFiles_none (outputPlan w output st rc).writes (p := (w.locate output).1) hd) q
    | some d1 =>
      obtain ⟨h5, h6⟩ := writeFiles (p := (outputPlan w output st rc).dir) (outputPlan w output st rc).writes hd
      by_cases hq : q = (w.locate output).1
      · subst hq
        refine ⟨by rw [hd]; erw [h5]; simp, ?_⟩
        intro d d' hd2 hd' n hn
        obtain ⟨hn1, hn2⟩ := hn output h2.2.1 rfl
        obtain rfl := Option.some.inj (h5.symm.trans hd')
        obtain rfl : d1 = d := Option.some.inj (hd.symm.trans hd2)
        exact (Dir.lookup_write_ne (Ne.symm hn2) _).trans (Dir.lookup_write_ne (Ne.symm hn1) _)
      · exact same (h6 q hq)

/-- C56: if the input directory holds pairs of record and store files and the output files can be written, the run
returns 0, and afterwards the output files are the store with the sums of all counts and the record with all blocks. -/
theorem C56_merges {w : World} {o : Options} {d d' : Dir} {output : List Char} {ps : List (OSet Block × StoreMap)}
    (ha : Asks w o d output) (hd : d.Holds ps) (hd' : w.fs (w.locate output).1 = some d')
    (hst : Writable d' ((w.locate output).2 ++ ".hycu_store".toList))
    (hrc : Writable d' ((w.locate output).2 ++ ".hycu_record".toList)) :
    ∃ fs d'' r m, main w o = .ok (fs, 0) ∧ fs (w.locate output).1 = some d'' ∧
      Dir.lookup d'' ((w.locate output).2 ++ ".hycu_store".toList) = some (.file (Store.print m)) ∧
      Dir.lookup d'' ((w.locate output).2 ++ ".hycu_record".toList) = some (.file (Record.print r)) ∧
      OMap.Sorted m ∧
      (∀ k z, (k, z) ∈ m ↔ (∃ p ∈ ps, ∃ w, (k, w) ∈ p.2) ∧ z = (ps.map fun p => total p.2 k).sum) ∧
      (∀ b, b ≠ [] → (b ∈ r ↔ ∃ p ∈ ps, b ∈ p.1)) := by
  obtain ⟨r, m, h1, h2, _, h3, h4⟩ := C32_merge hd
  have hp : plan w o = .ok (outputPlan w output (Store.print m) (Record.print r)) := by
    rw [plan_asks ha, h1]
    rfl
  obtain ⟨h5, h6⟩ := writeFiles (outputPlan w output (Store.print m) (Record.print r)).writes hd'
  refine ⟨_, _, r, m, main_of_plan hp, h5, ?_, ?_, h2, h3, h4⟩
  · exact (Dir.lookup_write_ne (record_ne_store _ _) _).trans (Dir.lookup_write _ hst)
  · apply Dir.lookup_write
    intro e he
    exact hrc e ((Dir.lookup_write_ne (record_ne_store _ _).symm _).symm.trans he)

/-- C56: if a store is missing and the other files can be read, the run does end, with exit code 1 and no file
changed. -/
theorem C56_fails {w : World} {o : Options} {d : Dir} {output : List Char} (ha : Asks w o d output) (hd : Readable d)
    (h : StoreMissing d) : main w o = .ok (w.fs, 1) := by
  have hp : plan w o = .ok (.stop 1) := by
    rw [plan_asks ha, C33_fails hd h]
    rfl
  exact main_of_plan hp

/-- C56: success does not mean that something has been written: if the directory of the output files does not exist,
the run returns 0 nevertheless, and nothing changes. -/
theorem C56_unwritable {w : World} {o : Options} {d : Dir} {output : List Char} {ps : List (OSet Block × StoreMap)}
    (ha : Asks w o d output) (hd : d.Holds ps) (hd' : w.fs (w.locate output).1 = none) :
    main w o = .ok (w.fs, 0) := by
  obtain ⟨r, m, h1, _⟩ := C32_merge hd
  have hp : plan w o = .ok (outputPlan w output (Store.print m) (Record.print r)) := by
    rw [plan_asks ha, h1]
    rfl
  rw [main_of_plan hp, outputPlan, writeFiles_none _ hd']

/-! ### Interrupted runs -/

theorem isRecordFile_storeFile (s : List Char) (c : FileEntry) : isRecordFile (s ++ storeExtension, c) = false := by
  unfold isRecordFile
  simp only [Bool.and_eq_false_imp, decide_eq_false_iff_not]
  intro _ h
  rw [Dir.extension_store] at h
  exact absurd h (by decide)

/-- A store file without record changes nothing, whatever its name. -/
theorem storeFile_append {d : Dir} {s : List Char} (h : Free d s) (c : FileEntry) :
    merge (d ++ [(s ++ storeExtension, c)]) = merge d ∧
    initialRecord (d ++ [(s ++ storeExtension, c)]) = initialRecord d := by
  have hne : ∀ e ∈ d, isRecordFile e = true → s ++ storeExtension ≠ e.1 ∧
      s ++ storeExtension ≠ Dir.replaceExtension e.1 storeExtension := by
    intro e he hr
    refine ⟨(h e he).2.symm, fun hc => ?_⟩
    unfold isRecordFile at hr
    simp only [Bool.and_eq_true, decide_eq_true_eq] at hr
    have h1 : s ++ storeExtension = Dir.stem e.1 ++ storeExtension := hc
    have h2 : s = Dir.stem e.1 := List.append_cancel_right h1
    refine (h e he).1 ?_
    rw [Dir.eq_of_extension hr.2, ← h2]
    rfl
  constructor
  · unfold merge
    suffices h : mergeLoop (d ++ [(s ++ storeExtension, c)]) (d ++ [(s ++ storeExtension, c)]) [] [] =
        mergeLoop d d [] [] by rw [h]
    rw [← mergeLoop_filter (d ++ _), List.filter_append, List.filter_cons_of_neg (by simp [isRecordFile_storeFile]),
      List.filter_nil, List.append_nil, mergeLoop_filter]
    apply mergeLoop_congr
    intro e he hr
    exact ⟨Dir.lookup_append_of_ne (hne e he hr).1, Dir.lookup_append_of_ne (hne e he hr).2⟩
  · have key : ∀ (es : List (List Char × FileEntry)) (r : OSet Block), (∀ e ∈ es, e ∈ d) →
        es.foldlM (readRecord (d ++ [(s ++ storeExtension, c)])) r = es.foldlM (readRecord d) r := by
      intro es
      induction es with
      | nil => intro r _; rfl
      | cons e es ih =>
        intro r hes
        rw [List.foldlM_cons, List.foldlM_cons]
        have : readRecord (d ++ [(s ++ storeExtension, c)]) r e = readRecord d r e := by
          unfold readRecord
          split
          · rename_i hr
            unfold Dir.openIn
            rw [Dir.lookup_append_of_ne (hne e (hes e (by simp)) hr).1]
          · rfl
        rw [this]
        congr 1
        funext r
        exact ih r fun e he => hes e (by simp [he])
    unfold initialRecord
    rw [List.foldlM_append, key d [] fun e he => he]
    have : ∀ r, [(s ++ storeExtension, c)].foldlM (readRecord (d ++ [(s ++ storeExtension, c)])) r = Res.ok r := by
      intro r
      rw [List.foldlM_cons, readRecord, if_neg (by simp [isRecordFile_storeFile])]
      rfl
    cases d.foldlM (readRecord d) [] with
    | ok r => exact this r
    | ub => rfl
    | abort => rfl
    | diverge => rfl

/-- C56: if the merger dies while it writes, but not inside the write of the record file, and its output files are new,
then either both files are complete, or a later merge of the directory of the output files, and the blocks that count as
done there, are the same as before. -/
theorem C56_crash {w : World} {o : Options} {p : Plan} {d d' : Dir} {output : List Char} (hp : plan w o = .ok p)
    (ho : o.outputFile = some output) (hd : w.fs (w.locate output).1 = some d) (hs : Free d (w.locate output).2)
    (hc : Dir.Crash p.writes d d') :
    (merge d' = merge d ∧ initialRecord d' = initialRecord d) ∨
      ∃ fs, main w o = .ok (fs, 0) ∧ fs (w.locate output).1 = some d' := by
  have stop : ∀ c, p = .stop c → d' = d := by
    rintro c rfl
    cases hc
    rfl
  rcases plan_ok hp with ⟨_, h⟩ | ⟨_, _, h⟩ | ⟨_, _, _, _, h⟩ | ⟨d0, output', st, rc, h2, h3, h4, h⟩
  · rw [stop _ h]
    exact Or.inl ⟨rfl, rfl⟩
  · rw [stop _ h]
    exact Or.inl ⟨rfl, rfl⟩
  · rw [stop _ h]
    exact Or.inl ⟨rfl, rfl⟩
  · obtain rfl : output = output' := Option.some.inj (ho.symm.trans h2.2.1)
    subst h
    have key : ∀ part, (merge (d.write ((w.locate output).2 ++ storeExtension) part) = merge d ∧
        initialRecord (d.write ((w.locate output).2 ++ storeExtension) part) = initialRecord d) := by
      intro part
      rw [Dir.write_new (n := (w.locate output).2 ++ storeExtension) fun e he => (hs e he).2]
      exact storeFile_append hs _
    unfold outputPlan at hc
    cases hc with
    | stop => exact Or.inl ⟨rfl, rfl⟩
    | inside _ _ part => exact Or.inl (key part)
    | step _ _ _ _ _ h =>
      cases h with
      | stop => exact Or.inl (key st)
      | inside _ _ part _ _ _ hn => exact absurd ⟨_, rfl⟩ hn
      | step _ _ _ _ _ h =>
        cases h with
        | stop => exact Or.inr ⟨_, main_of_plan hp, (writeFiles _ hd).1⟩

/-! ### Output files in the input directory -/

theorem times_keys (n : Nat) (m : StoreMap) : (times n m).map Prod.fst = m.map Prod.fst := by
  unfold times
  rw [List.map_map]
  rfl

theorem sorted_times {m : StoreMap} (h : OMap.Sorted m) (n : Nat) : OMap.Sorted (times n m) := by
  unfold times OMap.Sorted
  exact List.pairwise_map.2 h

theorem total_times (n : Nat) (m : StoreMap) (k : Key) : total (times n m) k = n * total m k := by
  induction m with
  | nil => simp [times, total]
  | cons e m ih =>
    rw [show times n (e :: m) = (e.1, (n : Int) * e.2) :: times n m from rfl, total_cons, total_cons, ih]
    split
    · ring
    · simp

/-- A pair next to the files of a directory. -/
theorem holds_pair {d : Dir} {ps : List (OSet Block × StoreMap)} (h : d.Holds ps) {s : List Char} (hs : Free d s)
    {p : OSet Block × StoreMap} (hp : PairOk p) :
    Dir.Holds (d ++ [(s ++ storeExtension, .file (Store.print p.2)), (s ++ recordExtension, .file (Record.print p.1))])
      (ps ++ [p]) := by
  refine ⟨?_, ?_, ?_⟩
  · unfold Dir.NamesDiffer
    rw [List.map_append, List.nodup_append]
    refine ⟨h.names, ?_, ?_⟩
    · simp only [List.map_cons, List.map_nil, List.nodup_cons, List.mem_singleton, List.not_mem_nil,
        not_false_eq_true, List.nodup_nil, and_true]
      exact (record_ne_store s s).symm
    · intro a ha b hb
      obtain ⟨e, he, rfl⟩ := List.mem_map.1 ha
      simp only [List.map_cons, List.map_nil, List.mem_cons, List.not_mem_nil, or_false] at hb
      rcases hb with rfl | rfl
      · exact (hs e he).2
      · exact (hs e he).1
  · have hr : isRecordFile (s ++ recordExtension, .file (Record.print p.1)) = true := by
      unfold isRecordFile
      simp only [Bool.and_eq_true, decide_eq_true_eq]
      exact ⟨rfl, Dir.extension_record _⟩
    rw [List.filter_append, List.filter_cons_of_neg (by simp [isRecordFile_storeFile]), List.filter_cons_of_pos hr,
      List.filter_nil]
    refine List.rel_append (h.files.imp fun e q hq => ⟨hq.1, List.mem_append_left _ hq.2⟩) (.cons ⟨rfl, ?_⟩ .nil)
    simp only
    rw [Dir.replace_record]
    exact List.mem_append_right _ (by simp)
  · intro q hq
    rcases List.mem_append.1 hq with hq | hq
    · exact h.pairs q hq
    · rw [List.mem_singleton.1 hq]
      exact hp

/-- Merging some pairs with a multiple of their merge. -/
theorem isMerge_times {ps : List (OSet Block × StoreMap)} {r : OSet Block} {m : StoreMap} (h : IsMerge ps (r, m))
    (n : Nat) : IsMerge (ps ++ [(r, times n m)]) (r, times (n + 1) m) := by
  have hor : ∀ Q : OSet Block × StoreMap → Prop, (∃ q ∈ ps ++ [(r, times n m)], Q q) ↔ (∃ q ∈ ps, Q q) ∨ Q (r, times n m) := by
    intro Q
    simp only [List.mem_append, List.mem_singleton, or_and_right, exists_or, exists_eq_left]
  refine ⟨⟨h.union.sorted, fun b hb => ?_, ?_⟩, ?_⟩
  · rw [hor, ← h.union.mem b hb]
    exact ⟨Or.inl, fun h => h.elim id id⟩
  · rw [hor, ← h.union.empty]
    refine ⟨Or.inl, fun h' => h'.elim id fun hne => ?_⟩
    obtain ⟨b, hb⟩ := List.exists_mem_of_ne_nil _ hne
    by_cases hb0 : b = []
    · exact hb0 ▸ hb
    · obtain ⟨p, hp, hbp⟩ := (h.union.mem b hb0).1 hb
      exact h.union.empty.2 ⟨p, hp, List.ne_nil_of_mem hbp⟩
  · refine (Tally.self (sorted_times h.sum.sorted (n + 1))).congr (fun k => ?_) fun k => ?_
    · rw [times_keys, List.flatMap_append, List.flatMap_singleton, List.map_append, List.mem_append, times_keys,
        h.sum.mem_keys]
      exact ⟨Or.inl, fun h => h.elim id id⟩
    · rw [total_times, List.flatMap_append, List.flatMap_singleton, total_append, total_times, h.sum.total_eq]
      push_cast
      ring

theorem small_times {n k : Nat} (h : n ≤ k) {z : Int} (hz : Small ((k : Int) * z)) : Small ((n : Int) * z) := by
  obtain ⟨h1, h2⟩ := hz
  have hn : (n : Int) ≤ k := by exact_mod_cast h
  have h0 : (0 : Int) ≤ n := Int.natCast_nonneg n
  unfold Small
  rcases le_total 0 z with h3 | h3
  · exact ⟨by nlinarith, by nlinarith⟩
  · exact ⟨by nlinarith, by nlinarith⟩

/-- C56: if the output files are in the input directory, the merger counts its own results again in the next run: after
`n` runs of the same command, the counts in the output are `n` times the counts of the directory, while the record is
that of a single run.  (As long as the counts are small numbers of FLINT.) -/
theorem C56_again {w : World} {o : Options} {input output dir s : List Char} {d : Dir}
    {ps : List (OSet Block × StoreMap)} (hh : o.help = false) (hi : o.inputPath = some input)
    (ho : o.outputFile = some output) (hk : w.kind input = .directory dir) (hl : w.locate output = (dir, s))
    (hd : w.fs dir = some d) (hps : d.Holds ps) (hs : Free d s) :
    ∃ r m, IsMerge ps (r, m) ∧ ∀ n : Nat, 1 ≤ n → (∀ e ∈ m, Small ((n : Int) * e.2)) →
      ∃ w' d', Runs o n w w' ∧ w'.fs dir = some d' ∧
        Dir.lookup d' (s ++ ".hycu_store".toList) = some (.file (Store.print (times n m))) ∧
        Dir.lookup d' (s ++ ".hycu_record".toList) = some (.file (Record.print r)) := by
  obtain ⟨⟨r, m⟩, h1, h2⟩ := merge_holds hps
  refine ⟨r, m, h2, fun n hn hsm => ?_⟩
  have pairOk : ∀ n : Nat, (∀ e ∈ m, Small ((n : Int) * e.2)) → PairOk (r, times n m) := by
    intro n hsm
    refine ⟨h2.union.sorted, fun b hb => ?_, sorted_times h2.sum.sorted n, ?_, ?_⟩
    · by_cases hb0 : b = []
      · rw [hb0]
        simp
      · obtain ⟨p, hp, hbp⟩ := (h2.union.mem b hb0).1 hb
        exact (hps.pairs p hp).blocks_fit b hbp
    · intro e he
      have h3 : e.1 ∈ (times n m).map Prod.fst := List.mem_map.2 ⟨e, he, rfl⟩
      rw [times_keys, h2.sum.mem_keys] at h3
      obtain ⟨e', he', h4⟩ := List.mem_map.1 h3
      obtain ⟨p, hp, hep⟩ := List.mem_flatMap.1 he'
      rw [← h4]
      exact (hps.pairs p hp).keys_fit e' hep
    · intro e he
      obtain ⟨e', he', rfl⟩ := List.mem_map.1 he
      exact hsm e' he'
  have hdiff := record_ne_store s s
  have hs1 : ∀ e ∈ d, e.1 ≠ s ++ storeExtension := fun e he => (hs e he).2
  have hs2 : ∀ e ∈ d, e.1 ≠ s ++ recordExtension := fun e he => (hs e he).1
  have key : ∀ n : Nat, (∀ e ∈ m, Small ((n : Int) * e.2)) → ∃ w', Runs o (n + 1) w w' ∧ w'.kind = w.kind ∧
      w'.locate = w.locate ∧ w'.fs dir = some (d ++ [(s ++ storeExtension, .file (Store.print (times (n + 1) m))),
        (s ++ recordExtension, .file (Record.print r))]) := by
    intro n
    induction n with
    | zero =>
      intro _
      have ha : Asks w o d output := ⟨hh, ho, input, dir, hi, hk, hd⟩
      have hp : plan w o = .ok (outputPlan w output (Store.print m) (Record.print r)) := by
        rw [plan_asks ha, h1]
        rfl
      refine ⟨_, .snoc (.nil w) (main_of_plan hp), rfl, rfl, ?_⟩
      rw [show dir = (w.locate output).1 by rw [hl]] at hd
      have h3 := (writeFiles (outputPlan w output (Store.print m) (Record.print r)).writes hd).1
      have h4 : times 1 m = m := by simp [times]
      rw [outputPlan, hl] at h3
      simp only
      rw [outputPlan, hl]
      refine h3.trans ?_
      rw [List.foldl_cons, List.foldl_cons, List.foldl_nil, Dir.write_new hs1, Dir.write_append hs2, Dir.write_new, h4]
      · rfl
      · intro e he
        rw [List.mem_singleton.1 he]
        exact hdiff.symm
    | succ n ih =>
      intro hsm'
      obtain ⟨w', h3, h4, h5, h6⟩ := ih fun e he => small_times (Nat.le_succ n) (hsm' e he)
      have ha : Asks w' o _ output := ⟨hh, ho, input, dir, hi, h4 ▸ hk, h6⟩
      obtain ⟨o', h7, h8⟩ := merge_holds (holds_pair hps hs (pairOk (n + 1) hsm'))
      obtain rfl := h8.unique (isMerge_times h2 (n + 1)) (List.Perm.refl _)
      have hp : plan w' o = .ok (outputPlan w' output (Store.print (times (n + 2) m)) (Record.print r)) := by
        rw [plan_asks ha, h7]
        rfl
      refine ⟨_, .snoc h3 (main_of_plan hp), h4, h5, ?_⟩
      have hl' : w'.locate output = (dir, s) := by rw [h5, hl]
      rw [show dir = (w'.locate output).1 by rw [hl']] at h6
      have h9 := (writeFiles (outputPlan w' output (Store.print (times (n + 2) m)) (Record.print r)).writes h6).1
      rw [outputPlan, hl'] at h9
      simp only
      rw [outputPlan, hl']
      refine h9.trans ?_
      rw [List.foldl_cons, List.foldl_cons, List.foldl_nil, Dir.write_append hs1, Dir.write_append hs2]
      simp only [Dir.write, if_true, if_neg hdiff.symm]
  obtain ⟨n, rfl⟩ : ∃ k, n = k + 1 := ⟨n - 1, by omega⟩
  obtain ⟨w', h3, _, _, h4⟩ := key n fun e he => small_times (Nat.le_succ n) (hsm e he)
  have hnd := (holds_pair hps hs (pairOk (n + 1) hsm)).names
  have h5 : Dir.lookup _ (s ++ storeExtension) = some (.file (Store.print (times (n + 1) m))) :=
    Dir.lookup_of_mem hnd (e := (s ++ storeExtension, .file (Store.print (times (n + 1) m))))
      (List.mem_append_right _ (List.mem_cons_self ..))
  have h6 : Dir.lookup _ (s ++ recordExtension) = some (.file (Record.print r)) :=
    Dir.lookup_of_mem hnd (e := (s ++ recordExtension, .file (Record.print r)))
      (List.mem_append_right _ (List.mem_cons_of_mem _ (List.mem_cons_self ..)))
  exact ⟨w', _, h3, h4, h5, h6⟩

/-! ### Examples -/

/-- A file system with the directory of the examples for C32, an empty directory `/out` and a file `/f`. -/
def exampleWorld : World where
  fs p := if p = "/in".toList then some exampleDir else if p = "/out".toList then some [] else none
  kind p := if p = "/in".toList ∨ p = "/out".toList then .directory p else if p = "/f".toList then .other else .missing
  locate p := if p = "/in/all".toList then ("/in".toList, "all".toList)
    else if p = "/out/all".toList then ("/out".toList, "all".toList) else ("/no".toList, "all".toList)

/-- Hypotheses of `C56_merges`. -/
example : Asks exampleWorld ⟨false, some "/in".toList, some "/out/all".toList⟩ exampleDir "/out/all".toList ∧
    exampleWorld.fs (exampleWorld.locate "/out/all".toList).1 = some [] ∧
    Writable [] ((exampleWorld.locate "/out/all".toList).2 ++ ".hycu_store".toList) :=
  ⟨⟨rfl, rfl, "/in".toList, "/in".toList, rfl, by decide, by decide⟩, by decide, fun _ h => by cases h⟩

/-- The files that this run writes. -/
example : (main exampleWorld ⟨false, some "/in".toList, some "/out/all".toList⟩ >>= fun x => pure (x.2, x.1 "/out".toList)) =
    .ok (0, some [("all.hycu_store".toList, .file "1,1,2;-3,0:7\n1,1,2;0,5:16\n".toList),
      ("all.hycu_record".toList, .file "\n0 1 2 5 \n1 2 2 5 \n".toList)]) := by decide

/-- Runs that fail. -/
example : (main exampleWorld ⟨false, none, some "/out/all".toList⟩ >>= fun x => pure x.2) = .ok 1 ∧
    (main exampleWorld ⟨false, some "/in".toList, none⟩ >>= fun x => pure x.2) = .ok 1 ∧
    (main exampleWorld ⟨false, some "/x".toList, some "/out/all".toList⟩ >>= fun x => pure x.2) = .ok 1 ∧
    (main exampleWorld ⟨false, some "/f".toList, some "/out/all".toList⟩ >>= fun x => pure x.2) = .ok 1 := by decide

/-- Hypotheses of `C56_unwritable`. -/
example : exampleWorld.fs (exampleWorld.locate "/no/all".toList).1 = none := by decide

/-- Hypotheses of `C56_again` and `C56_crash`. -/
example : exampleWorld.kind "/in".toList = .directory "/in".toList ∧
    exampleWorld.locate "/in/all".toList = ("/in".toList, "all".toList) ∧
    exampleWorld.fs "/in".toList = some exampleDir ∧ Free exampleDir "all".toList :=
  ⟨by decide, by decide, by decide, by unfold Free; decide⟩

/-- The second of two runs with the output files in the input directory. -/
example : (do
    let (fs, c) ← main exampleWorld ⟨false, some "/in".toList, some "/in/all".toList⟩
    let (fs', c') ← main { exampleWorld with fs := fs } ⟨false, some "/in".toList, some "/in/all".toList⟩
    pure (c, c', (fs' "/in".toList).bind fun d => Dir.lookup d "all.hycu_store".toList)) =
    Res.ok (0, 0, some (.file "1,1,2;-3,0:14\n1,1,2;0,5:32\n".toList)) := by decide

end Merger
end Hycu
