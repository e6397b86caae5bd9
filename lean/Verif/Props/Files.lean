import Verif.Lemmas.Directory

/-!
Properties C32-C34: merging result files, and interrupted saves.
-/

namespace Hycu

/-! ### C32 -/

theorem merge_holds {d : Dir} {ps : List (OSet Block × StoreMap)} (h : d.Holds ps) :
    ∃ o, Merger.merge d = .ok (mergeOutput o) ∧ IsMerge ps o := by
  obtain ⟨r, m, h1, h2, h3⟩ := Merger.mergeLoop_holds h.names d ps [] [] [] (fun e he => he) h.files h.pairs
    ⟨List.Pairwise.nil, by simp, by simp⟩ Tally.nil
  refine ⟨(r, m), ?_, h2, h3⟩
  unfold Merger.merge
  rw [h1]
  rfl

/-- The merge of given pairs is unique. -/
theorem IsMerge.unique {ps ps' : List (OSet Block × StoreMap)} {o o' : OSet Block × StoreMap} (h : IsMerge ps o)
    (h' : IsMerge ps' o') (hp : ps.Perm ps') : o = o' :=
  Prod.ext ((h.union.perm hp).unique h'.union (fun _ _ => Iff.rfl) Iff.rfl)
    (h.sum.unique h'.sum (hp.flatMap_right _))

/-- C32: the merger succeeds on a directory of matching files; the store file that it writes has at every key the
sum of the counts of the input files, and entries for the keys in these files only, and the record file that it
writes has the blocks of the input files (and the empty block). -/
theorem C32_merge {d : Dir} {ps : List (OSet Block × StoreMap)} (h : d.Holds ps) :
    ∃ r m, Merger.merge d = .ok ⟨0, some (Store.print m, Record.print r)⟩ ∧
      OMap.Sorted m ∧ OSet.Sorted r ∧
      (∀ k z, (k, z) ∈ m ↔ (∃ p ∈ ps, ∃ w, (k, w) ∈ p.2) ∧ z = (ps.map fun p => total p.2 k).sum) ∧
      (∀ b, b ≠ [] → (b ∈ r ↔ ∃ p ∈ ps, b ∈ p.1)) := by
  obtain ⟨o, h1, h2⟩ := merge_holds h
  refine ⟨o.1, o.2, h1, h2.sum.sorted, h2.union.sorted, fun k z => ?_, h2.union.mem⟩
  rw [h2.sum.entry k z, List.flatMap_def, total_flatten, List.map_map]
  refine and_congr ?_ Iff.rfl
  constructor
  · intro hk
    obtain ⟨e, he, rfl⟩ := List.mem_map.1 hk
    obtain ⟨l, hl, he⟩ := List.mem_flatten.1 he
    obtain ⟨p, hp, rfl⟩ := List.mem_map.1 hl
    exact ⟨p, hp, e.2, he⟩
  · rintro ⟨p, hp, w, hw⟩
    exact List.mem_map.2 ⟨(k, w), List.mem_flatten.2 ⟨p.2, List.mem_map.2 ⟨p, hp, rfl⟩, hw⟩, rfl⟩

/-- C32: the order in which the directory is read does not matter. -/
theorem C32_order {d d' : Dir} {ps : List (OSet Block × StoreMap)} (h : d.Holds ps) (hp : d.Perm d') :
    Merger.merge d' = Merger.merge d := by
  obtain ⟨ps', h1, h2⟩ := h.perm hp
  obtain ⟨o, h3, h4⟩ := merge_holds h
  obtain ⟨o', h5, h6⟩ := merge_holds h2
  rw [h3, h5, h4.unique h6 h1]

/-- C32: merging the files that several merges wrote gives the same files as merging everything at once.  `ds` are
the directories with their content, `D` is a directory with all of the files, and `D'` one with the merged files. -/
theorem C32_nested {ds : List (Dir × List (OSet Block × StoreMap))} (hds : ∀ x ∈ ds, x.1.Holds x.2) :
    ∃ os, List.Forall₂ (fun x o => Merger.merge x.1 = .ok (mergeOutput o)) ds os ∧
      ∀ D D' ps ps', Dir.Holds D ps → ps.Perm (ds.flatMap Prod.snd) → Dir.Holds D' ps' → ps'.Perm os →
        Merger.merge D' = Merger.merge D := by
  have key : ∃ os, List.Forall₂ (fun x o => Merger.merge x.1 = .ok (mergeOutput o) ∧ IsMerge x.2 o) ds os := by
    induction ds with
    | nil => exact ⟨[], .nil⟩
    | cons x ds ih =>
      obtain ⟨os, h⟩ := ih fun x hx => hds x (by simp [hx])
      obtain ⟨o, ho⟩ := merge_holds (hds x (by simp))
      exact ⟨o :: os, .cons ho h⟩
  obtain ⟨os, hos⟩ := key
  refine ⟨os, hos.imp fun _ _ h => h.1, fun D D' ps ps' hD hps hD' hps' => ?_⟩
  have hm : List.Forall₂ (fun x o => IsMerge x.2 o) ds os := hos.imp fun _ _ h => h.2
  obtain ⟨o, h1, h2⟩ := merge_holds hD
  obtain ⟨o', h3, h4⟩ := merge_holds hD'
  rw [h1, h3]
  have h2' : IsMerge (ds.flatMap Prod.snd) o := ⟨h2.union.perm hps, h2.sum.perm (hps.flatMap_right _)⟩
  have h4' : IsMerge os o' := ⟨h4.union.perm hps', h4.sum.perm (hps'.flatMap_right _)⟩
  suffices h : o' = o by rw [h]
  have hmem : ∀ Q : OSet Block × StoreMap → Prop, (∀ x ∈ ds.zip os, Q x.2 ↔ ∃ p ∈ x.1.2, Q p) →
      ((∃ p ∈ os, Q p) ↔ ∃ p ∈ ds.flatMap Prod.snd, Q p) := by
    intro Q
    clear * - hm
    induction hm with
    | nil => simp
    | @cons x o ds os _ _ ih =>
      intro h
      have h1 := h (x, o) (by simp)
      have h2 := ih fun y hy => h y (by simp [hy])
      simp only [List.mem_cons, List.flatMap_cons, List.mem_append, or_and_right, exists_or, exists_eq_left]
      exact or_congr h1 h2
  have hzip : ∀ x ∈ ds.zip os, IsMerge x.1.2 x.2 := by
    clear * - hm
    induction hm with
    | nil => simp
    | cons h _ ih =>
      intro x hx
      rcases List.mem_cons.1 (by simpa using hx) with rfl | hx
      · exact h
      · exact ih x hx
  refine Prod.ext (h4'.union.unique h2'.union (fun b hb => hmem _ fun x hx => (hzip x hx).union.mem b hb)
    (hmem _ fun x hx => ?_)) ?_
  · have hx' := (hzip x hx).union
    constructor
    · intro hne
      obtain ⟨b, hb⟩ := List.exists_mem_of_ne_nil _ hne
      by_cases hb0 : b = []
      · exact hx'.empty.1 (hb0 ▸ hb)
      · obtain ⟨p, hp, hbp⟩ := (hx'.mem b hb0).1 hb
        exact ⟨p, hp, List.ne_nil_of_mem hbp⟩
    · intro h
      exact List.ne_nil_of_mem (hx'.empty.2 h)
  · have htot : ∀ k, total (os.flatMap Prod.snd) k = total ((ds.flatMap Prod.snd).flatMap Prod.snd) k ∧
        (k ∈ (os.flatMap Prod.snd).map Prod.fst ↔ k ∈ ((ds.flatMap Prod.snd).flatMap Prod.snd).map Prod.fst) := by
      intro k
      clear * - hm
      induction hm with
      | nil => exact ⟨rfl, Iff.rfl⟩
      | cons h _ ih =>
        simp only [List.flatMap_cons, List.flatMap_append, List.map_append, List.mem_append, total_append]
        exact ⟨by rw [ih.1, h.sum.total_eq], or_congr (h.sum.mem_keys k) ih.2⟩
    have h5 : Tally o'.2 ((ds.flatMap Prod.snd).flatMap Prod.snd) := by
      refine ⟨h4'.sum.sorted, fun k z => ?_⟩
      rw [h4'.sum.entry, (htot k).1, (htot k).2]
    exact h5.unique h2'.sum (List.Perm.refl _)

/-! ### C33 -/

/-- C33: the merger ignores everything but record files and the store files that belong to them, whatever the
contents: leaving out another entry does not change what it does. -/
theorem C33_ignores {d₁ d₂ : Dir} {e : List Char × FileEntry} (hn : Dir.NamesDiffer (d₁ ++ e :: d₂))
    (he : ¬ (Dir.regular e.2 = true ∧ ∃ s, e.1 = s ++ ".hycu_record".toList))
    (hs : ∀ s c, (s ++ ".hycu_record".toList, c) ∈ d₁ ++ e :: d₂ → Dir.regular c = true →
      e.1 ≠ s ++ ".hycu_store".toList) :
    Merger.merge (d₁ ++ e :: d₂) = Merger.merge (d₁ ++ d₂) := by
  have hrec : FileStore.isRecordFile e = false := by
    by_contra h
    have h : FileStore.isRecordFile e = true := by simpa using h
    unfold FileStore.isRecordFile at h
    simp only [Bool.and_eq_true, decide_eq_true_eq] at h
    exact he ⟨h.1, _, Dir.eq_of_extension h.2⟩
  have hlook : ∀ n, n ≠ e.1 → Dir.lookup (d₁ ++ e :: d₂) n = Dir.lookup (d₁ ++ d₂) n := by
    intro n hne
    clear * - hne
    induction d₁ with
    | nil =>
      rw [List.nil_append, Dir.lookup, if_neg fun h => hne h.symm]
      rfl
    | cons a d₁ ih =>
      rw [List.cons_append, List.cons_append, Dir.lookup, Dir.lookup, ih]
  unfold Merger.merge
  suffices h : Merger.mergeLoop (d₁ ++ e :: d₂) (d₁ ++ e :: d₂) [] [] =
      Merger.mergeLoop (d₁ ++ d₂) (d₁ ++ d₂) [] [] by rw [h]
  rw [← Merger.mergeLoop_filter (d₁ ++ e :: d₂), List.filter_append, List.filter_cons_of_neg (by simp [hrec]),
    ← List.filter_append, Merger.mergeLoop_filter]
  apply Merger.mergeLoop_congr
  intro x hx hxr
  unfold FileStore.isRecordFile at hxr
  simp only [Bool.and_eq_true, decide_eq_true_eq] at hxr
  have hxd : x ∈ d₁ ++ e :: d₂ := by
    rcases List.mem_append.1 hx with h | h
    · exact List.mem_append_left _ h
    · exact List.mem_append_right _ (List.mem_cons_of_mem _ h)
  constructor
  · apply hlook
    intro hxe
    have hp : (d₁ ++ e :: d₂).Perm (e :: (d₁ ++ d₂)) := List.perm_middle
    have := (hp.map Prod.fst).nodup_iff.1 hn
    rw [List.map_cons, List.nodup_cons] at this
    exact this.1 (List.mem_map.2 ⟨x, hx, hxe⟩)
  · apply hlook
    have hx1 := Dir.eq_of_extension hxr.2
    intro hc
    have h1 : Dir.replaceExtension x.1 FileStore.storeExtension = Dir.stem x.1 ++ ".hycu_store".toList := rfl
    exact hs (Dir.stem x.1) x.2 (by rw [← show _ = _ ++ ".hycu_record".toList from hx1]; exact hxd) hxr.1
      (hc.symm.trans h1)

/-- A record file of the directory has no regular store file of the same name. -/
def StoreMissing (d : Dir) : Prop :=
  ∃ s c, (s ++ ".hycu_record".toList, c) ∈ d ∧ Dir.regular c = true ∧
    Dir.isRegularFile d (s ++ ".hycu_store".toList) = false

theorem storeMissing_iff (d : Dir) : StoreMissing d ↔ ∃ e ∈ d, Merger.Missing d e := by
  constructor
  · rintro ⟨s, c, h1, h2, h3⟩
    refine ⟨_, h1, ?_, ?_⟩
    · unfold FileStore.isRecordFile
      simp only [Bool.and_eq_true, decide_eq_true_eq]
      exact ⟨h2, Dir.extension_record s⟩
    · simp only
      rw [show s ++ ".hycu_record".toList = s ++ FileStore.recordExtension from rfl, Dir.replace_record]
      exact h3
  · rintro ⟨e, h1, h2, h3⟩
    unfold FileStore.isRecordFile at h2
    simp only [Bool.and_eq_true, decide_eq_true_eq] at h2
    exact ⟨Dir.stem e.1, e.2, by rw [← show _ = _ ++ ".hycu_record".toList from Dir.eq_of_extension h2.2]; exact h1,
      h2.1, h3⟩

/-- C33: if the merger ends, it reports failure and writes nothing if the store of a record is missing, and
otherwise reports success and writes both files. -/
theorem C33_missing_store {d : Dir} {o : Merger.Output} (h : Merger.merge d = .ok o) :
    (StoreMissing d → o = ⟨1, none⟩) ∧ (¬ StoreMissing d → o.exitCode = 0 ∧ o.written ≠ none) := by
  rw [storeMissing_iff]
  unfold Merger.merge at h
  obtain ⟨x, h1, h2⟩ := Res.bind_eq_ok.1 h
  rw [← Merger.mergeLoop_missing d [] [] x h1]
  cases x with
  | none =>
    obtain rfl := Res.ok.inj h2
    simp
  | some x =>
    obtain rfl := Res.ok.inj h2
    simp

/-- The record files and the store files can be read. -/
structure Readable (d : Dir) : Prop where
  names : d.NamesDiffer
  record : ∀ s c, (s ++ ".hycu_record".toList, c) ∈ d → Dir.regular c = true →
    ∃ r : OSet Block, c = .file (Record.print r) ∧ ∀ b ∈ r, Record.Fits b
  store : ∀ s c, (s ++ ".hycu_store".toList, c) ∈ d → Dir.regular c = true →
    ∃ m : StoreMap, c = .file (Store.print m) ∧ (∀ e ∈ m, e.1.Fits) ∧ ∀ e ∈ m, Small e.2

/-- C33: the merger does end with exit code 1 and writes nothing if a store is missing, provided that the files
which are there can be read. -/
theorem C33_fails {d : Dir} (hd : Readable d) (h : StoreMissing d) : Merger.merge d = .ok ⟨1, none⟩ := by
  have key : ∀ (es : List (List Char × FileEntry)) (r : OSet Block) (m : StoreMap) (l : List (Key × Int)),
      (∀ e ∈ es, e ∈ d) → Tally m l → ∃ o, Merger.mergeLoop d es r m = .ok o := by
    intro es
    induction es with
    | nil => intro r m l _ _; exact ⟨_, rfl⟩
    | cons e es ih =>
      intro r m l hes hm
      unfold Merger.mergeLoop
      have hes' : ∀ e ∈ es, e ∈ d := fun e he => hes e (by simp [he])
      split
      · rename_i he
        unfold FileStore.isRecordFile at he
        simp only [Bool.and_eq_true, decide_eq_true_eq] at he
        have he1 := Dir.eq_of_extension he.2
        simp only
        split
        · rename_i hreg
          obtain ⟨r', hr1, hr2⟩ := hd.record (Dir.stem e.1) e.2
            (by rw [← show _ = _ ++ ".hycu_record".toList from he1]; exact hes e (by simp)) he.1
          unfold Dir.isRegularFile at hreg
          split at hreg
          · rename_i c hc
            obtain ⟨m', hm1, hm2, hm3⟩ := hd.store (Dir.stem e.1) c (Dir.mem_of_lookup hc) hreg
            have ho : Dir.openIn d e.1 = IStream.ofList (Record.print r') := by
              unfold Dir.openIn
              rw [Dir.lookup_of_mem hd.names (hes e (by simp)), hr1]
            have ho' : Dir.openIn d (Dir.replaceExtension e.1 FileStore.storeExtension) =
                IStream.ofList (Store.print m') := by
              unfold Dir.openIn
              rw [hc, hm1]
            obtain ⟨m2, h5, h6⟩ := Store.addEntries_tally m' hm hm3
            rw [ho, ho', Record.extract_print r hr2, Res.bind_ok, Store.extract_print m hm2, h5, Res.bind_ok]
            exact ih _ _ _ hes' h6
          · exact absurd hreg (by simp)
        · exact ⟨_, rfl⟩
      · exact ih r m l hes' hm
  obtain ⟨o, ho⟩ := key d [] [] [] (fun e he => he) Tally.nil
  have h1 := (Merger.mergeLoop_missing d [] [] o ho).2 ((storeMissing_iff d).1 h)
  unfold Merger.merge
  rw [ho, h1]
  rfl

/-! ### C34 -/

theorem Dir.write_new {d : Dir} {n c : List Char} (h : ∀ e ∈ d, e.1 ≠ n) : d.write n c = d ++ [(n, .file c)] := by
  induction d with
  | nil => rfl
  | cons a d ih =>
    obtain ⟨a1, a2⟩ := a
    unfold Dir.write
    rw [if_neg (h (a1, a2) (by simp)), ih fun e he => h e (by simp [he])]
    rfl

theorem Dir.lookup_append_of_ne {d : Dir} {n m : List Char} {c : FileEntry} (h : n ≠ m) :
    Dir.lookup (d ++ [(n, c)]) m = Dir.lookup d m := by
  induction d with
  | nil => exact if_neg h
  | cons a d ih => rw [List.cons_append, Dir.lookup, Dir.lookup, ih]

theorem recordName_ne_storeName (i j : Nat) : FileStore.recordName i ≠ FileStore.storeName j := by
  intro h
  have h1 := Dir.extension_record (showNat i)
  have h2 := Dir.extension_store (showNat j)
  rw [show showNat i ++ FileStore.recordExtension = showNat j ++ FileStore.storeExtension from h, h2] at h1
  exact absurd h1 (by decide)

theorem isRecordFile_store (id : Nat) (c : FileEntry) : FileStore.isRecordFile (FileStore.storeName id, c) = false := by
  unfold FileStore.isRecordFile
  simp only [Bool.and_eq_false_imp, decide_eq_false_iff_not]
  intro _ h
  rw [show FileStore.storeName id = showNat id ++ FileStore.storeExtension from rfl, Dir.extension_store] at h
  exact absurd h (by decide)

/-- A store file without record changes nothing. -/
theorem store_append {d : Dir} {id : Nat} (h : d.Absent id) (c : FileEntry) :
    Merger.merge (d ++ [(FileStore.storeName id, c)]) = Merger.merge d ∧
    FileStore.initialRecord (d ++ [(FileStore.storeName id, c)]) = FileStore.initialRecord d := by
  have hne : ∀ e ∈ d, FileStore.isRecordFile e = true → FileStore.storeName id ≠ e.1 ∧
      FileStore.storeName id ≠ Dir.replaceExtension e.1 FileStore.storeExtension := by
    intro e he hr
    refine ⟨(h e he).2.symm, fun hc => ?_⟩
    unfold FileStore.isRecordFile at hr
    simp only [Bool.and_eq_true, decide_eq_true_eq] at hr
    have h1 : FileStore.storeName id = Dir.stem e.1 ++ FileStore.storeExtension := hc
    have h2 : showNat id = Dir.stem e.1 := List.append_cancel_right h1
    refine (h e he).1 ?_
    rw [Dir.eq_of_extension hr.2, ← h2]
    rfl
  constructor
  · unfold Merger.merge
    suffices h : Merger.mergeLoop (d ++ [(FileStore.storeName id, c)]) (d ++ [(FileStore.storeName id, c)]) [] [] =
        Merger.mergeLoop d d [] [] by rw [h]
    rw [← Merger.mergeLoop_filter (d ++ _), List.filter_append, List.filter_cons_of_neg (by simp [isRecordFile_store]),
      List.filter_nil, List.append_nil, Merger.mergeLoop_filter]
    apply Merger.mergeLoop_congr
    intro e he hr
    exact ⟨Dir.lookup_append_of_ne (hne e he hr).1, Dir.lookup_append_of_ne (hne e he hr).2⟩
  · have key : ∀ (es : List (List Char × FileEntry)) (r : OSet Block), (∀ e ∈ es, e ∈ d) →
        es.foldlM (FileStore.readRecord (d ++ [(FileStore.storeName id, c)])) r =
          es.foldlM (FileStore.readRecord d) r := by
      intro es
      induction es with
      | nil => intro r _; rfl
      | cons e es ih =>
        intro r hes
        rw [List.foldlM_cons, List.foldlM_cons]
        have : FileStore.readRecord (d ++ [(FileStore.storeName id, c)]) r e = FileStore.readRecord d r e := by
          unfold FileStore.readRecord
          split
          · rename_i hr
            unfold Dir.openIn
            rw [Dir.lookup_append_of_ne (hne e (hes e (by simp)) hr).1]
          · rfl
        rw [this]
        congr 1
        funext r
        exact ih r fun e he => hes e (by simp [he])
    unfold FileStore.initialRecord
    rw [List.foldlM_append, key d [] fun e he => he]
    have : ∀ r, [(FileStore.storeName id, c)].foldlM
        (FileStore.readRecord (d ++ [(FileStore.storeName id, c)])) r = Res.ok r := by
      intro r
      rw [List.foldlM_cons, FileStore.readRecord, if_neg (by simp [isRecordFile_store])]
      rfl
    cases d.foldlM (FileStore.readRecord d) [] with
    | ok r => exact this r
    | ub => rfl
    | abort => rfl
    | diverge => rfl

/-- The possible outcomes of an interrupted save. -/
theorem crash_cases {d d' : Dir} {id : Nat} {rs : List Char × List Char}
    (h : Dir.Crash (FileStore.saveWrites id rs) d d') :
    d' = d ∨ (∃ part, d' = d.write (FileStore.storeName id) part) ∨ d' = FileStore.save d id rs := by
  unfold FileStore.saveWrites at h
  cases h with
  | stop => exact Or.inl rfl
  | inside _ _ part => exact Or.inr (Or.inl ⟨part, rfl⟩)
  | step _ _ _ _ _ h =>
    cases h with
    | stop => exact Or.inr (Or.inl ⟨_, rfl⟩)
    | inside _ _ part _ _ _ hn => exact absurd ⟨showNat id, rfl⟩ hn
    | step _ _ _ _ _ h =>
      cases h with
      | stop => exact Or.inr (Or.inr rfl)

/-- C34: if a process dies while it saves, but not inside the write of the record file, then either everything has
been written, or neither the blocks that count as done nor the outcome of merging change, for any content of the
directory. -/
theorem C34_crash {d d' : Dir} {id : Nat} {rs : List Char × List Char} (hid : d.Absent id)
    (h : Dir.Crash (FileStore.saveWrites id rs) d d') :
    (FileStore.initialRecord d' = FileStore.initialRecord d ∧ Merger.merge d' = Merger.merge d) ∨
      d' = FileStore.save d id rs := by
  rcases crash_cases h with rfl | ⟨part, rfl⟩ | h
  · exact Or.inl ⟨rfl, rfl⟩
  · left
    rw [Dir.write_new fun e he => (hid e he).2]
    exact (store_append hid _).symm
  · exact Or.inr h

/-- A complete save adds exactly one record and its store. -/
theorem holds_save {d : Dir} {ps : List (OSet Block × StoreMap)} (h : d.Holds ps) {id : Nat} (hid : d.Absent id)
    {p : OSet Block × StoreMap} (hp : PairOk p) :
    Dir.Holds (FileStore.save d id (Record.print p.1, Store.print p.2)) (ps ++ [p]) := by
  have h1 : FileStore.save d id (Record.print p.1, Store.print p.2) =
      d ++ [(FileStore.storeName id, .file (Store.print p.2)), (FileStore.recordName id, .file (Record.print p.1))] := by
    unfold FileStore.save FileStore.saveWrites
    rw [List.foldl_cons, List.foldl_cons, List.foldl_nil, Dir.write_new fun e he => (hid e he).2, Dir.write_new, List.append_assoc]
    · rfl
    · intro e he
      rcases List.mem_append.1 he with he | he
      · exact (hid e he).1
      · rw [List.mem_singleton.1 he]
        exact (recordName_ne_storeName id id).symm
  rw [h1]
  refine ⟨?_, ?_, ?_⟩
  · unfold Dir.NamesDiffer
    rw [List.map_append, List.nodup_append]
    refine ⟨h.names, ?_, ?_⟩
    · simp only [List.map_cons, List.map_nil, List.nodup_cons, List.mem_singleton, List.not_mem_nil,
        not_false_eq_true, List.nodup_nil, and_true]
      exact (recordName_ne_storeName id id).symm
    · intro a ha b hb
      obtain ⟨e, he, rfl⟩ := List.mem_map.1 ha
      simp only [List.map_cons, List.map_nil, List.mem_cons, List.not_mem_nil, or_false] at hb
      rcases hb with rfl | rfl
      · exact (hid e he).2
      · exact (hid e he).1
  · have hr : FileStore.isRecordFile (FileStore.recordName id, .file (Record.print p.1)) = true := by
      unfold FileStore.isRecordFile
      simp only [Bool.and_eq_true, decide_eq_true_eq]
      exact ⟨rfl, Dir.extension_record _⟩
    rw [List.filter_append, List.filter_cons_of_neg (by simp [isRecordFile_store]), List.filter_cons_of_pos hr,
      List.filter_nil]
    refine List.rel_append (h.files.imp fun e q hq => ⟨hq.1, List.mem_append_left _ hq.2⟩) (.cons ⟨rfl, ?_⟩ .nil)
    simp only
    rw [show FileStore.recordName id = showNat id ++ FileStore.recordExtension from rfl, Dir.replace_record]
    exact List.mem_append_right _ (by simp [FileStore.storeName])
  · intro q hq
    rcases List.mem_append.1 hq with hq | hq
    · exact h.pairs q hq
    · rw [List.mem_singleton.1 hq]
      exact hp

/-- An interrupted save leaves the recorded pairs, or is complete. -/
theorem holds_crash {d d' : Dir} {ps : List (OSet Block × StoreMap)} (h : d.Holds ps) {id : Nat}
    {p : OSet Block × StoreMap} (hp : PairOk p) (hid : d.Absent id)
    (hc : Dir.Crash (FileStore.saveWrites id (Record.print p.1, Store.print p.2)) d d') :
    d'.Holds ps ∨ d'.Holds (ps ++ [p]) := by
  rcases crash_cases hc with rfl | ⟨part, rfl⟩ | rfl
  · exact Or.inl h
  · left
    rw [Dir.write_new fun e he => (hid e he).2]
    refine ⟨?_, ?_, h.pairs⟩
    · unfold Dir.NamesDiffer
      rw [List.map_append, List.nodup_append]
      refine ⟨h.names, by simp, ?_⟩
      intro a ha b hb
      obtain ⟨e, he, rfl⟩ := List.mem_map.1 ha
      rw [List.map_singleton, List.mem_singleton] at hb
      rw [hb]
      exact (hid e he).2
    · rw [List.filter_append, List.filter_cons_of_neg (by simp [isRecordFile_store]), List.filter_nil, List.append_nil]
      exact h.files.imp fun e q hq => ⟨hq.1, List.mem_append_left _ hq.2⟩
  · exact Or.inr (holds_save h hid hp)

/-- C34: whenever a process that saves `p` dies, but not inside the write of the record file, the blocks that count
as done and the results that the merger counts still agree: both are those of the results saved before, or both
include `p`. -/
theorem C34_consistent {d d' : Dir} {ps : List (OSet Block × StoreMap)} (h : d.Holds ps) {id : Nat}
    {p : OSet Block × StoreMap} (hp : PairOk p) (hid : d.Absent id)
    (hc : Dir.Crash (FileStore.saveWrites id (Record.print p.1, Store.print p.2)) d d') :
    ∃ qs, (qs = ps ∨ qs = ps ++ [p]) ∧
      (∃ r, FileStore.initialRecord d' = .ok r ∧
        ∀ b, b ≠ [] → (FileStore.contains r b = true ↔ ∃ q ∈ qs, b ∈ q.1)) ∧
      (∃ r m, Merger.merge d' = .ok ⟨0, some (Store.print m, Record.print r)⟩ ∧ OMap.Sorted m ∧
        (∀ k z, (k, z) ∈ m ↔ (∃ q ∈ qs, ∃ w, (k, w) ∈ q.2) ∧ z = (qs.map fun q => total q.2 k).sum)) := by
  have key : ∀ qs, d'.Holds qs → (∃ r, FileStore.initialRecord d' = .ok r ∧
        ∀ b, b ≠ [] → (FileStore.contains r b = true ↔ ∃ q ∈ qs, b ∈ q.1)) ∧
      (∃ r m, Merger.merge d' = .ok ⟨0, some (Store.print m, Record.print r)⟩ ∧ OMap.Sorted m ∧
        (∀ k z, (k, z) ∈ m ↔ (∃ q ∈ qs, ∃ w, (k, w) ∈ q.2) ∧ z = (qs.map fun q => total q.2 k).sum)) := by
    intro qs hq
    constructor
    · obtain ⟨r, h2, h3⟩ := initialRecord_holds hq
      refine ⟨r, h2, fun b hb => ?_⟩
      unfold FileStore.contains
      rw [OSet.contains_iff h3.sorted, h3.mem b hb]
    · obtain ⟨r, m, h2, h3, _, h5, _⟩ := C32_merge hq
      exact ⟨r, m, h2, h3, h5⟩
  rcases holds_crash h hp hid hc with h1 | h1
  · exact ⟨ps, Or.inl rfl, key _ h1⟩
  · exact ⟨ps ++ [p], Or.inr rfl, key _ h1⟩

/-- C34: a save that is not interrupted adds its pair. -/
theorem C34_save {d : Dir} {ps : List (OSet Block × StoreMap)} (h : d.Holds ps) {id : Nat}
    {p : OSet Block × StoreMap} (hp : PairOk p) (hid : d.Absent id) :
    ∃ r m, Merger.merge (FileStore.save d id (Record.print p.1, Store.print p.2)) =
        .ok ⟨0, some (Store.print m, Record.print r)⟩ ∧ OMap.Sorted m ∧
      (∀ k z, (k, z) ∈ m ↔ (∃ q ∈ ps ++ [p], ∃ w, (k, w) ∈ q.2) ∧
        z = (ps.map fun q => total q.2 k).sum + total p.2 k) ∧
      (∀ b, b ≠ [] → (b ∈ r ↔ (∃ q ∈ ps, b ∈ q.1) ∨ b ∈ p.1)) := by
  obtain ⟨r, m, h2, h3, _, h5, h6⟩ := C32_merge (holds_save h hid hp)
  refine ⟨r, m, h2, h3, fun k z => ?_, fun b hb => ?_⟩
  · rw [h5 k z]
    simp
  · rw [h6 b hb]
    simp only [List.mem_append, List.mem_singleton, or_and_right, exists_or, exists_eq_left]

/-- The exception in C34 is necessary: if the process dies after it created the record file but before it wrote to
it, the block does not count as done, but its results are counted by the merger, and twice after the next run. -/
theorem C34_inside_record_write : ∃ (p : OSet Block × StoreMap) (d : Dir), PairOk p ∧
    d = Dir.write (Dir.write [] (FileStore.storeName 7) (Store.print p.2)) (FileStore.recordName 7) [] ∧
    p = ([[(0, 1)]], [(⟨[1, 1, 2], [0, 5]⟩, 12)]) ∧
    FileStore.initialRecord d = .ok [] ∧
    Merger.merge d = .ok ⟨0, some ("1,1,2;0,5:12\n".toList, [])⟩ ∧
    Merger.merge (FileStore.save d 8 (Record.print p.1, Store.print p.2)) =
      .ok ⟨0, some ("1,1,2;0,5:24\n".toList, "\n0 1 \n".toList)⟩ := by
  refine ⟨_, _, ⟨?_, ?_, ?_, ?_, ?_⟩, rfl, rfl, by decide, by decide, by decide⟩
  · exact List.pairwise_singleton _ _
  · decide
  · exact List.pairwise_singleton _ _
  · simp only [List.mem_singleton, forall_eq]
    exact ⟨by simp, by simp, by decide, by decide⟩
  · simp only [List.mem_singleton, forall_eq]
    exact ⟨by decide, by decide⟩

/-! ### Examples -/

/-- Two saved results, a store without record, and an unrelated file. -/
def exampleDir : Dir :=
  [("3.hycu_store".toList, .file "1,1".toList),
   ("1.hycu_record".toList, .file (Record.print [[(0, 1), (2, 5)]])),
   ("2.hycu_store".toList, .file (Store.print [(⟨[1, 1, 2], [0, 5]⟩, 4)])),
   ("config.yml".toList, .file "Prime: 7".toList),
   ("1.hycu_store".toList, .file (Store.print [(⟨[1, 1, 2], [-3, 0]⟩, 7), (⟨[1, 1, 2], [0, 5]⟩, 12)])),
   ("2.hycu_record".toList, .file (Record.print [[(1, 2), (2, 5)]]))]

/-- Hypotheses of C32 and C34. -/
example : exampleDir.Holds [([[(0, 1), (2, 5)]], [(⟨[1, 1, 2], [-3, 0]⟩, 7), (⟨[1, 1, 2], [0, 5]⟩, 12)]),
    ([[(1, 2), (2, 5)]], [(⟨[1, 1, 2], [0, 5]⟩, 4)])] ∧ exampleDir.Absent 5 := by
  refine ⟨⟨by unfold Dir.NamesDiffer; decide, ?_, ?_⟩, by unfold Dir.Absent; decide⟩
  · exact .cons ⟨by decide, by decide⟩ (.cons ⟨by decide, by decide⟩ .nil)
  · intro p hp
    simp only [List.mem_cons, List.not_mem_nil, or_false] at hp
    rcases hp with rfl | rfl
    · refine ⟨List.pairwise_singleton _ _, by decide, by unfold OMap.Sorted; decide, ?_, ?_⟩
      · intro e he
        simp only [List.mem_cons, List.not_mem_nil, or_false] at he
        rcases he with rfl | rfl <;> exact ⟨by simp, by simp, by decide, by decide⟩
      · intro e he
        simp only [List.mem_cons, List.not_mem_nil, or_false] at he
        rcases he with rfl | rfl <;> exact ⟨by decide, by decide⟩
    · refine ⟨List.pairwise_singleton _ _, by decide, List.pairwise_singleton _ _, ?_, ?_⟩
      · simp only [List.mem_singleton, forall_eq]
        exact ⟨by simp, by simp, by decide, by decide⟩
      · simp only [List.mem_singleton, forall_eq]
        exact ⟨by decide, by decide⟩

/-- What the merger writes. -/
example : Merger.merge exampleDir =
    .ok ⟨0, some ("1,1,2;-3,0:7\n1,1,2;0,5:16\n".toList, "\n0 1 2 5 \n1 2 2 5 \n".toList)⟩ := by decide

/-- Hypotheses of C33 for the store without record and for the configuration. -/
example : (∀ s c, (s ++ ".hycu_record".toList, c) ∈ exampleDir → Dir.regular c = true →
      "3.hycu_store".toList ≠ s ++ ".hycu_store".toList) ∧
    ¬ ∃ s, "config.yml".toList = s ++ ".hycu_record".toList := by
  constructor
  · intro s c h _ he
    have hs : s = "3".toList := (List.append_cancel_right (as := "3".toList) (bs := ".hycu_store".toList) he).symm
    rw [hs] at h
    have : "3".toList ++ ".hycu_record".toList ∈ exampleDir.map Prod.fst := List.mem_map.2 ⟨_, h, rfl⟩
    exact absurd this (by decide)
  · rintro ⟨s, hs⟩
    have := congrArg List.length hs
    simp only [List.length_append] at this
    exact absurd this (by
      have h1 : "config.yml".toList.length = 10 := by decide
      have h2 : ".hycu_record".toList.length = 12 := by decide
      omega)

/-- A record whose store is missing. -/
example : Merger.merge [("1.hycu_record".toList, .file "0 1\n".toList), ("1.hycu_store".toList, .other)] =
    .ok ⟨1, none⟩ ∧
    Dir.isRegularFile [("1.hycu_record".toList, .file "0 1\n".toList), ("1.hycu_store".toList, .other)]
      ("1".toList ++ ".hycu_store".toList) = false := by decide

/-- A store that cannot be opened is taken to be empty: the merger reports success, and the block counts as done. -/
example : Merger.merge [("1.hycu_record".toList, .file "0 1\n".toList), ("1.hycu_store".toList, .unreadable)] =
    .ok ⟨0, some ([], "\n0 1 \n".toList)⟩ := by decide

/-- A record that cannot be opened keeps the constructor of `FileStore` from ending. -/
example : FileStore.initialRecord [("1.hycu_record".toList, .unreadable)] = .diverge := by decide

/-- A part of the store is written, then the process dies. -/
example : Dir.Crash (FileStore.saveWrites 5 (Record.print [[(1, 2)]], Store.print [(⟨[1, 1, 2], [0, 5]⟩, 4)])) exampleDir
    (exampleDir.write (FileStore.storeName 5) "1,1,2;".toList) :=
  .inside _ _ _ _ _ (by decide) (by
    rintro ⟨s, hs⟩
    have := congrArg List.length hs
    simp only [List.length_append] at this
    have h1 : (FileStore.storeName 5).length = 12 := by decide
    have h2 : ".hycu_record".toList.length = 12 := by decide
    rw [h1, h2] at this
    rw [List.length_eq_zero_iff.1 (by omega : s.length = 0)] at hs
    exact absurd hs (by decide))

end Hycu
