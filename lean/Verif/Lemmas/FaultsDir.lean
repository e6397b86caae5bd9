import Verif.Lemmas.Faults
import Verif.Props.Files

/-!
Directories after a save whose writes failed.
-/

namespace Hycu

/-- The record file `e` and the store file that belongs to it are read as the given blocks and entries. -/
structure Dir.Reads (d : Dir) (e : List Char × FileEntry) (x : List Block × List (Key × Int)) : Prop where
  regular : Dir.isRegularFile d (Dir.replaceExtension e.1 FileStore.storeExtension) = true
  record : ∀ r, Record.extract r (Dir.openIn d e.1) = .ok (x.1.foldl OSet.insert r)
  store : ∀ m, Store.extract m (Dir.openIn d (Dir.replaceExtension e.1 FileStore.storeExtension)) =
    x.2.foldlM (fun m e => Store.addEntry m e.1 e.2) m
  small : ∀ e ∈ x.2, Small e.2

theorem Merger.mergeLoop_reads {d : Dir} (es' : List (List Char × FileEntry)) :
    ∀ (es : List (List Char × FileEntry)) (xs : List (List Block × List (Key × Int))) (r : OSet Block) (m : StoreMap)
      (l : List (Key × Int)), List.Forall₂ d.Reads (es.filter FileStore.isRecordFile) xs → Tally m l →
    ∃ m', Merger.mergeLoop d (es ++ es') r m =
      Merger.mergeLoop d es' ((xs.flatMap Prod.fst).foldl OSet.insert r) m' ∧ Tally m' (l ++ xs.flatMap Prod.snd)
  | [], xs, r, m, l, hf, hm => by
    cases hf
    exact ⟨m, rfl, by simpa using hm⟩
  | e :: es, xs, r, m, l, hf, hm => by
    rw [List.cons_append]
    by_cases he : FileStore.isRecordFile e = true
    · rw [List.filter_cons_of_pos he] at hf
      cases hf with
      | @cons _ x _ xs h1 h2 =>
        obtain ⟨m1, h3, h4⟩ := Store.addEntries_tally x.2 hm h1.small
        obtain ⟨m2, h5, h6⟩ := mergeLoop_reads es' es xs (x.1.foldl OSet.insert r) m1 _ h2 h4
        refine ⟨m2, ?_, by rwa [List.append_assoc] at h6⟩
        conv_lhs => unfold mergeLoop
        dsimp only
        rw [if_pos he, if_pos h1.regular, h1.record, Res.bind_ok, h1.store, h3, Res.bind_ok, h5, List.flatMap_cons,
          List.foldl_append]
    · rw [List.filter_cons_of_neg he] at hf
      obtain ⟨m2, h5, h6⟩ := mergeLoop_reads es' es xs r m l hf hm
      refine ⟨m2, ?_, h6⟩
      conv_lhs => unfold mergeLoop
      rw [if_neg he, h5]

theorem FileStore.readRecords_reads {d : Dir} : ∀ (es : List (List Char × FileEntry)) (bss : List (List Block))
    (r : OSet Block), List.Forall₂ (fun (e : List Char × FileEntry) bs => ∀ r, Record.extract r (Dir.openIn d e.1) =
      .ok (bs.foldl OSet.insert r)) (es.filter FileStore.isRecordFile) bss →
    es.foldlM (FileStore.readRecord d) r = .ok (bss.flatten.foldl OSet.insert r)
  | [], bss, r, hf => by
    cases hf
    rfl
  | e :: es, bss, r, hf => by
    rw [List.foldlM_cons]
    unfold FileStore.readRecord
    by_cases he : FileStore.isRecordFile e = true
    · rw [if_pos he]
      rw [List.filter_cons_of_pos he] at hf
      cases hf with
      | @cons _ x _ xs h1 h2 =>
        rw [h1, Res.bind_ok, List.flatten_cons, List.foldl_append]
        exact readRecords_reads es xs _ h2
    · rw [if_neg he, Res.bind_ok]
      rw [List.filter_cons_of_neg he] at hf
      exact readRecords_reads es bss r hf

/-- What is read from the files of a pair. -/
def pairReads (p : OSet Block × StoreMap) : List Block × List (Key × Int) :=
  (if p.1 = [] then [] else p.1 ++ [[]], p.2)

theorem mem_pairReads {p : OSet Block × StoreMap} {b : Block} (hb : b ≠ []) : b ∈ (pairReads p).1 ↔ b ∈ p.1 := by
  unfold pairReads
  split
  · rename_i h
    simp [h]
  · simp [hb]

theorem Record.extract_pair (r : OSet Block) {p : OSet Block × StoreMap} (hp : PairOk p) :
    Record.extract r (IStream.ofList (Record.print p.1)) = .ok ((pairReads p).1.foldl OSet.insert r) := by
  rw [Record.extract_print r hp.blocks_fit]
  unfold pairReads
  split
  · rfl
  · rw [List.foldl_append]
    rfl

/-- The names of the files of an id do not occur in a directory without them, nor do they belong to a record in it. -/
theorem Dir.Absent.ne {d : Dir} {id : Nat} (h : d.Absent id) {e : List Char × FileEntry} (he : e ∈ d)
    (hr : FileStore.isRecordFile e = true) : FileStore.storeName id ≠ e.1 ∧ FileStore.recordName id ≠ e.1 ∧
      FileStore.storeName id ≠ Dir.replaceExtension e.1 FileStore.storeExtension ∧
      FileStore.recordName id ≠ Dir.replaceExtension e.1 FileStore.storeExtension := by
  refine ⟨(h e he).2.symm, (h e he).1.symm, fun hc => ?_, fun hc => ?_⟩
  · unfold FileStore.isRecordFile at hr
    simp only [Bool.and_eq_true, decide_eq_true_eq] at hr
    have h1 : FileStore.storeName id = Dir.stem e.1 ++ FileStore.storeExtension := hc
    have h2 : showNat id = Dir.stem e.1 := List.append_cancel_right h1
    refine (h e he).1 ?_
    rw [Dir.eq_of_extension hr.2, ← h2]
    rfl
  · have h1 := Dir.extension_record (showNat id)
    have h2 := Dir.extension_store (Dir.stem e.1)
    rw [show showNat id ++ FileStore.recordExtension = Dir.stem e.1 ++ FileStore.storeExtension from hc, h2] at h1
    exact absurd h1 (by decide)

/-- The pairs in a directory are still read if files with the names of an unused id are added. -/
theorem Dir.Holds.reads {d d' : Dir} {ps : List (OSet Block × StoreMap)} (h : d.Holds ps)
    (hl : ∀ n, (∃ e ∈ d, FileStore.isRecordFile e = true ∧
      (n = e.1 ∨ n = Dir.replaceExtension e.1 FileStore.storeExtension)) → Dir.lookup d' n = Dir.lookup d n) :
    List.Forall₂ d'.Reads (d.filter FileStore.isRecordFile) (ps.map pairReads) := by
  have key : ∀ (es : List (List Char × FileEntry)) (ps : List (OSet Block × StoreMap)),
      (∀ e ∈ es, e ∈ d ∧ FileStore.isRecordFile e = true) →
      List.Forall₂ (fun e p => e.2 = .file (Record.print p.1) ∧
        (Dir.replaceExtension e.1 FileStore.storeExtension, FileEntry.file (Store.print p.2)) ∈ d) es ps →
      (∀ p ∈ ps, PairOk p) → List.Forall₂ d'.Reads es (ps.map pairReads) := by
    intro es ps hes hf
    induction hf with
    | nil => intro _; exact .nil
    | @cons e p es ps h1 _ ih =>
      intro hp
      obtain ⟨hed, her⟩ := hes e (by simp)
      have hpo := hp p (by simp)
      have hl1 : Dir.lookup d' e.1 = some e.2 := by
        rw [hl _ ⟨e, hed, her, Or.inl rfl⟩, Dir.lookup_of_mem h.names hed]
      have hl2 : Dir.lookup d' (Dir.replaceExtension e.1 FileStore.storeExtension) = some (.file (Store.print p.2)) := by
        rw [hl _ ⟨e, hed, her, Or.inr rfl⟩]
        exact Dir.lookup_of_mem h.names h1.2
      refine .cons ⟨?_, fun r => ?_, fun m => ?_, hpo.counts_small⟩
        (ih (fun e he => hes e (by simp [he])) fun q hq => hp q (by simp [hq]))
      · unfold Dir.isRegularFile
        rw [hl2]
        rfl
      · unfold Dir.openIn
        rw [hl1, h1.1]
        exact Record.extract_pair r hpo
      · unfold Dir.openIn
        rw [hl2]
        exact Store.extract_print m hpo.keys_fit
  refine key _ _ (fun e he => ?_) h.files h.pairs
  exact ⟨(List.mem_filter.1 he).1, (List.mem_filter.1 he).2⟩

theorem Dir.lookup_append {d d' : Dir} {n : List Char} : Dir.lookup (d ++ d') n =
    match Dir.lookup d n with
    | some e => some e
    | none => Dir.lookup d' n := by
  induction d with
  | nil => rfl
  | cons a d ih =>
    rw [List.cons_append, Dir.lookup, Dir.lookup]
    split
    · rfl
    · exact ih

theorem Dir.Absent.lookup {d : Dir} {id : Nat} (h : d.Absent id) :
    Dir.lookup d (FileStore.recordName id) = none ∧ Dir.lookup d (FileStore.storeName id) = none := by
  constructor <;> rw [Dir.lookup_eq_none] <;> intro hm <;> obtain ⟨e, he, h1⟩ := List.mem_map.1 hm
  · exact (h e he).1 h1
  · exact (h e he).2 h1

/-- The four kinds of outcomes of a save whose writes may fail. -/
theorem faulty_cases {d d' : Dir} {id : Nat} (hid : d.Absent id) {rs : List Char × List Char}
    (h : Dir.Faulty (FileStore.saveWrites id rs) d d') :
    d' = d ∨ (∃ s, s <+: rs.2 ∧ d' = d ++ [(FileStore.storeName id, .file s)]) ∨
      (∃ r, r <+: rs.1 ∧ d' = d ++ [(FileStore.recordName id, .file r)]) ∨
      ∃ s r, s <+: rs.2 ∧ r <+: rs.1 ∧
        d' = d ++ [(FileStore.storeName id, .file s), (FileStore.recordName id, .file r)] := by
  have hw : ∀ c, d.write (FileStore.storeName id) c = d ++ [(FileStore.storeName id, .file c)] :=
    fun c => Dir.write_new fun e he => (hid e he).2
  unfold FileStore.saveWrites at h
  cases h with
  | lost _ _ _ _ _ h =>
    cases h with
    | lost _ _ _ _ _ h =>
      cases h
      exact Or.inl rfl
    | cut _ _ part _ _ _ hp h =>
      cases h
      exact Or.inr (Or.inr (Or.inl ⟨part, hp, Dir.write_new fun e he => (hid e he).1⟩))
  | cut _ _ part _ _ _ hp h =>
    cases h with
    | lost _ _ _ _ _ h =>
      cases h
      exact Or.inr (Or.inl ⟨part, hp, hw part⟩)
    | cut _ _ part' _ _ _ hp' h =>
      cases h
      refine Or.inr (Or.inr (Or.inr ⟨part, part', hp, hp', ?_⟩))
      rw [hw, Dir.write_new, List.append_assoc]
      · rfl
      · intro e he
        rcases List.mem_append.1 he with he | he
        · exact (hid e he).1
        · rw [List.mem_singleton.1 he]
          exact (recordName_ne_storeName id id).symm

theorem isRecordFile_record (id : Nat) (c : List Char) :
    FileStore.isRecordFile (FileStore.recordName id, .file c) = true := by
  unfold FileStore.isRecordFile
  simp only [Bool.and_eq_true, decide_eq_true_eq]
  exact ⟨rfl, Dir.extension_record _⟩

theorem replace_recordName (id : Nat) :
    Dir.replaceExtension (FileStore.recordName id) FileStore.storeExtension = FileStore.storeName id := by
  rw [show FileStore.recordName id = showNat id ++ FileStore.recordExtension from rfl, Dir.replace_record]
  rfl

/-- Names of the directory are looked up as before if files of an unused id are added. -/
theorem Dir.Absent.lookup_add {d d₂ : Dir} {id : Nat} (hid : d.Absent id)
    (h2 : ∀ e ∈ d₂, e.1 = FileStore.storeName id ∨ e.1 = FileStore.recordName id) :
    ∀ n, (∃ e ∈ d, FileStore.isRecordFile e = true ∧
      (n = e.1 ∨ n = Dir.replaceExtension e.1 FileStore.storeExtension)) →
      Dir.lookup (d ++ d₂) n = Dir.lookup d n := by
  rintro n ⟨e, he, hr, hn⟩
  rw [Dir.lookup_append]
  have hnone : Dir.lookup d₂ n = none := by
    rw [Dir.lookup_eq_none]
    intro hm
    obtain ⟨x, hx, rfl⟩ := List.mem_map.1 hm
    have h3 := hid.ne he hr
    rcases h2 x hx with h | h <;> rw [h] at hn <;> rcases hn with hn | hn
    · exact h3.1 hn
    · exact h3.2.2.1 hn
    · exact h3.2.1 hn
    · exact h3.2.2.2 hn
  rw [hnone]
  cases Dir.lookup d n <;> rfl

end Hycu
