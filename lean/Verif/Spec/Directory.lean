import Verif.Model.Files
import Verif.Spec.Tally

/-!
Result directories with matching pairs of files, and their merged content.
-/

namespace Hycu

/-- A record and a store that can be written and read back. -/
structure PairOk (p : OSet Block × StoreMap) : Prop where
  record_sorted : OSet.Sorted p.1
  blocks_fit : ∀ b ∈ p.1, ∀ x ∈ b, x.1 < 2147483648 ∧ x.2 < 2147483648
  store_sorted : OMap.Sorted p.2
  keys_fit : ∀ e ∈ p.2, e.1.Fits
  counts_small : ∀ e ∈ p.2, Small e.2

/-- The names of the entries of a directory are different. -/
def Dir.NamesDiffer (d : Dir) : Prop := (d.map Prod.fst).Nodup

/-- The record files of the directory contain, in the order of the directory, the records in `ps`, and the
store files of the same name contain the stores. -/
structure Dir.Holds (d : Dir) (ps : List (OSet Block × StoreMap)) : Prop where
  names : d.NamesDiffer
  files : List.Forall₂ (fun e p => e.2 = .file (Record.print p.1) ∧
    (Dir.replaceExtension e.1 FileStore.storeExtension, FileEntry.file (Store.print p.2)) ∈ d)
    (d.filter FileStore.isRecordFile) ps
  pairs : ∀ p ∈ ps, PairOk p

/-- `r` is the union of the records, plus the empty block unless all of them are empty. -/
structure IsUnion (ps : List (OSet Block × StoreMap)) (r : OSet Block) : Prop where
  sorted : OSet.Sorted r
  mem : ∀ b, b ≠ [] → (b ∈ r ↔ ∃ p ∈ ps, b ∈ p.1)
  empty : [] ∈ r ↔ ∃ p ∈ ps, p.1 ≠ []

/-- `o` is the merge of the pairs: the stores are added, the records united. -/
structure IsMerge (ps : List (OSet Block × StoreMap)) (o : OSet Block × StoreMap) : Prop where
  union : IsUnion ps o.1
  sum : Tally o.2 (ps.flatMap Prod.snd)

/-- What the merger writes for a record and a store. -/
def mergeOutput (o : OSet Block × StoreMap) : Merger.Output := ⟨0, some (Store.print o.2, Record.print o.1)⟩

/-- Nothing in the directory has one of the names that belong to the id. -/
def Dir.Absent (d : Dir) (id : Nat) : Prop :=
  ∀ e ∈ d, e.1 ≠ FileStore.recordName id ∧ e.1 ≠ FileStore.storeName id

/-- The directories that a process leaves behind if it dies while it performs the given writes to a directory: it
dies between two writes (or before the first, or after the last), or inside a write, where the file has been opened
and contains some part of what it should.  Dying inside the write of a record file is excluded. -/
inductive Dir.Crash : List (List Char × List Char) → Dir → Dir → Prop
  | stop (ws : List (List Char × List Char)) (d : Dir) : Crash ws d d
  | inside (n c part : List Char) (ws : List (List Char × List Char)) (d : Dir) (h : part <+: c)
      (hn : ¬ ∃ s, n = s ++ ".hycu_record".toList) : Crash ((n, c) :: ws) d (d.write n part)
  | step (n c : List Char) (ws : List (List Char × List Char)) (d d' : Dir) (h : Crash ws (d.write n c) d') :
      Crash ((n, c) :: ws) d d'

end Hycu
