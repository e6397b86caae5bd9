import Verif.Model.Store

/-!
Model of the functions that read and write result directories: `FileStore` (src/store/file_store.cc,
file_store.hh) and the merger (src/executables/merger.cc).
-/

namespace Hycu

/-- A directory entry: a regular file that can be read, with its content, a regular file that cannot be opened, or
something else. -/
inductive FileEntry where
  | file (content : List Char)
  | unreadable
  | other
deriving DecidableEq

/-- A directory: names and entries in the order of `directory_iterator`, which is unspecified. -/
abbrev Dir := List (List Char × FileEntry)

namespace Dir

/-- `is_regular_file`. -/
def regular : FileEntry → Bool
  | .file _ => true
  | .unreadable => true
  | .other => false

/-- `path::extension` of a file name: the part from the last dot on (boost filesystem version 3; names of
directory entries are neither `.` nor `..`). -/
def extension (name : List Char) : List Char :=
  if '.' ∈ name then '.' :: (name.reverse.takeWhile (· ≠ '.')).reverse else []

/-- The part of a name before the extension. -/
def stem (name : List Char) : List Char := name.take (name.length - (extension name).length)

/-- `path::replace_extension`. -/
def replaceExtension (name ext : List Char) : List Char := stem name ++ ext

/-- The entry of a name. -/
def lookup (d : Dir) (name : List Char) : Option FileEntry :=
  match d with
  | [] => none
  | e :: d => if e.1 = name then some e.2 else lookup d name

/-- `is_regular_file` for a name that may be missing. -/
def isRegularFile (d : Dir) (name : List Char) : Bool :=
  match lookup d name with
  | some e => regular e
  | none => false

/-- `fstream(name, ios_base::in)`: a file that cannot be opened gives a stream with `failbit`. -/
def openIn (d : Dir) (name : List Char) : IStream :=
  match lookup d name with
  | some (.file c) => IStream.ofList c
  | _ => ⟨[], false, true⟩

/-- `fstream(name, ios_base::out) << content`: the file is created or truncated, and written.  Nothing happens if it
cannot be opened.  Files that cannot be read are taken not to be writable either. -/
def write (d : Dir) (name content : List Char) : Dir :=
  match d with
  | [] => [(name, .file content)]
  | (n, e) :: d =>
    if n = name then
      match e with
      | .file _ => (n, .file content) :: d
      | _ => (n, e) :: d
    else (n, e) :: write d name content

end Dir

namespace FileStore

/-- `record_extension` (src/store/file_store.cc l.34). -/
def recordExtension : List Char := ".hycu_record".toList

/-- `store_extension` (src/store/file_store.cc l.35). -/
def storeExtension : List Char := ".hycu_store".toList

/-- The test for record files (src/store/file_store.cc l.51-52, src/executables/merger.cc l.143-144). -/
def isRecordFile (e : List Char × FileEntry) : Bool :=
  Dir.regular e.2 && Dir.extension e.1 = recordExtension

/-- One turn of the loop in the constructor (src/store/file_store.cc l.50-55). -/
def readRecord (d : Dir) (r : OSet Block) (e : List Char × FileEntry) : Res (OSet Block) :=
  if isRecordFile e then Record.extract r (Dir.openIn d e.1) else .ok r

/-- `initial_record` after the constructor, for a directory (src/store/file_store.cc l.47-56). -/
def initialRecord (d : Dir) : Res (OSet Block) := d.foldlM (readRecord d) []

/-- `contains` (src/store/file_store.hh l.49-57). -/
def contains (r : OSet Block) (b : Block) : Bool := OSet.contains r b

/-- The names that `new_filenames` returns for an id (src/store/file_store.cc l.84-90). -/
def recordName (id : Nat) : List Char := showNat id ++ recordExtension

/-- See `recordName`. -/
def storeName (id : Nat) : List Char := showNat id ++ storeExtension

/-- Condition under which `new_filenames` accepts a random id (src/store/file_store.cc l.91-94).  The ids are
random, so that any id with this property may be taken. -/
def fresh (d : Dir) (id : Nat) : Bool :=
  !(Dir.isRegularFile d (recordName id) || Dir.isRegularFile d (storeName id))

/-- The files that `save` writes one after the other, with their contents, if `new_filenames` returned the given id
(src/store/file_store.cc l.68-73).  `rs` is the pair of record and store. -/
def saveWrites (id : Nat) (rs : List Char × List Char) : List (List Char × List Char) :=
  [(storeName id, rs.2), (recordName id, rs.1)]

/-- `save` (src/store/file_store.cc l.59-74) for a directory. -/
def save (d : Dir) (id : Nat) (rs : List Char × List Char) : Dir :=
  (saveWrites id rs).foldl (fun d w => Dir.write d w.1 w.2) d

end FileStore

namespace Merger

/-- The loop of `merge` (src/executables/merger.cc l.142-157); `none` stands for `return 1`. -/
def mergeLoop (d : Dir) : List (List Char × FileEntry) → OSet Block → StoreMap →
    Res (Option (OSet Block × StoreMap))
  | [], r, m => .ok (some (r, m))
  | e :: es, r, m =>
    if FileStore.isRecordFile e then
      let storeFile := Dir.replaceExtension e.1 FileStore.storeExtension
      if Dir.isRegularFile d storeFile then do
        let r ← Record.extract r (Dir.openIn d e.1)
        let m ← Store.extract m (Dir.openIn d storeFile)
        mergeLoop d es r m
      else .ok none
    else mergeLoop d es r m

/-- What the merger does: exit code and, if it gets so far, the contents written to the store file and then to the
record file (src/executables/merger.cc l.132-164). -/
structure Output where
  exitCode : Nat
  written : Option (List Char × List Char)
deriving DecidableEq

/-- `merge` for all entries of a directory (src/executables/merger.cc l.112-114, l.132-164). -/
def merge (d : Dir) : Res Output := do
  match ← mergeLoop d d [] [] with
  | none => pure ⟨1, none⟩
  | some (r, m) => pure ⟨0, some (Store.print m, Record.print r)⟩

end Merger
end Hycu
