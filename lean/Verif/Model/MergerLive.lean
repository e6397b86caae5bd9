import Verif.Model.Files

/-!
Model of `hycu-merger` (src/executables/merger.cc) while the directory is being written by other programs: every access
to the directory is a step of its own, and uses the directory as it is at this moment.

Simplifications: reading the content of one file is one step (the files that matter are not modified any more when they are
read); the output is not written to the directory.
-/

namespace Hycu
namespace Merger

/-- Where the merger is. -/
inductive Live where
  /-- Before `directory_iterator(input)` (src/executables/merger.cc l.112). -/
  | opening
  /-- The names are being copied to `input_files` (l.112-114).  `there` are the names that the directory had when it was
  opened, `got` the names copied so far. -/
  | listing (there got : List (List Char))
  /-- At the head of the loop (l.142-145). -/
  | turn (files : List (List Char)) (record : OSet Block) (store : StoreMap)
  /-- Before the test for the store file (l.147-153). -/
  | partner (file : List Char) (files : List (List Char)) (record : OSet Block) (store : StoreMap)
  /-- Before the record is read (l.155). -/
  | readRecord (file : List Char) (files : List (List Char)) (record : OSet Block) (store : StoreMap)
  /-- Before the store is read (l.156). -/
  | readStore (file : List Char) (files : List (List Char)) (record : OSet Block) (store : StoreMap)
  /-- The output can be written (l.160-161). -/
  | ready (record : OSet Block) (store : StoreMap)
  /-- `return 1` (l.152). -/
  | failed

/-- The name of the store file for a record file (src/executables/merger.cc l.147-148). -/
def storeFor (file : List Char) : List Char := Dir.replaceExtension file FileStore.storeExtension

/-- The next step, if the directory is `d`.  While the directory is listed, entries come in any order, each of them at most
once; entries that are added may or may not be listed, and the others are all listed (POSIX `readdir`). -/
inductive LiveStep (d : Dir) : Live → Res Live → Prop
  | opening : LiveStep d .opening (.ok (.listing (d.map Prod.fst) []))
  | entry {there got : List (List Char)} (n : List Char) (h : n ∈ d.map Prod.fst) (hn : n ∉ got) :
      LiveStep d (.listing there got) (.ok (.listing there (got ++ [n])))
  | listed {there got : List (List Char)} (h : ∀ n ∈ there, n ∈ got) :
      LiveStep d (.listing there got) (.ok (.turn got [] []))
  | done {r : OSet Block} {m : StoreMap} : LiveStep d (.turn [] r m) (.ok (.ready r m))
  | turn {n : List Char} {ns : List (List Char)} {r : OSet Block} {m : StoreMap} :
      LiveStep d (.turn (n :: ns) r m)
        (if Dir.isRegularFile d n && Dir.extension n = FileStore.recordExtension then .ok (.partner n ns r m)
        else .ok (.turn ns r m))
  | partner {n : List Char} {ns : List (List Char)} {r : OSet Block} {m : StoreMap} :
      LiveStep d (.partner n ns r m)
        (if Dir.isRegularFile d (storeFor n) then .ok (.readRecord n ns r m) else .ok .failed)
  | readRecord {n : List Char} {ns : List (List Char)} {r : OSet Block} {m : StoreMap} :
      LiveStep d (.readRecord n ns r m) (do
        let r ← Record.extract r (Dir.openIn d n)
        pure (.readStore n ns r m))
  | readStore {n : List Char} {ns : List (List Char)} {r : OSet Block} {m : StoreMap} :
      LiveStep d (.readStore n ns r m) (do
        let m ← Store.extract m (Dir.openIn d (storeFor n))
        pure (.turn ns r m))

end Merger
end Hycu
