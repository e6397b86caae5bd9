import Verif.Model.CurveData
import Verif.Model.CurveIterator
import Verif.Cpp.Stream

/-!
Model of `Store<ExplicitRamificationHasseWeil, Count>` (src/store/store.hh, store.cc, store_data.hh, store_data.cc),
printing and parsing of keys (src/store/curve_data.cc), and the record functions of `FileStore`
(src/store/file_store.cc).
-/

namespace Hycu

/-- Blocks (`vuu_block`). -/
abbrev Block := List (Nat × Nat)

/-- The map of a store: counts by key. -/
abbrev StoreMap := OMap Key Int

/-- Copying a FLINT integer bitwise and clearing the original, as the implicit copy assignment and copy
constructor of `Count` and `Count::ValueType` do (src/store/store_data.hh l.56, l.63-90): integers of absolute
value at least `2^62` are handles, and the copy refers to freed memory.  Simplification: this is undefined
behaviour at the copy; in the code it is at the next use of the copy, at the latest its destruction. -/
def copyCount (z : Int) : Res Int :=
  if -4611686018427387904 < z ∧ z < 4611686018427387904 then .ok z else .ub

namespace Key

/-- Numbers separated by commas (src/store/curve_data.cc l.73-77, l.81-85). -/
def showList (l : List (List Char)) : List Char :=
  match l with
  | [] => []
  | a :: l => a ++ l.flatMap fun b => ',' :: b

/-- `operator<<` (src/store/curve_data.cc l.66-88). -/
def print (k : Key) : List Char :=
  showList (k.ramification.map showNat) ++ ';' :: showList (k.offsets.map showInt)

/-- Conversion of `int` to `unsigned int`. -/
def toUnsigned (z : Int) : Nat := (z % 4294967296).toNat

/-- The second loop of the constructor from a string (src/store/curve_data.cc l.117-128).  Pushing a variable
that was never assigned is undefined. -/
def parseOffsets : Nat → IStream → Option Int → List Int → Res (List Int)
  | 0, _, _, _ => .diverge
  | fuel + 1, s, v, os =>
    match s.readInt v with
    | (_, none) => .ub
    | (s, some z) =>
      match s.peek with
      | (s, some ',') => parseOffsets fuel s.ignore (some z) (os ++ [z])
      | _ => .ok (os ++ [z])

/-- The first loop of the constructor from a string, followed by the second one (src/store/curve_data.cc
l.100-128). -/
def parseRamification : Nat → IStream → Option Int → List Nat → Res Key
  | 0, _, _, _ => .diverge
  | fuel + 1, s, v, rs =>
    match s.readInt v with
    | (_, none) => .ub
    | (s, some z) =>
      match s.peek with
      | (s, some ',') => parseRamification fuel s.ignore (some z) (rs ++ [toUnsigned z])
      | (s, some ';') => do
        let os ← parseOffsets (s.ignore.rest.length + 1) s.ignore (some z) []
        pure ⟨rs ++ [toUnsigned z], os⟩
      | _ => .ok ⟨rs ++ [toUnsigned z], []⟩

/-- `ValueType(const string &)` (src/store/curve_data.cc l.90-129).  Every turn of a loop but the last consumes a
character, so that the number of turns is bounded. -/
def parse (l : List Char) : Res Key := parseRamification (l.length + 1) (IStream.ofList l) none []

end Key

namespace Store

/-- `Count(curve)` (src/store/store_data.hh l.49-54). -/
def countOf {F : Type} (c : Curve F) : Res Int := do
  let n ← CurveIterator.multiplicity c.table.prime c.table.primePower c.rhsSupport
  pure (n : Int)

/-- `store[key] += data` for a key that may be missing (it is then created with 0). -/
def addAt (m : StoreMap) (k : Key) (z : Int) : StoreMap :=
  match m.find? k with
  | some w => m.set k (w + z)
  | none => m.set k (0 + z)

/-- The case of a new key in `register_curve` (src/store/store.cc l.56-61). -/
def registerNew (m : StoreMap) (key twisted : Key) (data : Int) : Res StoreMap := do
  let z ← copyCount data
  if twisted = key then pure (addAt (m.set key z) key data)
  else do
    let w ← copyCount data
    pure ((m.set key z).set twisted w)

/-- `register_curve` after key, twisted key and count are known (src/store/store.cc l.54-66). -/
def registerData (m : StoreMap) (key twisted : Key) (data : Int) : Res StoreMap :=
  match m.find? key with
  | none => registerNew m key twisted data
  | some v => .ok (addAt (m.set key (v + data)) twisted data)

/-- `register_curve` (src/store/store.cc l.39-67). -/
def registerCurve {F : Type} (fl : FlintPoly F) (m : StoreMap) (c : Curve F) : Res StoreMap := do
  let key ← Key.ofCurve fl c
  let twisted ← key.twist
  let data ← countOf c
  registerData m key twisted data

/-- Adding an entry to a map (src/store/store.cc l.84-87 and l.134-137): an entry that is there is increased,
otherwise the integer is copied. -/
def addEntry (m : StoreMap) (k : Key) (z : Int) : Res StoreMap :=
  match m.find? k with
  | some w => .ok (m.set k (w + z))
  | none => do
    let z' ← copyCount z
    pure (m.set k z')

/-- The static members (src/store/store.hh): blocks done and counts. -/
structure Static where
  record : OSet Block
  store : StoreMap

/-- `flush_to_static_store` (src/store/store.cc l.69-90): the new static members, and the store itself, which is
cleared.  The whole function runs under `static_mutex`. -/
def flushToStatic (st : Static) (m : StoreMap) (block : Block) : Res (Static × StoreMap) := do
  let m' ← m.foldlM (fun m e => addEntry m e.1 e.2) st.store
  pure (⟨OSet.insert st.record block, m'⟩, [])

/-- `insert` (src/store/store.cc l.141-154). -/
def print (m : StoreMap) : List Char :=
  m.flatMap fun e => e.1.print ++ ':' :: (showInt e.2 ++ ['\n'])

/-- One line in `extract` (src/store/store.cc l.125-137). -/
def extractLine (m : StoreMap) (line : List Char) : Res StoreMap := do
  let p := (IStream.ofList line).getline ':' []
  let q := p.1.getline '\n' []
  let k ← Key.parse p.2
  addEntry m k (fmpzOfString q.2)

/-- The loop of `extract` (src/store/store.cc l.124-138). -/
def extractLoop : Nat → IStream → List Char → StoreMap → Res StoreMap
  | 0, _, _, _ => .diverge
  | fuel + 1, s, old, m =>
    match s.getline '\n' old with
    | (s, line) =>
      if s.fail then .ok m
      else do
        let m ← extractLine m line
        extractLoop fuel s line m

/-- `extract` (src/store/store.cc l.113-139).  Every turn but the last consumes a character. -/
def extract (m : StoreMap) (s : IStream) : Res StoreMap := extractLoop (s.rest.length + 1) s [] m

end Store

namespace Record

/-- `FileStore::insert` for a block (src/store/file_store.cc l.134-144). -/
def printBlock (b : Block) : List Char := b.flatMap fun x => showNat x.1 ++ ' ' :: (showNat x.2 ++ [' '])

/-- `FileStore::insert` for a record (src/store/file_store.cc l.146-155). -/
def print (r : OSet Block) : List Char := r.flatMap fun b => printBlock b ++ ['\n']

/-- `while ( line_stream >> lbd >> ubd ) block.push_back(..)` (src/store/file_store.cc l.111-112): the loop
ends when the stream fails. -/
def readBlockLoop : Nat → IStream → Option Int → Option Int → Block → Res Block
  | 0, _, _, _, _ => .diverge
  | fuel + 1, s, v, w, b =>
    let p := s.readInt v
    let q := p.1.readInt w
    if q.1.fail then .ok b
    else match p.2, q.2 with
      | some x, some y => readBlockLoop fuel q.1 p.2 q.2 (b ++ [(Key.toUnsigned x, Key.toUnsigned y)])
      | _, _ => .ub

/-- `FileStore::extract` for a block (src/store/file_store.cc l.98-115); the block is empty before, as at
the only call. -/
def extractBlock (s : IStream) : Res (IStream × Block) := do
  let p := s.getline '\n' []
  let b ← readBlockLoop (p.2.length + 1) (IStream.ofList p.2) none none []
  pure (p.1, b)

/-- The loop of `FileStore::extract` for a record (src/store/file_store.cc l.127-131). -/
def extractLoop : Nat → IStream → OSet Block → Res (OSet Block)
  | 0, _, _ => .diverge
  | fuel + 1, s, r =>
    if s.eof then .ok r
    else do
      let p ← extractBlock s
      extractLoop fuel p.1 (OSet.insert r p.2)

/-- `FileStore::extract` for a record (src/store/file_store.cc l.117-132).  On a good stream every turn but the last
consumes a character; on a stream that failed without `eofbit` (a file that could not be opened) the loop does not
end. -/
def extract (r : OSet Block) (s : IStream) : Res (OSet Block) :=
  extractLoop (s.rest.length + 2) s.peek.1 r

end Record

/-- `flush_static_store` (src/store/store.cc l.92-111): the printed record and store, and the static members
afterwards.  The whole function runs under `static_mutex`. -/
def Store.flushStatic (st : Store.Static) : (List Char × List Char) × Store.Static :=
  ((Record.print st.record, Store.print st.store), ⟨[], []⟩)

end Hycu
