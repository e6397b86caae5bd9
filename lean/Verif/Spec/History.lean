import Verif.Spec.Tally

/-!
Histories of the static store: flushes of local stores and saves, in any order.
-/

namespace Hycu

/-- What happens to the static store: a thread flushes the results of a block, or the static store is saved. -/
inductive StoreEvent where
  | flush (block : Block)
  | save

/-- The blocks flushed in a history. -/
def flushed : List StoreEvent → List Block
  | [] => []
  | .flush b :: es => b :: flushed es
  | .save :: es => flushed es

/-- Running a history: the results of block `b` are `result b`.  Gives the static members at the end and the pairs
of strings saved so far. -/
def runHistory (result : Block → StoreMap) : List StoreEvent → Store.Static →
    Res (Store.Static × List (List Char × List Char))
  | [], st => .ok (st, [])
  | .flush b :: es, st => do
    let p ← Store.flushToStatic st (result b) b
    runHistory result es p.1
  | .save :: es, st => do
    let p := Store.flushStatic st
    let r ← runHistory result es p.2
    pure (r.1, p.1 :: r.2)

/-- Record `r` and store `s` match: the store is the pointwise sum of the results of the blocks in the record. -/
structure Match (result : Block → StoreMap) (r : OSet Block) (s : StoreMap) : Prop where
  record_sorted : OSet.Sorted r
  tally : Tally s (r.flatMap result)

end Hycu
