import Verif.Spec.SingleMain
import Verif.Spec.Range
import Verif.Model.SingleTables

/-!
What is assumed about FLINT when `hycu-single` makes its tables.
-/

namespace Hycu
namespace Single

/-- FLINT presents the field `F` of `p` elements and its extensions `E k` of degree `k`, and the search for generators
comes to a primitive element, in `F` without passing by zero.  Nothing is said on the sizes of the fields.  Constructors
that end, normally or with a failure, give their outcomes. -/
structure Maker.Presents {F : Type} [Field F] [Fintype F] [DecidableEq F] (w : Maker F) (p : Nat) (rep : FqRep F p 1)
    (E : Nat → Extension F) where
  flint : FlintOk rep w.flint
  cand : Nat → F
  index : Nat
  first : FirstPrimitive cand index
  nonzero : ∀ j, j < index → cand j ≠ 0
  table : ∀ r, Gives (FqElementTable.make cand p 1) r → w.table = r
  repK : ∀ k, 0 < k → FqRep (E k).K p k
  candK : ∀ k, Nat → (E k).K
  indexK : Nat → Nat
  firstK : ∀ k, 0 < k → FirstPrimitive (candK k) (indexK k)
  reduction : ∀ b k (h : 0 < k) r, Gives (ReductionTable.make (repK k h).coeff (candK k) p k b) r → w.reduction b k = r

end Single
end Hycu
