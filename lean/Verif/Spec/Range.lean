import Verif.Spec.Run
import Verif.Spec.Setting
import Verif.Model.Compute

/-!
FLINT's fields for a configuration, of any size.
-/

namespace Hycu

/-- A loop modelled with an iteration bound has the outcome `r`, which may be a failure. -/
def Gives {α : Type} (run : Nat → Res α) (r : Res α) : Prop := ∃ N, ∀ n, N ≤ n → run n = r

/-- FLINT presents the fields of a configuration, and the search for generators comes to a primitive element without
passing by zero.  Nothing is said on the sizes of the fields.  Constructors that end, normally or with a failure, give
their outcomes. -/
structure Presents (w : Flint) (c : ConfigNode) where
  field : ∀ n, Field (w.F c.prime n)
  fintype : ∀ n, Fintype (w.F c.prime n)
  decEq : ∀ n, DecidableEq (w.F c.prime n)
  rep : ∀ n, 0 < n → FqRep (w.F c.prime n) c.prime n
  cand : ∀ n, Nat → w.F c.prime n
  index : Nat → Nat
  first : ∀ n, 0 < n → FirstPrimitive (cand n) (index n)
  nonzero : ∀ n, 0 < n → ∀ j, j < index n → cand n j ≠ 0
  opencl : Bool
  exponent_pos : 0 < c.primeExponent
  count_pos : 0 < c.countExponent
  /-- the product is computed in `unsigned int` -/
  product : c.countExponent * c.primeExponent < 4294967296
  fqTable : ∀ r, Gives (FqElementTable.make (cand c.primeExponent) c.prime c.primeExponent) r →
    w.fqTable c.prime c.primeExponent = r
  reductionTable : ∀ n (h : 0 < n) r, Gives (ReductionTable.make (rep n h).coeff (cand n) c.prime n opencl) r →
    w.reductionTable c.prime n = r

end Hycu
