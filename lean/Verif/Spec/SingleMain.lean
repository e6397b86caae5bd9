import Verif.Spec.Extension
import Verif.Spec.Ramification
import Verif.Model.SingleMain

/-!
What `hycu-single` should print, and what is assumed about FLINT and the tables it uses.
-/

namespace Hycu
namespace Single

open Fintype

/-- The text for the prime `p`, the coefficients `cs` and their exponents `es` (constant coefficient first), the numbers
of points, the offsets and the ramification type. -/
def report (p : Nat) (cs es : List Nat) (points : List (Nat × Nat)) (offsets : List Int) (ramification : List Nat) :
    List Char :=
  let line (title : String) (items : List (List Char)) : List Char := title.toList ++ items.flatten ++ ['\n']
  let term (c : Nat × Nat) : List Char := "(".toList ++ showNat c.1 ++ ")*X^".toList ++ showNat c.2
  line "Y^2 = " [" + ".toList.intercalate (cs.zipIdx.map term).reverse, "  /  F_".toList, showNat p] ++
  line "coefficient exponents: " (es.map fun e => showNat e ++ " ".toList) ++
  line "number of points: " (points.map fun n => showNat n.1 ++ " ".toList ++ showNat n.2 ++ ";  ".toList) ++
  line "hasse-weil offsets: " (offsets.map fun z => showInt z ++ ";  ".toList) ++
  line "ramification type: " (ramification.map fun r => showNat r ++ ",".toList)

/-- `nf` is a field of `p^k` elements, and its generator is primitive and matches the generator `gF` of the prime
field. -/
def NaiveOk {F : Type} [Field F] [Fintype F] (p : Nat) (gF : F) (nf : NaiveField) (k : Nat) : Prop :=
  ∃ (_ : Fintype nf.K) (ι : F →+* nf.K), card nf.K = p ^ k ∧ Primitive nf.gen ∧ GeneratorsMatch gF nf.gen ι

/-- FLINT and the tables for the prime `p` and the extensions of degree up to `m`: the tables are built by the
constructors, generators match, and the sizes are within the range of the code. -/
structure World.Ok {F : Type} [Field F] [Fintype F] [DecidableEq F] (w : World F) (p : Nat) (rep : FqRep F p 1) (g : F)
    (E : Nat → Extension F) (m : Nat) : Prop where
  flint : FlintOk rep w.flint
  table : BuiltFqTable p 1 g w.table
  small : (p - 1) * rep.coeff g 0 < 4294967296
  one : (w.reduction false 1).prime = p ∧ (w.reduction false 1).primeExponent = 1
  reduction : ∀ b, ∃ gK : ∀ k, (E k).K, ∀ k, 0 < k → k ≤ m → BuiltExtension p 1 g E gK (w.reduction b) k
  nmod : ∀ k, 0 < k → k ≤ m → NaiveOk p g (w.nmod k) k
  zech : ∀ k, 0 < k → k ≤ m → NaiveOk p g (w.zech k) k

end Single
end Hycu
