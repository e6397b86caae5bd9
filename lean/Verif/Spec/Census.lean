import Verif.Spec.Key
import Verif.Spec.Mass
import Verif.Model.Compute

/-!
What the program is meant to compute: numbers of polynomials with given data.
-/

namespace Hycu

open Polynomial

/-- The right hand sides of the curves that are asked for: squarefree polynomials of degree `2 genus + 1`, or
`2 genus + 2` unless a point is marked. -/
def Wanted {F : Type} [Field F] (genus : Nat) (marked : Bool) (f : F[X]) : Prop :=
  Squarefree f ∧ (f.natDegree = 2 * genus + 1 ∨ (marked = false ∧ f.natDegree = 2 * genus + 2))

/-- The number of these polynomials with given ramification type and Hasse-Weil offsets over the extensions of degree
`1..m`. -/
noncomputable def census {F : Type} [Field F] [Fintype F] (E : Nat → Extension F) (m genus : Nat) (marked : Bool)
    (k : Key) : Nat :=
  Nat.card {f : F[X] // Wanted genus marked f ∧ IsKey E m f k}

/-- What is assumed about FLINT for a configuration: it provides the field `F` of `p^r` elements, `p` odd, and extensions
of degree at most `countExponent`, the constructors of the tables end, the generators match, and the polynomial
routines are right. -/
structure Flint.Setting (w : Flint) (c : ConfigNode) where
  field : Field (w.F c.prime c.primeExponent)
  fintype : Fintype (w.F c.prime c.primeExponent)
  decEq : DecidableEq (w.F c.prime c.primeExponent)
  rep : FqRep (w.F c.prime c.primeExponent) c.prime c.primeExponent
  gen : w.F c.prime c.primeExponent
  table : FqElementTable (w.F c.prime c.primeExponent)
  E : Nat → Extension (w.F c.prime c.primeExponent)
  g : ∀ k, (E k).K
  rt : Nat → ReductionTable
  odd : c.prime ≠ 2
  made : w.fqTable c.prime c.primeExponent = .ok table
  built : BuiltFqTable c.prime c.primeExponent gen table
  flint : FlintOk rep (w.poly c.prime c.primeExponent)
  madeExt : ∀ k, 0 < k → k ≤ c.countExponent → w.reductionTable c.prime (k * c.primeExponent) = .ok (rt k)
  builtExt : ∀ k, 0 < k → k ≤ c.countExponent → BuiltExtension c.prime c.primeExponent gen E g rt k

/-- The numbers of polynomials for a configuration. -/
noncomputable def Flint.Setting.count {w : Flint} {c : ConfigNode} (s : w.Setting c) (k : Key) : Nat :=
  @census _ s.field s.fintype s.E c.countExponent c.genus c.withMarkedPoint k

/-- The numbers in a configuration that are required to be positive (see `ConfigNode.verify`), and their bounds. -/
structure ConfigNode.Feasible (c : ConfigNode) : Prop where
  genus_pos : 0 < c.genus
  genus_lt : c.genus < 1073741823
  degree_lt : (2 * c.genus + 2) * c.primeExponent < 4294967296
  count_pos : 0 < c.countExponent
  package_pos : 0 < c.packageSize

end Hycu
