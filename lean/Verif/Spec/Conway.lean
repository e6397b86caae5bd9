import Mathlib.Algebra.Polynomial.AlgebraMap
import Mathlib.Data.ZMod.Basic
import Verif.Spec.Census

/-!
Conway polynomials, and FLINT as far as it presents finite fields by them.
-/

namespace Hycu

open Polynomial

/-- The properties of Conway polynomials of degree at most `N` that matter here (they are also minimal in a certain
order): each of them is irreducible, has a primitive root, and the power of the root with the order of the
multiplicative group of a subfield is a root of the Conway polynomial of the subfield. -/
structure IsConway (p N : Nat) (C : Nat → (ZMod p)[X]) : Prop where
  monic : ∀ n, 0 < n → n ≤ N → (C n).Monic
  degree : ∀ n, 0 < n → n ≤ N → (C n).natDegree = n
  irreducible : ∀ n, 0 < n → n ≤ N → Irreducible (C n)
  primitive : ∀ n, 0 < n → n ≤ N → ∀ m, C n ∣ X ^ m - 1 ↔ p ^ n - 1 ∣ m
  compatible : ∀ d n, 0 < d → 0 < n → n ≤ N → d ∣ n → C n ∣ (C d).comp (X ^ ((p ^ n - 1) / (p ^ d - 1)))

/-- FLINT for a configuration, where all fields are presented by Conway polynomials (as FLINT does if it has them in its
data base): `fq_nmod_gen` is a root of the Conway polynomial and is the first candidate in the search for generators;
the other candidates are arbitrary.  Constructors that end give their outcomes.  The sizes of the fields are in the range of the code. -/
structure ConwayFlint (w : Flint) (c : ConfigNode) where
  C : Nat → (ZMod c.prime)[X]
  conway : IsConway c.prime (c.countExponent * c.primeExponent) C
  field : ∀ n, Field (w.F c.prime n)
  fintype : ∀ n, Fintype (w.F c.prime n)
  decEq : ∀ n, DecidableEq (w.F c.prime n)
  algebra : ∀ n, Algebra (ZMod c.prime) (w.F c.prime n)
  rep : ∀ n, 0 < n → FqRep (w.F c.prime n) c.prime n
  cand : ∀ n, Nat → w.F c.prime n
  gen : ∀ n, 0 < n → n ≤ c.countExponent * c.primeExponent → aeval (cand n 0) (C n) = 0
  odd : c.prime ≠ 2
  exponent_pos : 0 < c.primeExponent
  count_pos : 0 < c.countExponent
  opencl : Bool
  small : c.prime ^ (c.countExponent * c.primeExponent) < 2147483647
  openclSmall : opencl = true → c.prime ^ (c.countExponent * c.primeExponent) ≤ 1073741824
  fqTable : ∀ t, Terminates (FqElementTable.make (cand c.primeExponent) c.prime c.primeExponent) t →
    w.fqTable c.prime c.primeExponent = .ok t
  reductionTable : ∀ n (h : 0 < n) t, Terminates (ReductionTable.make (rep n h).coeff (cand n) c.prime n opencl) t →
    w.reductionTable c.prime n = .ok t
  poly : FlintOk (rep c.primeExponent exponent_pos) (w.poly c.prime c.primeExponent)

/-- Some field of `p^r` elements with extensions of degree `1..m`.  Nothing is said about generators. -/
structure FieldFamily (p r m : Nat) where
  F : Type
  field : Field F
  fintype : Fintype F
  E : Nat → Extension F
  card_eq : Fintype.card F = p ^ r
  card_ext : ∀ k, 0 < k → k ≤ m → Fintype.card (E k).K = p ^ (k * r)

/-- The numbers of polynomials over the field. -/
noncomputable def FieldFamily.count {p r m : Nat} (A : FieldFamily p r m) (genus : Nat) (marked : Bool) (k : Key) : Nat :=
  @census A.F A.field A.fintype A.E m genus marked k

end Hycu
