import Mathlib.Algebra.BigOperators.Group.Finset.Basic
import Mathlib.Algebra.Polynomial.Eval.Degree
import Mathlib.Algebra.Squarefree.Basic
import Verif.Spec.Tuples

/-!
How much work an enumeration is.
-/

namespace Hycu

/-- How many polynomials of degree `d` over the field of `q` elements, a power of `p`, are enumerated.

* If `d < p`: the leading coefficient is arbitrary, the next one is zero, the first nonzero one thereafter is fixed, and the
  one that follows is known up to powers.
* Otherwise the leading coefficient is fixed.  Either the next one is zero, the third one is zero or one of two, and the
  others are arbitrary; or, if `p` divides `d`, the second one is not zero, the third one is zero, the fourth one is zero
  or known up to cubes, and the others are arbitrary. -/
def curvesOfDegree (q p d : Nat) : Nat :=
  if d < p then 1 + ∑ m ∈ Finset.range (d - 1), (q - 1) * (1 + ∑ l ∈ Finset.range m, Nat.gcd (m - l) (q - 1) * q ^ l)
  else if p ∣ d then (q - 1) * (Nat.gcd 3 (q - 1) + 1) * q ^ (d - 3) + 3 * q ^ (d - 2)
  else 3 * q ^ (d - 2)

/-- How many polynomials are enumerated for the given genus. -/
def curves (q p genus : Nat) (marked : Bool) : Nat :=
  curvesOfDegree q p (2 * genus + 1) + if marked then 0 else curvesOfDegree q p (2 * genus + 2)

open Polynomial in
/-- `S` has a polynomial for each class of squarefree polynomials of degree `d`, where polynomials are in the same class if
they differ by a factor and a substitution. -/
def Represents {F : Type} [Field F] (S : Finset F[X]) (d : Nat) : Prop := ∀ h : F[X], Squarefree h → h.natDegree = d →
  ∃ f ∈ S, ∃ a b c : F, b ≠ 0 ∧ c ≠ 0 ∧ C c * f.comp (C b * X + C a) = h

/-- What is chosen outside of the ranges. -/
def Descr.others (d : Descr) (v : List Nat) : List Nat := v.mapIdx fun i x => if i ∈ d.blocks.map Prod.fst then 0 else x

/-- In how many ways coefficients of polynomials of degree `d` are chosen that are neither known nor arbitrary nor only known
to be nonzero, see `curvesOfDegree`. -/
def choicesOfDegree (q p d : Nat) : Nat :=
  if d < p then 1 + ∑ m ∈ Finset.range (d - 1), (1 + ∑ l ∈ Finset.range m, Nat.gcd (m - l) (q - 1))
  else if p ∣ d then (Nat.gcd 3 (q - 1) + 1) + 3
  else 3

/-- The same for the given genus. -/
def choices (q p genus : Nat) (marked : Bool) : Nat :=
  choicesOfDegree q p (2 * genus + 1) + if marked then 0 else choicesOfDegree q p (2 * genus + 2)

end Hycu
