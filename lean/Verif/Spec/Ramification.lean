import Mathlib.Algebra.Squarefree.Basic
import Mathlib.RingTheory.Polynomial.UniqueFactorization
import Verif.Spec.Points
import Verif.Spec.Field
import Verif.Model.Ramification

/-!
Specification of the ramification type, and what is assumed about FLINT's polynomial routines.
-/

namespace Hycu

open Polynomial

/-- The degrees of the irreducible factors of `f`, with multiplicities. -/
noncomputable def factorDegrees {F : Type} [Field F] (f : F[X]) : Multiset Nat :=
  (UniqueFactorizationMonoid.factors f).map natDegree

/-- The degrees of the branch points of the double cover `y^2 = f(x)` of the line, for squarefree `f`: the
irreducible factors of `f`, and infinity if the degree is odd. -/
noncomputable def branchDegrees {F : Type} [Field F] (f : F[X]) : Multiset Nat :=
  factorDegrees f + if f.natDegree % 2 = 1 then {1} else 0

/-- A factorisation of `f` given by polynomials (lists of coefficients with non-zero leading coefficient) and
exponents: `f` is a constant times their product, and they are irreducible. -/
structure IsFactorisation {F : Type} [Field F] (f : F[X]) (l : List (List F × Nat)) : Prop where
  lead : ∃ a : F, a ≠ 0 ∧ f = C a * (l.map fun pe => polyOfList pe.1 ^ pe.2).prod
  irreducible : ∀ pe ∈ l, Irreducible (polyOfList pe.1)
  normal : ∀ pe ∈ l, ∃ a, pe.1.getLast? = some a ∧ a ≠ 0

/-- What is assumed about FLINT, for the field `F` of `p^r` elements presented by `rep`.  If `r = 1`, `nmod`
polynomials are polynomials over `F` given by residues. -/
structure FlintOk {F : Type} [Field F] [Fintype F] {p r : Nat} (rep : FqRep F p r) (fl : FlintPoly F) : Prop where
  coeff_eq : fl.coeff = rep.coeff
  fq_squarefree : ∀ cs : List F, fl.fqIsSquarefree cs = true ↔ Squarefree (polyOfList cs)
  fq_factor : ∀ cs : List F, polyOfList cs ≠ 0 → IsFactorisation (polyOfList cs) (fl.fqFactor cs)
  nmod_squarefree : r = 1 → ∀ cs : List Nat,
    fl.nmodIsSquarefree cs = true ↔ Squarefree (polyOfList (cs.map (Nat.cast : Nat → F)))
  nmod_factor : r = 1 → ∀ cs : List Nat, polyOfList (cs.map (Nat.cast : Nat → F)) ≠ 0 →
    IsFactorisation (polyOfList (cs.map (Nat.cast : Nat → F)))
      ((fl.nmodFactor cs).map fun pe => (pe.1.map (Nat.cast : Nat → F), pe.2))

end Hycu
