import Mathlib.Algebra.Polynomial.Eval.Defs
import Mathlib.Algebra.Polynomial.Degree.Defs
import Mathlib.Algebra.Polynomial.Degree.Operations
import Mathlib.Data.Fintype.Pi
import Mathlib.Data.Set.Finite.Basic
import Verif.Spec.Field

/-!
Specification of the mass formula: all polynomials of given degree and invariant functions on them.
-/

namespace Hycu

open Polynomial

theorem finite_polys (F : Type) [Field F] [Finite F] (d : Nat) :
    {f : F[X] | f ≠ 0 ∧ f.natDegree = d}.Finite := by
  have hinj : Function.Injective
      (fun (f : {f : F[X] // f ≠ 0 ∧ f.natDegree = d}) (i : Fin (d + 1)) => f.1.coeff i) := by
    intro f g h
    apply Subtype.ext
    ext n
    by_cases hn : n < d + 1
    · exact congrFun h ⟨n, hn⟩
    · rw [coeff_eq_zero_of_natDegree_lt (by rw [f.2.2]; omega), coeff_eq_zero_of_natDegree_lt (by rw [g.2.2]; omega)]
  have : Finite {f : F[X] // f ≠ 0 ∧ f.natDegree = d} := Finite.of_injective _ hinj
  exact Set.finite_coe_iff.1 this

/-- All polynomials of degree `d` over a finite field. -/
noncomputable def polysOfDegree (F : Type) [Field F] [Finite F] (d : Nat) : Finset F[X] :=
  (finite_polys F d).toFinset

/-- `φ` is invariant under substituting `b x + a` for `x` and under multiplication by squares: these
substitutions give isomorphic curves `y^2 = f(x)`. -/
def CurveInvariant {F : Type} [Field F] (φ : F[X] → Nat) : Prop :=
  ∀ (f : F[X]) (a b c : F), b ≠ 0 → c ≠ 0 → φ (C (c ^ 2) * f.comp (C b * X + C a)) = φ f

end Hycu
