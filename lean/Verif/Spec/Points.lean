import Mathlib.Algebra.Polynomial.Eval.Defs
import Mathlib.Algebra.Polynomial.Degree.Defs
import Mathlib.SetTheory.Cardinal.Finite

/-!
Specification of the points of the curve `y^2 = f(x)` over a field, independent of the code.
-/

namespace Hycu

open Polynomial

/-- The polynomial with the given list of coefficients, constant coefficient first. -/
noncomputable def polyOfList {K : Type} [Field K] : List K → K[X]
  | [] => 0
  | a :: l => C a + X * polyOfList l

/-- Half of the smallest even number that is at least the degree: `g + 1` for the genus `g` of the curve. -/
noncomputable def halfDegree {K : Type} [Field K] (f : K[X]) : Nat := (f.natDegree + 1) / 2

/-- Points with `y ≠ 0` of the smooth projective model of `y^2 = f(x)` over `K`.  The model is glued from
`y^2 = f(x)` and `w^2 = v^(2G) f(1/v)` with `G = halfDegree f`; the points at infinity are those
with `v = 0`, and `w^2` is then the coefficient of `x^(2G)` in `f`. -/
noncomputable def unramifiedPoints {K : Type} [Field K] (f : K[X]) : Nat :=
  Nat.card {P : K × K // P.2 ^ 2 = f.eval P.1 ∧ P.2 ≠ 0} +
    Nat.card {w : K // w ^ 2 = f.coeff (2 * halfDegree f) ∧ w ≠ 0}

/-- Points with `y = 0` (`w = 0` at infinity) of the smooth projective model of `y^2 = f(x)` over `K`. -/
noncomputable def ramifiedPoints {K : Type} [Field K] (f : K[X]) : Nat :=
  Nat.card {P : K × K // P.2 ^ 2 = f.eval P.1 ∧ P.2 = 0} +
    Nat.card {w : K // w ^ 2 = f.coeff (2 * halfDegree f) ∧ w = 0}

end Hycu
