import Verif.Model.Curve
import Verif.Cpp.Sort

/-!
Model of `Curve::has_squarefree_rhs` and `Curve::ramification_type` (src/curve.cc).

FLINT's polynomial routines are parameters of the model (`FlintPoly`); what is assumed about them is stated in
`Verif.Spec.Ramification`.
-/

namespace Hycu

/-- The FLINT routines used: squarefree test and factorisation (factors with exponents) of `nmod_poly` and
`fq_nmod_poly`.  Polynomials are lists of coefficients, constant coefficient first; `nmod` ones are residues.
`coeff a i` is `nmod_poly_get_coeff_ui(a, i)` of a field element. -/
structure FlintPoly (F : Type) where
  coeff : F → Nat → Nat
  nmodIsSquarefree : List Nat → Bool
  fqIsSquarefree : List F → Bool
  nmodFactor : List Nat → List (List Nat × Nat)
  fqFactor : List F → List (List F × Nat)

namespace Curve

variable {F : Type}

/-- `rhs_nmod_polynomial` (src/curve.cc l.696-713), with `at_nmod` (src/fq_element_table.hh l.51-54), which
checks the range. -/
def rhsNmodPolynomial (fl : FlintPoly F) (c : Curve F) : Res (List Nat) :=
  if c.table.primeExponent ≠ 1 then .abort
  else c.coeffs.mapM fun e => do
    let a ← rdAt c.table.fqElements e
    pure (fl.coeff a 0)

/-- `rhs_polynomial` (src/curve.cc l.715-727). -/
def rhsPolynomial (c : Curve F) : Res (List F) := c.coeffs.mapM c.table.at'

/-- `has_squarefree_rhs` (src/curve.cc l.110-128). -/
def hasSquarefreeRhs (fl : FlintPoly F) (c : Curve F) : Res Bool :=
  if c.table.primeExponent = 1 then do
    let f ← c.rhsNmodPolynomial fl
    pure (fl.nmodIsSquarefree f)
  else do
    let f ← c.rhsPolynomial
    pure (fl.fqIsSquarefree f)

/-- `nmb_ramified_points_from_lower[gx]`: a missing key reads as 0. -/
def lowerAt (lower : OMap Nat Nat) (gx : Nat) : Nat :=
  match lower.find? gx with
  | some n => n
  | none => 0

/-- `for (gx = fx; gx < degree; gx += fx) lower[gx] += new` (src/curve.cc l.645-646). -/
def addMultiples (degree fx new : Nat) (lower : OMap Nat Nat) : OMap Nat Nat :=
  ((List.range ((degree - 1) / fx)).map fun k => (k + 1) * fx).foldl
    (fun (m : OMap Nat Nat) gx => m.set gx (u32 (lowerAt m gx + new))) lower

/-- The main loop of `ramification_type` (src/curve.cc l.630-647), with `n` values of `fx` left: final `fx`,
`ramification_sum` and `ramifications`.  The loop over `jx` pushes `⌈new/fx⌉` times. -/
def ramificationLoop (c : Curve F) : Nat → Nat → Nat → OMap Nat Nat → List Nat → Nat × Nat × List Nat
  | 0, fx, sum, _, rs => (fx, sum, rs)
  | n + 1, fx, sum, lower, rs =>
    match c.nmbPoints.find? (u32 (fx * c.table.primeExponent)) with
    | none => (fx, sum, rs)
    | some pts =>
      let new := u32sub pts.2 (lowerAt lower fx)
      ramificationLoop c n (fx + 1) (u32 (sum + new)) (addMultiples c.degree fx new lower)
        (rs ++ List.replicate ((new + fx - 1) / fx) fx)

/-- Degrees of the factors with multiplicity (src/curve.cc l.669-671 and l.684-686). -/
def factorDegreeList {α : Type} (l : List (List α × Nat)) : List Nat :=
  l.flatMap fun pe => List.replicate pe.2 (pe.1.length - 1)

/-- The degrees of the factors of the right hand side (src/curve.cc l.663-691). -/
def rhsFactorDegrees (fl : FlintPoly F) (c : Curve F) : Res (List Nat) :=
  if c.table.primeExponent = 1 then do
    let f ← c.rhsNmodPolynomial fl
    pure (factorDegreeList (fl.nmodFactor f))
  else do
    let f ← c.rhsPolynomial
    pure (factorDegreeList (fl.fqFactor f))

/-- The map `nmb_ramified_points_from_lower` at the start (src/curve.cc l.626-628). -/
def lowerInit (degree : Nat) : OMap Nat Nat :=
  ((List.range (degree - 1)).map (· + 1)).foldl (fun (m : OMap Nat Nat) fx => m.set fx 0) []

/-- `ramification_type` (src/curve.cc l.616-694). -/
def ramificationType (fl : FlintPoly F) (c : Curve F) : Res (List Nat) :=
  match ramificationLoop c (c.degree - 1) 1 0 (lowerInit c.degree) [] with
  | (fx, sum, rs) =>
    let diff := u32sub (u32 (2 * c.genus + 2)) sum
    if diff < u32 (2 * fx) then .ok (if diff ≠ 0 then rs ++ [diff] else rs)
    else do
      let ds ← c.rhsFactorDegrees fl
      pure (sortBy (fun a b => decide (a < b)) ((if c.degree % 2 = 1 then [1] else []) ++ ds))

end Curve
end Hycu
