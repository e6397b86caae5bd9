import Verif.Model.Curve

/-!
Model of `single_curve_fp` (src/single_curve_fp.cc), the function behind `hycu-single`.
-/

namespace Hycu
namespace Single

/-- Loop that fills `fp_conversion_map` (src/single_curve_fp.cc l.50-53), `n` iterations left; the product is in
unsigned 32 bit arithmetic. -/
def conversionLoop (prime gen : Nat) : Nat → Nat → Nat → OMap Nat Nat → OMap Nat Nat
  | 0, _, _, m => m
  | n + 1, ex, a, m => conversionLoop prime gen n (ex + 1) (u32 (a * gen) % prime) (m.set a ex)

/-- `fp_conversion_map` (src/single_curve_fp.cc l.47-53). -/
def conversionMap (prime gen : Nat) : OMap Nat Nat :=
  conversionLoop prime gen (prime - 1) 0 1 (OMap.set [] 0 (prime - 1))

/-- `at_nmod` (src/fq_element_table.hh l.50-53): checked access, then the constant coefficient.  `coeff` is the
presentation of field elements by FLINT. -/
def atNmod {F : Type} (coeff : F → Nat → Nat) (table : FqElementTable F) (ix : Nat) : Res Nat := do
  let a ← rdAt table.fqElements ix
  pure (coeff a 0)

/-- `poly_coeff_exponents` (src/single_curve_fp.cc l.46-57).  A coefficient that is not a key of the map reads as
0 (`std::map::operator[]`). -/
def exponents {F : Type} (coeff : F → Nat → Nat) (table : FqElementTable F) (prime : Nat)
    (polyCoeffs : List Nat) : Res (List Nat) := do
  let gen ← atNmod coeff table 1
  pure (polyCoeffs.map (ReductionTable.lookup (conversionMap prime gen)))

/-- `single_curve_fp` with the CPU or OpenCL implementation (src/single_curve_fp.cc l.37-119): `table` is the
element table built in l.44 and `rt fx` the reduction table built in l.101. -/
def singleCurveFp {F : Type} (coeff : F → Nat → Nat) (table : FqElementTable F) (rt : Nat → ReductionTable)
    (prime : Nat) (polyCoeffs : List Nat) : Res (Curve F) := do
  let es ← exponents coeff table prime polyCoeffs
  let c ← Curve.make table es
  ((List.range c.genus).reverse.map fun k => rt (k + 1)).foldlM Curve.count c

end Single
end Hycu
