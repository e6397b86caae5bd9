import Verif.Model.SingleMain

/-!
Model of `hycu-single` with the tables that it makes: `single_curve_fp` (src/single_curve_fp.cc) and the main function
(src/executables/single.cc l.130-161).

Simplification: what has been written to `cout` before a failure is left out.
-/

namespace Hycu
namespace Single

/-- FLINT, and the outcomes of the constructors for the prime given on the command line: the table of elements
(src/single_curve_fp.cc l.44), the reduction tables with and without OpenCL for each exponent (l.101 and
src/executables/single.cc l.138), and the fields of the naive implementations for each exponent (src/curve.cc l.317-339
and l.441-463). -/
structure Maker (F : Type) where
  flint : FlintPoly F
  table : Res (FqElementTable F)
  reduction : Bool → Nat → Res ReductionTable
  nmod : Nat → NaiveField
  zech : Nat → NaiveField

variable {F : Type}

/-- The body of the loops of `single_curve_fp` (src/single_curve_fp.cc l.80-92 and l.97-116): a reduction table is made
for each exponent, the naive implementations do without. -/
def countMaking (w : Maker F) (imp : Implementation) (c : Curve F) (fx : Nat) : Res (Curve F) :=
  match imp with
  | .cpu => do
    let rt ← w.reduction false fx
    c.count rt
  | .opencl => do
    let rt ← w.reduction true fx
    c.count rt
  | .naiveNmod => c.countNaive (w.nmod fx).gen fx
  | .naiveZech => c.countNaive (w.zech fx).gen fx

/-- `single_curve_fp` (src/single_curve_fp.cc l.37-119). -/
def curveMaking (w : Maker F) (imp : Implementation) (prime : Nat) (polyCoeffs : List Nat) : Res (Curve F) := do
  let table ← w.table
  let es ← exponents w.flint.coeff table prime polyCoeffs
  let c ← Curve.make table es
  ((List.range c.genus).reverse.map (· + 1)).foldlM (countMaking w imp) c

/-- What is written to `cout` (src/executables/single.cc l.135-157): the line with the curve, before the table is made,
and the rest. -/
def outputMaking (w : Maker F) (c : Curve F) : Res (List Char) := do
  let _ ← showCurve w.flint c
  let rt ← w.reduction false 1
  output ⟨w.flint, c.table, fun _ _ => rt, w.nmod, w.zech⟩ c

/-- `main` (src/executables/single.cc l.37-161): exit code and what was written to `cout`. -/
def mainMaking (w : Maker F) (o : Options) : Res (Nat × List Char) :=
  if o.help then .ok (0, [])
  else match o.fieldSize with
    | none => .ok (1, [])
    | some prime => match o.coefficients with
      | none => .ok (1, [])
      | some cs =>
        if cs.length < 2 then .ok (1, [])
        else if ¬ prime.Prime then .ok (1, [])
        else if 1 < o.implementations then .ok (1, [])
        else do
          let c ← curveMaking w o.implementation prime cs
          let text ← outputMaking w c
          pure (0, text)

end Single
end Hycu
