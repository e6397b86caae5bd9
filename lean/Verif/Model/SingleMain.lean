import Verif.Model.Single
import Verif.Model.Ramification
import Verif.Cpp.Stream
import Mathlib.Data.Nat.Prime.Defs

/-!
Model of the main function of `hycu-single` (src/executables/single.cc) and of the output of a curve
(`operator<<`, src/curve.cc l.52-69).

Simplifications: the command line has been parsed; what is written to `cerr` is left out; FLINT's `n_is_prime` is
`Nat.Prime`; tables are built without error.
-/

namespace Hycu
namespace Single

/-- `SingleCurveCountImplementation` (src/single_curve_fp.hh l.34-40). -/
inductive Implementation where
  | cpu
  | opencl
  | naiveNmod
  | naiveZech
  deriving DecidableEq

/-- A field as FLINT provides it to the naive counting functions, with its generator. -/
structure NaiveField where
  K : Type
  fld : Field K
  dec : DecidableEq K
  gen : K

attribute [instance] NaiveField.fld NaiveField.dec

/-- FLINT and the tables for the prime given on the command line: the table of elements (src/single_curve_fp.cc
l.44), the reduction tables for each exponent, with and without OpenCL (l.101 and src/executables/single.cc l.138),
and the fields of the naive implementations for each exponent (src/curve.cc l.317-339 and l.441-463). -/
structure World (F : Type) where
  flint : FlintPoly F
  table : FqElementTable F
  reduction : Bool → Nat → ReductionTable
  nmod : Nat → NaiveField
  zech : Nat → NaiveField

/-- The parsed command line (src/executables/single.cc l.42-73).  Without OpenCL there is no option `opencl`. -/
structure Options where
  help : Bool
  fieldSize : Option Nat
  coefficients : Option (List Nat)
  opencl : Bool
  naiveNmod : Bool
  naiveZech : Bool

/-- `nmb_implementations` (src/executables/single.cc l.108-111). -/
def Options.implementations (o : Options) : Nat := o.naiveNmod.toNat + o.naiveZech.toNat + o.opencl.toNat

/-- `count_implementation` (src/executables/single.cc l.118-128). -/
def Options.implementation (o : Options) : Implementation :=
  if o.naiveNmod then .naiveNmod else if o.naiveZech then .naiveZech else if o.opencl then .opencl else .cpu

/-- The body of the loops of `single_curve_fp` (src/single_curve_fp.cc l.80-92 and l.97-116). -/
def countWith {F : Type} (w : World F) (imp : Implementation) (c : Curve F) (fx : Nat) : Res (Curve F) :=
  match imp with
  | .cpu => c.count (w.reduction false fx)
  | .opencl => c.count (w.reduction true fx)
  | .naiveNmod => c.countNaive (w.nmod fx).gen fx
  | .naiveZech => c.countNaive (w.zech fx).gen fx

/-- `single_curve_fp` (src/single_curve_fp.cc l.37-119) with any implementation. -/
def curve {F : Type} (w : World F) (imp : Implementation) (prime : Nat) (polyCoeffs : List Nat) : Res (Curve F) := do
  let es ← exponents w.flint.coeff w.table prime polyCoeffs
  let c ← Curve.make w.table es
  ((List.range c.genus).reverse.map (· + 1)).foldlM (countWith w imp) c

/-- The loop of `operator<<` (src/curve.cc l.59-65) with `n` coefficients left, the one of `X^(n-1)` next.
`fq_nmod_get_str_pretty` of an element of a prime field is its residue. -/
def termsLoop {F : Type} (fl : FlintPoly F) (c : Curve F) : Nat → Res (List Char)
  | 0 => .ok []
  | ix + 1 => do
    let e ← rd c.coeffs ix
    let a ← c.table.at' e
    let rest ← termsLoop fl c ix
    pure ('(' :: (showNat (fl.coeff a 0) ++ (")*X^".toList ++ (showNat ix ++
      ((if ix ≠ 0 then " + ".toList else []) ++ rest)))))

/-- `operator<<` (src/curve.cc l.52-69) for a curve over a prime field. -/
def showCurve {F : Type} (fl : FlintPoly F) (c : Curve F) : Res (List Char) := do
  let terms ← termsLoop fl c c.coeffs.length
  pure ("Y^2 = ".toList ++ (terms ++ ("  /  ".toList ++ ("F_".toList ++ showNat c.table.primePower))))

/-- What is written to `cout` (src/executables/single.cc l.135-157). -/
def output {F : Type} (w : World F) (c : Curve F) : Res (List Char) := do
  let line ← showCurve w.flint c
  let es ← c.convert (w.reduction false 1)
  let points ← c.numberOfPoints c.genus
  let offsets ← c.hasseWeilOffsets c.genus
  let ramification ← c.ramificationType w.flint
  pure (line ++ '\n' ::
    ("coefficient exponents: ".toList ++ (es.flatMap fun e => showNat e ++ [' ']) ++ '\n' ::
    ("number of points: ".toList ++ (points.flatMap fun n =>
      showNat n.1 ++ (' ' :: showNat n.2 ++ ";  ".toList)) ++ '\n' ::
    ("hasse-weil offsets: ".toList ++ (offsets.flatMap fun o => showInt o ++ ";  ".toList) ++ '\n' ::
    ("ramification type: ".toList ++ (ramification.flatMap fun r => showNat r ++ [',']) ++ ['\n'])))))

/-- `main` (src/executables/single.cc l.37-161): exit code and what was written to `cout`. -/
def main {F : Type} (w : World F) (o : Options) : Res (Nat × List Char) :=
  if o.help then .ok (0, [])
  else match o.fieldSize with
    | none => .ok (1, [])
    | some prime => match o.coefficients with
      | none => .ok (1, [])
      | some cs =>
        if cs.length < 2 then .ok (1, [])
        else if ¬ prime.Prime then .ok (1, [])
        else if 1 < o.implementations then .ok (1, [])
        else do
          let c ← curve w o.implementation prime cs
          let text ← output w c
          pure (0, text)

end Single
end Hycu
