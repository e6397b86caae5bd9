import Verif.Model.Tables

/-!
Model of `Curve` (src/curve.{hh,cc}) except `ramification_type` and `has_squarefree_rhs` (see
`Verif.Model.Ramification`), of the OpenCL evaluation kernel (src/opencl/evaluation.cl) and of the host side
summation (src/opencl/kernel_reduction.cc).

Simplifications: printing is left out; OpenCL calls succeed and buffers are copied at the call;
`int32_t` table entries are natural numbers (tables with negative entries are never completed: `C14_too_large`).
-/

namespace Hycu

/-- `Curve` (src/curve.hh l.46-96). -/
structure Curve (F : Type) where
  table : FqElementTable F
  coeffs : List Nat
  nmbPoints : OMap Nat (Nat × Nat)

namespace Curve

variable {F : Type}

/-- The loop of the constructor (src/curve.cc l.80-81) on the reversed coefficient vector: `back()` of an
empty vector is undefined. -/
def strip (z : Nat) : List Nat → Res (List Nat)
  | [] => .ub
  | c :: cs => if c = z then strip z cs else .ok (c :: cs)

/-- Constructor (src/curve.cc l.71-82). -/
def make (table : FqElementTable F) (coeffs : List Nat) : Res (Curve F) := do
  let cs ← strip table.zeroIndex coeffs.reverse
  pure { table := table, coeffs := cs.reverse, nmbPoints := [] }

/-- `degree` (src/curve.hh l.55). -/
def degree (c : Curve F) : Nat := u32sub (u32 c.coeffs.length) 1

/-- `genus` (src/curve.cc l.84-93), unsigned arithmetic. -/
def genus (c : Curve F) : Nat :=
  if c.degree % 2 = 0 then u32sub c.degree 2 / 2 else u32sub c.degree 1 / 2

/-- `rhs_support` (src/curve.cc l.95-108). -/
def rhsSupport (c : Curve F) : List Nat :=
  (List.range c.coeffs.length).filter fun ix => c.coeffs[ix]? ≠ some c.table.zeroIndex

/-- `convert_poly_coeff_exponents` (src/curve.cc l.130-160). -/
def convert (c : Curve F) (t : ReductionTable) : Res (List Nat) :=
  if c.table.prime ≠ t.prime then .abort
  else if c.table.primeExponent = 0 then .ub
  else if t.primeExponent % c.table.primeExponent ≠ 0 then .abort
  else if c.table.primeExponent = t.primeExponent then .ok c.coeffs
  else if c.table.primePowerPred = 0 then .ub
  else
    .ok (c.coeffs.map fun e =>
      if e ≠ c.table.primePowerPred then u32 (t.primePowerPred / c.table.primePowerPred * e)
      else t.primePowerPred)

/-- Unsigned 32 bit addition, as used on the CPU. -/
def addU32 (a b : Nat) : Res Nat := .ok (u32 (a + b))

/-- Signed 32 bit addition of non-negative numbers, as used in the OpenCL kernel: overflow is undefined. -/
def addI32 (a b : Nat) : Res Nat := if a + b < 2147483648 then .ok (a + b) else .ub

/-- One step of the evaluation of the polynomial, for coefficient `c` and reduced exponent `xpw`
(src/curve.cc l.265-287 with `add = addU32`, src/opencl/evaluation.cl l.48-69 with `add = addI32`; the two
pieces of code are the same statements on different integer types). -/
def evalStep (add : Nat → Nat → Res Nat) (ert inc : List Nat) (pred c xpw f : Nat) : Res Nat :=
  if c ≠ pred then
    if f = pred then do
      let i ← add c xpw
      rd ert i
    else do
      let i ← add c xpw
      let tmp ← rd ert i
      let (lo, hi) := if tmp ≤ f then (tmp, f) else (f, tmp)
      let tmp2 ← rd inc (u32sub hi lo)
      if tmp2 ≠ pred then do
        let j ← add lo tmp2
        rd ert j
      else pure pred
  else pure f

/-- The loop over the coefficients in `count_cpu` (src/curve.cc l.263-288); the list holds the coefficients
still to come; `add` is the addition of `unsigned int`. -/
def evalLoop (add : Nat → Nat → Res Nat) (ert inc : List Nat) (pred x : Nat) :
    List Nat → Nat → Nat → Res Nat
  | [], _, f => .ok f
  | c :: cs, xpw, f => do
    let xpw ← rd ert xpw
    let f ← evalStep add ert inc pred c xpw f
    let xpw' ← add xpw x
    evalLoop add ert inc pred x cs xpw' f

/-- The loop over the coefficients in the kernel (src/opencl/evaluation.cl l.45-70). -/
def kernelLoop (ert inc : List Nat) (pred x : Nat) : List Nat → Nat → Nat → Res Nat
  | [], _, f => .ok f
  | c :: cs, xpw, f => do
    let xpw ← addI32 xpw x
    let xpw ← rd ert xpw
    let f ← evalStep addI32 ert inc pred c xpw f
    kernelLoop ert inc pred x cs xpw f

/-- Evaluation at one `x` on the CPU (src/curve.cc l.262-288). -/
def evalCpu (add : Nat → Nat → Res Nat) (ert inc : List Nat) (pred : Nat) (coeffs : List Nat) (x : Nat) :
    Res Nat := do
  let f ← rd coeffs 0
  evalLoop add ert inc pred x coeffs.tail x f

/-- Evaluation at one `x` by the kernel (src/opencl/evaluation.cl l.40-70). -/
def evalKernel (ert inc : List Nat) (pred : Nat) (coeffs : List Nat) (x : Nat) : Res Nat := do
  let f ← rd coeffs 0
  kernelLoop ert inc pred x coeffs.tail 0 f

/-- Update of the pair of counts by a value (src/curve.cc l.290-293, and l.194-198 for `x = 0`): unsigned
arithmetic. -/
def tally (pred f : Nat) (n : Nat × Nat) : Nat × Nat :=
  if f = pred then (n.1, u32 (n.2 + 1)) else if f % 2 = 0 then (u32 (n.1 + 2), n.2) else n

/-- `count_cpu` (src/curve.cc l.245-295): the new value of `nmb_points[prime_exponent]`. -/
def countCpu (t : ReductionTable) (coeffs : List Nat) (n : Nat × Nat) : Res (Nat × Nat) :=
  (List.range' 1 t.primePowerPred).foldlM (fun n x => do
    let f ← evalCpu addU32 t.exponentReductionTable t.incrementationTable t.primePowerPred coeffs x
    pure (tally t.primePowerPred f n)) n

/-- The two values the kernel writes for one `x` (src/opencl/evaluation.cl l.72-81). -/
def kernelOut (pred f : Nat) : Nat × Nat :=
  if f = pred then (0, 1) else if f % 2 = 1 then (0, 0) else (2, 0)

/-- `std::accumulate` over `int` with initial value 0 (src/opencl/kernel_reduction.cc l.127). -/
def accumulate (l : List Nat) : Res Nat := l.foldlM addI32 0

/-- `count_opencl` (src/curve.cc l.210-243) with the evaluation kernel run for all `x < prime_power_pred`
(src/opencl/kernel_evaluation.cc l.113-114) and the summation on the host
(src/opencl/kernel_reduction.cc l.79-141, `SIZE_PARTIAL_REDUCTION` is `1 >> 2`, that is 0).  The code as
written does not compile with `WITH_OPENCL` (vectors and tuples of `int` are expected where `unsigned int`
is passed); the model ignores this. -/
def countOpencl (t : ReductionTable) (coeffs : List Nat) (n : Nat × Nat) : Res (Nat × Nat) := do
  let out ← (List.range t.primePowerPred).mapM fun x => do
    let f ← evalKernel t.exponentReductionTable t.incrementationTable t.primePowerPred coeffs x
    pure (kernelOut t.primePowerPred f)
  let u ← accumulate (out.map Prod.fst)
  let r ← accumulate (out.map Prod.snd)
  pure (u32 (n.1 + u), u32 (n.2 + r))

/-- The point(s) at infinity (src/curve.cc l.201-207); `lead` is the converted leading coefficient. -/
def tallyInfinity (c : Curve F) (lead : Nat) (n : Nat × Nat) : Nat × Nat :=
  if c.degree < u32 (2 * c.genus + 2) then (n.1, u32 (n.2 + 1))
  else if lead % 2 = 0 then (u32 (n.1 + 2), n.2) else n

/-- The choice between OpenCL and CPU (src/curve.cc l.185-189); `nmb_points[prime_exponent]` starts as
`(0, 0)` (l.179). -/
def countAffine (t : ReductionTable) (cs : List Nat) : Res (Nat × Nat) :=
  if t.opencl then countOpencl t cs (0, 0) else countCpu t cs (0, 0)

/-- `count` (src/curve.cc l.162-208). -/
def count (c : Curve F) (t : ReductionTable) : Res (Curve F) :=
  if t.prime ≠ c.table.prime then .abort
  else if c.nmbPoints.contains t.primeExponent then .ok c
  else do
    let cs ← c.convert t
    let n ← countAffine t cs
    let front ← rd cs 0
    let n := tally t.primePowerPred front n
    let back ← rd cs (cs.length - 1)
    let n := c.tallyInfinity back n
    pure { c with nmbPoints := c.nmbPoints.set t.primeExponent n }

/-- Evaluation of the right hand side at `x` in the naive counting functions (src/curve.cc l.378-384 and
l.501-507): `rhs` and `xpw` after each coefficient. -/
def naiveEval {K : Type} [Field K] (x : K) : List K → K → K → K
  | [], _, rhs => rhs
  | c :: cs, xpw, rhs => naiveEval x cs (xpw * x) (rhs + c * xpw)

/-- `update_count` (src/curve.cc l.373-390 and l.496-513), Euler's criterion for squares (l.352-362 and
l.475-485). -/
def naiveUpdate {K : Type} [Field K] [DecidableEq K] (pred : Nat) (cs : List K) (x : K) (n : Nat × Nat) :
    Nat × Nat :=
  let rhs := naiveEval x cs 1 0
  if rhs = 0 then (n.1, u32 (n.2 + 1))
  else if rhs ^ (pred / 2) = 1 then (u32 (n.1 + 2), n.2) else n

/-- The loop over the powers of the generator (src/curve.cc l.394-398 and l.517-521). -/
def naiveLoop {K : Type} [Field K] [DecidableEq K] (pred : Nat) (cs : List K) (gen : K) :
    Nat → K → Nat × Nat → Nat × Nat
  | 0, _, n => n
  | k + 1, x, n => naiveLoop pred cs gen k (x * gen) (naiveUpdate pred cs x n)

/-- `count_naive_nmod` (src/curve.cc l.297-419) and `count_naive_zech` (l.421-542), which are the same
statements over two FLINT implementations of the field `K`; `gen` is the generator FLINT provides.  The conversion of
`pow(..) - 1` to `int` (l.319, l.443) is undefined if it does not fit. -/
def countNaive {K : Type} [Field K] [DecidableEq K] (c : Curve F) (gen : K) (primeExponent : Nat) :
    Res (Curve F) :=
  if primeExponent = 0 then .abort
  else if c.table.primeExponent = 0 then .ub
  else if primeExponent % c.table.primeExponent ≠ 0 then .abort
  else if c.nmbPoints.contains primeExponent then .ok c
  else if c.table.primePowerPred = 0 then .ub
  else if c.table.prime ^ primeExponent - 1 ≥ 2147483648 then .ub
  else do
    let pred := c.table.prime ^ primeExponent - 1
    let subGen := gen ^ (pred / c.table.primePowerPred)
    let cs := c.coeffs.map fun e => if e = c.table.primePowerPred then 0 else subGen ^ e
    let n := naiveUpdate pred cs 0 (0, 0)
    let n := naiveLoop pred cs gen pred 1 n
    let back ← rd cs (cs.length - 1)
    let n :=
      if c.degree < u32 (2 * c.genus + 2) then (n.1, u32 (n.2 + 1))
      else if back ^ (pred / 2) = 1 then (u32 (n.1 + 2), n.2) else n
    pure { c with nmbPoints := c.nmbPoints.set primeExponent n }

/-- `number_of_points(max_prime_exponent)` (src/curve.cc l.544-561): `map::at` throws for a missing key, an exponent
of zero is a division by zero (l.553). -/
def numberOfPoints (c : Curve F) (max : Nat) : Res (List (Nat × Nat)) :=
  if c.table.primeExponent = 0 then .ub
  else
    (List.range (max / c.table.primeExponent)).mapM fun k =>
      match c.nmbPoints.find? ((k + 1) * c.table.primeExponent) with
      | some n => .ok n
      | none => .abort

/-- Loop of `max_prime_exponent` (src/curve.cc l.576-578), with a bound on the number of iterations. -/
def maxPrimeExponentLoop (c : Curve F) : Nat → Nat → Res Nat
  | 0, _ => .diverge
  | fuel + 1, e =>
    if c.nmbPoints.contains e then maxPrimeExponentLoop c fuel (e + c.table.primeExponent)
    else .ok (e - c.table.primeExponent)

/-- `max_prime_exponent` (src/curve.cc l.564-581).  The map has fewer keys than the loop bound. -/
def maxPrimeExponent (c : Curve F) : Res Nat :=
  maxPrimeExponentLoop c (c.nmbPoints.length + 1) c.table.primeExponent

/-- Conversion of an integral `double` to `int`: undefined out of range. -/
def toInt (z : Int) : Res Int :=
  if -2147483648 ≤ z ∧ z < 2147483648 then .ok z else .ub

/-- `hasse_weil_offsets()` (src/curve.cc l.583-594); the entries come in the order of the map. -/
def hasseWeilMap (c : Curve F) : Res (OMap Nat Int) :=
  c.nmbPoints.foldlM (fun (m : OMap Nat Int) en => do
    let v ← toInt ((c.table.prime ^ en.1 : Nat) + 1 - (u32 (en.2.1 + en.2.2) : Nat))
    pure (m.set en.1 v)) []

/-- `hasse_weil_offsets(max_prime_exponent)` (src/curve.cc l.596-614): a missing entry of the map reads
as 0. -/
def hasseWeilOffsets (c : Curve F) (max : Nat) : Res (List Int) :=
  if c.table.primeExponent = 0 then .ub
  else do
    let m ← c.hasseWeilMap
    pure ((List.range (max / c.table.primeExponent)).map fun k =>
      match m.find? ((k + 1) * c.table.primeExponent) with
      | some v => v
      | none => 0)

end Curve
end Hycu
