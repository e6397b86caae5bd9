import Mathlib.Algebra.Field.Basic
import Verif.Cpp.Basic
import Verif.Cpp.OMap
import Verif.Spec.Field

/-!
Model of `FqElementTable` (src/fq_element_table.{hh,cc}) and `ReductionTable` (src/reduction_table.{hh,cc}).

Simplifications: FLINT field elements are elements of a field `F`; the sequence of generator candidates
(`fq_nmod_gen` followed by the outputs of `fq_nmod_randtest`) is an arbitrary sequence `cand`; memory
management is left out (see `Verif.Model.Memory`); `pow` is exact where the result fits.  The OpenCL members are modelled in
`Verif.Model.Curve`.
-/

namespace Hycu

/-- `unsigned int prime_power = pow(prime, prime_exponent)` (src/fq_element_table.cc l.40, src/reduction_table.cc l.49 and
l.70): the conversion of a `double` that does not fit is undefined. -/
def primePowerOf (prime primeExponent : Nat) : Res Nat :=
  if prime ^ primeExponent < 4294967296 then .ok (prime ^ primeExponent) else .ub

/-- `FqElementTable` (src/fq_element_table.hh l.40-113).  `fq_ctx` is the type `F`. -/
structure FqElementTable (F : Type) where
  prime : Nat
  primeExponent : Nat
  primePower : Nat
  primePowerPred : Nat
  fqElements : List F

namespace FqElementTable

/-- Inner loop of the constructor (src/fq_element_table.cc l.75-92), `n` iterations left: value of
`is_gen`, of `a` and of `fq_elements` after it.  `front` is `fq_elements.front()`. -/
def fill {F : Type} [Field F] [DecidableEq F] (gen front : F) : Nat → F → List F → Bool × F × List F
  | 0, a, es => (true, a, es)
  | n + 1, a, es =>
    if a = front then (false, a, es)
    else fill gen front n (a * gen) (es ++ [a])

/-- Outer loop of the constructor (src/fq_element_table.cc l.62-93): tries the candidates `cand k`,
`cand (k+1)`, ..; `a` is not reset between candidates.  The first argument bounds the number of
candidates tried. -/
def search {F : Type} [Field F] [DecidableEq F] (cand : Nat → F) (pred : Nat) :
    Nat → Nat → F → Res (List F)
  | 0, _, _ => .diverge
  | fuel + 1, k, a =>
    match fill (cand k) a (pred - 1) (a * cand k) [a] with
    | (true, _, es) => .ok es
    | (false, a', _) => search cand pred fuel (k + 1) a'

/-- Constructor (src/fq_element_table.cc l.32-106). -/
def make {F : Type} [Field F] [DecidableEq F] (cand : Nat → F) (prime primeExponent fuel : Nat) :
    Res (FqElementTable F) := do
  let primePower ← primePowerOf prime primeExponent
  let pred := primePower - 1
  let es ← search cand pred fuel 0 1
  pure { prime := prime, primeExponent := primeExponent, primePower := primePower,
         primePowerPred := pred, fqElements := es ++ [0] }

/-- `zero_index` (src/fq_element_table.hh). -/
def zeroIndex {F : Type} (t : FqElementTable F) : Nat := t.primePowerPred

/-- `at` / `operator[]`: unchecked access (src/fq_element_table.hh). -/
def at' {F : Type} (t : FqElementTable F) (i : Nat) : Res F := rd t.fqElements i

/-- `block_non_zero` (src/fq_element_table.hh). -/
def blockNonZero {F : Type} (t : FqElementTable F) : Nat × Nat := (0, t.primePowerPred)

/-- `block_complete` (src/fq_element_table.hh). -/
def blockComplete {F : Type} (t : FqElementTable F) : Nat × Nat := (0, t.primePower)

/-- `reduce_index` (src/fq_element_table.hh). -/
def reduceIndex {F : Type} (t : FqElementTable F) (ix : Nat) : Nat := ix % t.primePowerPred

/-- `power_coset_representatives` (src/fq_element_table.cc l.120-135). -/
def powerCosetRepresentatives {F : Type} (t : FqElementTable F) (n : Nat) : List Nat :=
  List.range (Nat.gcd n t.primePowerPred)

end FqElementTable

/-- `ReductionTable` (src/reduction_table.hh l.43-113); `opencl` tells whether an OpenCL interface is
attached. -/
structure ReductionTable where
  prime : Nat
  primeExponent : Nat
  primePower : Nat
  primePowerPred : Nat
  exponentReductionTable : List Nat
  incrementationTable : List Nat
  opencl : Bool
  deriving DecidableEq, Repr

namespace ReductionTable

/-- `compute_exponent_reduction_table` (src/reduction_table.cc l.92-106). -/
def computeExponentReductionTable (primePower : Nat) : List Nat :=
  (List.range 2).flatMap fun _ => List.range (primePower - 1)

/-- The number with base `prime` digits the coefficients of `a` (src/reduction_table.cc l.145-149), in
unsigned 32 bit arithmetic. -/
def coeffSum {F : Type} (coeff : F → Nat → Nat) (prime primeExponent : Nat) (a : F) : Nat :=
  (List.range primeExponent).reverse.foldl (fun s dx => u32 (u32 (s * prime) + coeff a dx)) 0

/-- Inner loop of the generator search (src/reduction_table.cc l.144-159), `n` iterations left:
`is_gen` and `gen_powers`. -/
def fillPowers {F : Type} [Field F] (sum : F → Nat) (gen : F) :
    Nat → Nat → F → OMap Nat Nat → Bool × OMap Nat Nat
  | 0, _, _, m => (true, m)
  | n + 1, ix, a, m =>
    if m.contains (sum a) then (false, m)
    else fillPowers sum gen n (ix + 1) (a * gen) (m.set (sum a) ix)

/-- Outer loop of the generator search (src/reduction_table.cc l.137-160). -/
def searchPowers {F : Type} [Field F] (sum : F → Nat) (cand : Nat → F) (pred : Nat) :
    Nat → Nat → Res (OMap Nat Nat)
  | 0, _ => .diverge
  | fuel + 1, k =>
    match fillPowers sum (cand k) pred 0 1 (OMap.set [] 0 pred) with
    | (true, m) => .ok m
    | (false, _) => searchPowers sum cand pred fuel (k + 1)

/-- `gen_powers[i]`: a missing key reads as 0 (`std::map::operator[]` inserts a zero). -/
def lookup (m : OMap Nat Nat) (i : Nat) : Nat :=
  match m.find? i with
  | some v => v
  | none => 0

/-- `v.at(i) = x`: throws when out of range. -/
def setAt (v : List Nat) (i x : Nat) : Res (List Nat) :=
  if i < v.length then .ok (v.set i x) else .abort

/-- `v.at(i) = x` where `i` was stored as `int32_t` (src/reduction_table.cc l.168-169): a number from `2^31` on has become
negative, and as an index it is then out of range. -/
def setAtInt (v : List Nat) (i x : Nat) : Res (List Nat) :=
  if i < 2147483648 then setAt v i x else .abort

/-- The indices assigned while filling the incrementation table, in order
(src/reduction_table.cc l.166-170): pairs (source, target).  For `prime = 0` the loop would not
end; the model is only used for primes. -/
def incPairs (prime primePower : Nat) : List (Nat × Nat) :=
  (List.range ((primePower - 1 + (prime - 1)) / prime)).flatMap fun k =>
    ((List.range (prime - 1)).map fun j => (k * prime + j, k * prime + j + 1)) ++
      [(k * prime + prime - 1, k * prime)]

/-- `compute_incrementation_table` (src/reduction_table.cc l.108-179). -/
def computeIncrementationTable {F : Type} [Field F] (coeff : F → Nat → Nat) (cand : Nat → F)
    (prime primeExponent primePower fuel : Nat) : Res (List Nat) := do
  let m ← searchPowers (coeffSum coeff prime primeExponent) cand (primePower - 1) fuel 0
  let v ← setAt (List.replicate primePower 0) (primePower - 1) 0
  (incPairs prime primePower).foldlM (fun v ij => setAtInt v (lookup m ij.1) (lookup m ij.2)) v

/-- Constructor and `compute_tables` (src/reduction_table.cc l.41-90). -/
def make {F : Type} [Field F] (coeff : F → Nat → Nat) (cand : Nat → F) (prime primeExponent : Nat)
    (opencl : Bool) (fuel : Nat) : Res ReductionTable := do
  let primePower ← primePowerOf prime primeExponent
  let inc ← computeIncrementationTable coeff cand prime primeExponent primePower fuel
  pure { prime := prime, primeExponent := primeExponent, primePower := primePower,
         primePowerPred := primePower - 1,
         exponentReductionTable := computeExponentReductionTable primePower,
         incrementationTable := inc, opencl := opencl }

end ReductionTable
end Hycu
