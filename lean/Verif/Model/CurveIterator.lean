import Verif.Model.BlockIterator
import Verif.Model.Tables

/-!
Model of `CurveIterator` (src/curve_iterator.{hh,cc}).

Simplifications: `int` loop variables are natural numbers (the variable `jx` that runs down to -1 is shifted
by one), and a subtraction from the degree does not wrap: this is the code for degrees from 3 to `2^31 - 1`, that is for
a positive genus below `2^30`, which the theorems suppose; FLINT integers are natural numbers.
-/

namespace Hycu

/-- The arguments of one `BlockIterator` constructor call but for the package size. -/
structure EnumeratorArgs where
  length : Nat
  blocks : OMap Nat (Nat × Nat)
  sets : OMap Nat (List Nat)
  deps : OMap Nat (Nat × OMap Nat (List Nat))

/-- `CurveIterator` (src/curve_iterator.hh l.40-65); `ix` is the position of `enumerator_it`. -/
structure CurveIterator where
  prime : Nat
  enumerators : List BlockIterator
  ix : Nat

namespace CurveIterator

/-- `for (kx = hi-1; kx >= lo; --kx)`. -/
def down (lo hi : Nat) : List Nat := (List.range' lo (hi - lo)).reverse

/-- `for (kx : ks) m[kx] = v`. -/
def setAll {β : Type} (m : OMap Nat β) (ks : List Nat) (v : β) : OMap Nat β :=
  ks.foldl (fun m k => m.set k v) m

variable {F : Type}

/-- `coset_products` (src/curve_iterator.cc l.85-95): `setIx` is `sets[ix]`, `diff` is `ix-jx`. -/
def cosetProducts (t : FqElementTable F) (setIx : List Nat) (diff : Nat) : OMap Nat (List Nat) :=
  setIx.zipIdx.foldl (fun (m : OMap Nat (List Nat)) e =>
    m.set e.2 ((t.powerCosetRepresentatives diff).foldl
      (fun (s : OSet Nat) b => s.insert (t.reduceIndex (e.1 + b))) [])) []

/-- Body of the loops over `ix` and `jx` (src/curve_iterator.cc l.64-104), with `jx1 = jx + 1`. -/
def largeCase (t : FqElementTable F) (degree ix jx1 : Nat) : EnumeratorArgs :=
  let sets := setAll [] (down (ix + 1) degree) [t.zeroIndex]
  let sets := sets.set ix (t.powerCosetRepresentatives 1)
  let sets := setAll sets (down jx1 ix) [t.zeroIndex]
  { length := degree + 1
    blocks := setAll (OMap.set [] degree t.blockNonZero) (down 0 (jx1 - 1)) t.blockComplete
    sets := sets
    deps :=
      if jx1 = 0 then []
      else OMap.set [] (jx1 - 1)
        (ix, cosetProducts t (t.powerCosetRepresentatives 1) (ix - (jx1 - 1))) }

/-- The case of `x^degree` (src/curve_iterator.cc l.108-119). -/
def largeMonomial (t : FqElementTable F) (degree : Nat) : EnumeratorArgs :=
  { length := degree + 1
    blocks := []
    sets := setAll (OMap.set [] degree (t.powerCosetRepresentatives 1)) (down 0 degree) [t.zeroIndex]
    deps := [] }

/-- `degree` divisible by the prime, next to leading coefficient non-zero (src/curve_iterator.cc
l.126-147). -/
def divCaseNonZero (t : FqElementTable F) (degree : Nat) : EnumeratorArgs :=
  { length := degree + 1
    blocks := setAll (OMap.set [] (degree - 1) t.blockNonZero) (down 0 (degree - 3)) t.blockComplete
    sets := ((OMap.set [] degree (t.powerCosetRepresentatives 1)).set (degree - 2) [t.zeroIndex]).set
      (degree - 3) (t.powerCosetRepresentatives 3 ++ [t.zeroIndex])
    deps := [] }

/-- Leading coefficient one, next to leading coefficient zero: `degree` divisible by the prime
(src/curve_iterator.cc l.149-166) and the last case (l.168-187), which are the same. -/
def squareCase (t : FqElementTable F) (degree : Nat) : EnumeratorArgs :=
  { length := degree + 1
    blocks := setAll [] (down 0 (degree - 2)) t.blockComplete
    sets := ((OMap.set [] degree (t.powerCosetRepresentatives 1)).set (degree - 1) [t.zeroIndex]).set
      (degree - 2) (t.powerCosetRepresentatives 2 ++ [t.zeroIndex])
    deps := [] }

/-- Body of the loop over the degree (src/curve_iterator.cc l.55-188). -/
def enumeratorArgs (t : FqElementTable F) (degree : Nat) : List EnumeratorArgs :=
  if t.prime > degree then
    ((down 0 (degree - 1)).flatMap fun ix => (down 0 (ix + 1)).map fun jx1 => largeCase t degree ix jx1) ++
      [largeMonomial t degree]
  else if degree % t.prime = 0 then [divCaseNonZero t degree, squareCase t degree]
  else [squareCase t degree]

/-- The degrees (src/curve_iterator.cc l.54). -/
def degrees (genus : Nat) (withMarkedPoint : Bool) : List Nat :=
  List.range' (u32 (2 * genus + 1))
    ((if withMarkedPoint then u32 (2 * genus + 2) else u32 (2 * genus + 3)) - u32 (2 * genus + 1))

/-- Constructor (src/curve_iterator.cc l.32-192).  A prime 0 would be a division by zero. -/
def make (t : FqElementTable F) (genus : Nat) (withMarkedPoint : Bool) (packageSize : Nat) :
    Res CurveIterator :=
  if t.prime = 2 then .abort
  else if genus = 0 then .abort
  else if t.prime = 0 then .ub
  else do
    let es ← ((degrees genus withMarkedPoint).flatMap (enumeratorArgs t)).mapM fun a =>
      BlockIterator.make a.length a.blocks packageSize a.sets a.deps
    pure { prime := t.prime, enumerators := es, ix := 0 }

/-- `is_end` (src/curve_iterator.cc l.207-213). -/
def isEnd (it : CurveIterator) : Bool := it.ix = it.enumerators.length

/-- `step` (src/curve_iterator.cc l.194-205). -/
def step (it : CurveIterator) : Res CurveIterator :=
  if it.isEnd then .ok it
  else do
    let e ← rd it.enumerators it.ix
    let e ← e.step
    let it := { it with enumerators := it.enumerators.set it.ix e }
    if e.isEnd then pure { it with ix := it.ix + 1 } else pure it

/-- `as_position`, `as_block` (src/curve_iterator.hh l.53-54): they use the current enumerator, which does not
exist at the end. -/
def asPosition (it : CurveIterator) : Res (List Nat) := do
  let e ← rd it.enumerators it.ix
  e.asPosition

@[inherit_doc asPosition]
def asBlock (it : CurveIterator) : Res (List (Nat × Nat)) := do
  let e ← rd it.enumerators it.ix
  e.asBlock

/-- The loop `for (; !iter.is_end(); iter.step()) use(visit(iter))` (src/executables/threaded.cc l.146-147,
src/executables/mpi.cc l.155-156); `n` bounds the number of evaluations of the loop condition. -/
def visits {α : Type} (visit : CurveIterator → Res α) : Nat → CurveIterator → Res (List α)
  | 0, _ => .diverge
  | n + 1, it =>
    if it.isEnd then .ok []
    else do
      let a ← visit it
      let it' ← it.step
      let l ← visits visit n it'
      .ok (a :: l)

/-- All positions that the workers see for one package (src/threaded/thread.cc l.87-88). -/
def packagePositions (n : Nat) (box : List (Nat × Nat)) : Res (List (List Nat)) := do
  let it ← BlockIterator.ofBounds box
  BlockIterator.visits BlockIterator.asPosition n it

/-- All positions that the workers see for all packages, package by package. -/
def allPositions (n : Nat) (it : CurveIterator) : Res (List (List (List Nat))) := do
  let boxes ← visits asBlock n it
  boxes.mapM (packagePositions n)

/-- `fmpz_divexact_ui`: undefined unless the division is exact. -/
def divExact (a b : Nat) : Res Nat := if b ≠ 0 ∧ b ∣ a then .ok (a / b) else .ub

/-- The `k`-th element from the back, if there is one: `*(coeff_support.rbegin()+k)` after a check of the
size. -/
def fromBack (l : List Nat) (k : Nat) : Option Nat := l.reverse[k]?

/-- `multiplicity` (src/curve_iterator.cc l.215-310); `coeffSupport` ascending.  `prime = 0` would be a
division by zero. -/
def multiplicity (prime primePower : Nat) (coeffSupport : List Nat) : Res Nat :=
  match fromBack coeffSupport 0 with
  | none => .ub
  | some degree =>
    let q := primePower
    let pred := u32sub primePower 1
    if prime > degree then
      match fromBack coeffSupport 1, fromBack coeffSupport 2 with
      | some snd, some trd => divExact (q * pred / 2 * pred) (Nat.gcd pred (u32sub snd trd))
      | _, _ => .ok (q * pred / 2)
    else if prime = 0 then .ub
    else if degree % prime = 0 then
      if fromBack coeffSupport 1 = some (u32sub degree 1) then
        if fromBack coeffSupport 2 = some (u32sub degree 3) then divExact (q * pred / 2 * pred) (Nat.gcd pred 3)
        else .ok (q * pred / 2)
      else if fromBack coeffSupport 1 = some (u32sub degree 2) then .ok (pred * pred / 4)
      else .ok (pred / 2)
    else if fromBack coeffSupport 1 = some (u32sub degree 2) then .ok (q * pred * pred / 4)
    else .ok (q * pred / 2)

end CurveIterator
end Hycu
