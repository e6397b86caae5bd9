import Verif.Model.Pool
import Verif.Model.Store

/-!
Model of the computation of a block (src/threaded/thread.cc l.86-92), of the tables made for it (l.108-119), and of the
enumeration of blocks in the main function (src/executables/threaded.cc l.144-147).

With it, the machine of `Verif.Model.Pool` has no free parameter but for FLINT.
-/

namespace Hycu

namespace Compute

variable {F : Type}

/-- Body of the loop over the curves of a block (src/threaded/thread.cc l.88-91). -/
def curveStep (fl : FlintPoly F) (table : FqElementTable F) (rts : List ReductionTable) (m : StoreMap)
    (position : List Nat) : Res StoreMap := do
  let c ← Curve.make table position
  let squarefree ← c.hasSquarefreeRhs fl
  if squarefree then do
    let c ← rts.foldlM Curve.count c
    Store.registerCurve fl m c
  else pure m

/-- The loop over the curves of a block (src/threaded/thread.cc l.87-92), with a bound on the number of evaluations of
the loop condition. -/
def loop (fl : FlintPoly F) (table : FqElementTable F) (rts : List ReductionTable) :
    Nat → BlockIterator → StoreMap → Res StoreMap
  | 0, _, _ => .diverge
  | n + 1, it, m =>
    if it.isEnd then .ok m
    else do
      let v ← it.asPosition
      let m ← curveStep fl table rts m v
      let it ← it.step
      loop fl table rts n it m

/-- The number of tuples in a block, if all ranges are given by a lower and a larger upper bound. -/
def size (block : Block) : Nat := (block.map fun b => b.2 - b.1).prod

/-- The computation of a block (src/threaded/thread.cc l.86-92): the local store.  The loop condition is evaluated at
most once for every tuple, and at the end. -/
def block (fl : FlintPoly F) (table : FqElementTable F) (rts : List ReductionTable) (b : Block) : Res StoreMap := do
  let it ← BlockIterator.ofBounds b
  loop fl table rts (size b + 1) it []

/-- Subtraction of `size_t` (64 bit). -/
def sizeSub (a b : Nat) : Nat := if b ≤ a then a - b else 18446744073709551616 - (b - a)

/-- The exponents for which `Thread::update_config` makes reduction tables (src/threaded/thread.cc l.115-117), with a
bound on the number of evaluations of the loop condition. -/
def exponentsLoop (r : Nat) : Nat → Nat → Res (List Nat)
  | 0, _ => .diverge
  | n + 1, fx => if 0 < fx then do
      let l ← exponentsLoop r n (sizeSub fx r)
      pure (fx :: l)
    else pure []

/-- The product is computed in `unsigned int`.  If the first value is a multiple of the step, the loop condition is
evaluated at most `fx + 1` times; otherwise the loop passes by 0 and goes on with exponents near `2^64`, which is
modelled as not ending. -/
def exponents (c : ConfigNode) : Res (List Nat) :=
  exponentsLoop c.primeExponent (u32 (c.countExponent * c.primeExponent) + 1)
    (u32 (c.countExponent * c.primeExponent))

end Compute

/-- FLINT, and the tables that are made with its help: for a prime and an exponent, the elements of the finite field, the
polynomial routines, the outcomes of the constructors of `FqElementTable` and of `ReductionTable`.  The outcomes are
the same for every call because the pseudo random sequence of candidates for generators is the same for every call
(src/fq_element_table.cc l.56-57, src/reduction_table.cc l.131-132). -/
structure Flint where
  F : Nat → Nat → Type
  poly : ∀ p r, FlintPoly (F p r)
  fqTable : ∀ p r, Res (FqElementTable (F p r))
  reductionTable : Nat → Nat → Res ReductionTable

namespace Flint

/-- `Thread::update_config` (src/threaded/thread.cc l.108-119), the second part. -/
def reductionTables (w : Flint) (c : ConfigNode) : Res (List ReductionTable) := do
  let es ← Compute.exponents c
  es.mapM (w.reductionTable c.prime)

/-- The computation of a block with the tables of a configuration.  The tables are made when the configuration is set;
this is modelled as part of the computation. -/
def env (w : Flint) : Run.Env where
  compute c b := do
    let table ← w.fqTable c.prime c.primeExponent
    let rts ← w.reductionTables c
    Compute.block (w.poly c.prime c.primeExponent) table rts b

/-- The blocks assigned by the main function for a configuration (src/executables/threaded.cc l.144-147), with a bound
on the number of evaluations of the loop condition. -/
def blocks (w : Flint) (c : ConfigNode) (n : Nat) : Res (List Block) := do
  let table ← w.fqTable c.prime c.primeExponent
  let it ← CurveIterator.make table c.genus c.withMarkedPoint c.packageSize
  CurveIterator.visits CurveIterator.asBlock n it

end Flint
end Hycu
