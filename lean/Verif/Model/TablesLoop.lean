import Verif.Model.Compute

/-!
The loop of `Thread::update_config` as it is in the code: each reduction table is made before the next exponent is computed.
-/

namespace Hycu
namespace Flint

/-- The loop over the exponents (src/threaded/thread.cc l.115-118), with a bound on the number of evaluations of the loop
condition.  The exponent is a `size_t`, the parameter of the constructor an `unsigned int` (src/reduction_table.hh l.54). -/
def tablesLoop (w : Flint) (p r : Nat) : Nat → Nat → Res (List ReductionTable)
  | 0, _ => .diverge
  | n + 1, fx => if 0 < fx then do
      let t ← w.reductionTable p (u32 fx)
      let l ← tablesLoop w p r n (Compute.sizeSub fx r)
      pure (t :: l)
    else pure []

/-- `Thread::update_config` (src/threaded/thread.cc l.108-119), the second part; the first exponent is a product in
`unsigned int`. -/
def tablesInLoop (w : Flint) (c : ConfigNode) (n : Nat) : Res (List ReductionTable) :=
  tablesLoop w c.prime c.primeExponent n (u32 (c.countExponent * c.primeExponent))

end Flint
end Hycu
