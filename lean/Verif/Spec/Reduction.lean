import Verif.Model.Reduction

/-!
What is supposed and what is claimed about the kernel that adds numbers.
-/

namespace Hycu
namespace Reduction

/-- What is supposed about a launch: the macro has the value `S`, as one token or in parentheses; there are enough places in
local memory and for the results; the numbers to be added are not negative, and their sum is an `int`. -/
structure Fits (L : Launch) (S : Nat) : Prop where
  size : L.size = .value S
  pos : 0 < S
  lsz : S ≤ L.lsz
  groups : 0 < L.groups
  len : L.len = L.as.length
  scratch : L.lsz ≤ L.scratch
  nsums : S * L.groups ≤ L.nsums
  nonneg : ∀ a ∈ L.as, 0 ≤ a
  sum : L.as.sum < 2147483648
  bound : L.len + L.gsz ≤ 2147483648

/-- The host reads `n` results; none of them is undefined or negative, and their sum is `v`. -/
def Total (st : State) (n : Nat) (v : Int) : Prop :=
  ∃ vs : List Int, (List.range n).map st.sums = vs.map some ∧ (∀ x ∈ vs, 0 ≤ x) ∧ vs.sum = v

end Reduction
end Hycu
