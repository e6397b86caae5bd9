import Verif.Spec.Census

/-!
How many polynomials there are altogether.
-/

namespace Hycu

/-- The number of squarefree polynomials over a field of `q` elements of degree `2 genus + 1`, or `2 genus + 2` unless a
point is marked. -/
def polynomials (q genus : Nat) (marked : Bool) : Nat :=
  if marked then (q - 1) ^ 2 * q ^ (2 * genus) else (q - 1) ^ 2 * q ^ (2 * genus) * (q + 1)

end Hycu
