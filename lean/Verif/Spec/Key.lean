import Verif.Spec.Ramification
import Verif.Spec.Extension
import Verif.Model.CurveData

/-!
Specification of the key under which a curve is stored.
-/

namespace Hycu

open Polynomial Fintype

/-- `k` is the key of `y^2 = f(x)` for counts over the extensions of degree `1..m`: the ascending list of the
degrees of the branch points, and the numbers `q^k + 1 - N_k`. -/
structure IsKey {F : Type} [Field F] [Fintype F] (E : Nat → Extension F) (m : Nat) (f : F[X]) (k : Key) : Prop where
  ascending : k.ramification.Pairwise (· ≤ ·)
  ramification : (k.ramification : Multiset Nat) = branchDegrees f
  offsets : k.offsets = (List.range m).map fun j =>
    ((card F ^ (j + 1) : Nat) : Int) + 1 -
      ((unramifiedPoints (f.map (E (j + 1)).ι) + ramifiedPoints (f.map (E (j + 1)).ι) : Nat) : Int)

/-- The twist of a key: offsets are negated at odd extension degrees, that is at even positions. -/
def twistedOffsets (l : List Int) : List Int := l.mapIdx fun j z => if j % 2 = 0 then -z else z

end Hycu
