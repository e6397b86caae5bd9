import Verif.Model.Store

/-!
What a store should contain: contributions are listed, and a store is right if it has an entry exactly for the
keys that occur, with the sum of the contributions to this key.
-/

namespace Hycu

/-- Sum of the contributions to a key. -/
def total (l : List (Key × Int)) (k : Key) : Int := ((l.filter fun e => e.1 = k).map Prod.snd).sum

/-- The map `m` has entries exactly for the keys in the list of contributions `l`, each being the sum of the
contributions to the key, and is ordered as a `std::map` has to be. -/
structure Tally (m : StoreMap) (l : List (Key × Int)) : Prop where
  sorted : OMap.Sorted m
  entry : ∀ (k : Key) (z : Int), (k, z) ∈ m ↔ k ∈ l.map Prod.fst ∧ z = total l k

/-- The integer is stored by FLINT without a handle. -/
def Small (z : Int) : Prop := -4611686018427387904 < z ∧ z < 4611686018427387904

/-- Keys as the program prints and reads them: both lists are non-empty, all numbers fit in `int`. -/
structure Key.Fits (k : Key) : Prop where
  ramification_ne : k.ramification ≠ []
  offsets_ne : k.offsets ≠ []
  ramification_lt : ∀ r ∈ k.ramification, r < 2147483648
  offsets_int : ∀ z ∈ k.offsets, -2147483648 ≤ z ∧ z < 2147483648

end Hycu
