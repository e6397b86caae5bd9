import Verif.Spec.Key
import Verif.Model.Store
import Mathlib.Data.Nat.Prime.Defs

/-!
What can be said about a table of results without knowing the curves: the checks that a reader can make.
-/

namespace Hycu

/-- The number of points over the extension of degree `n + 1` according to the offset `a` there. -/
def pointsOf (q n : Nat) (a : Int) : Int := (q : Int) ^ (n + 1) + 1 - a

/-- The number of ramified points over the extension of degree `n` according to a ramification type: a branch point of degree
`d` has `d` conjugates, which are defined over the extensions of degree divisible by `d`. -/
def ramifiedOf (ramification : List Nat) (n : Nat) : Nat := (ramification.filter (· ∣ n)).sum

/-- `k` may be the key of a curve of the given genus over the field of `q` elements, for counts over the extensions of degree
`1..m`. -/
structure Plausible (q genus m : Nat) (marked : Bool) (k : Key) : Prop where
  /-- The degrees of the branch points are positive, ascend and add up to `2 genus + 2`. -/
  positive : ∀ d ∈ k.ramification, 0 < d
  ascending : k.ramification.Pairwise (· ≤ ·)
  sum : k.ramification.sum = 2 * genus + 2
  /-- A marked point is a branch point over the base field. -/
  marked_mem : marked = true → 1 ∈ k.ramification
  /-- There is one offset for each extension. -/
  length : k.offsets.length = m
  /-- Over each extension the points that are not ramified come in pairs over different points of the line. -/
  pairs : ∀ n a, k.offsets[n]? = some a → ∃ u : Nat,
    pointsOf q n a = 2 * u + ramifiedOf k.ramification (n + 1) ∧
    u + ramifiedOf k.ramification (n + 1) ≤ q ^ (n + 1) + 1
  /-- Points over an extension of prime degree `l` that are not defined over the smaller field come in conjugates of `l`. -/
  conjugates : ∀ (l n n' : Nat) a a', l.Prime → n' + 1 = l * (n + 1) → k.offsets[n]? = some a →
    k.offsets[n']? = some a' → ∃ v : Nat, pointsOf q n' a' = pointsOf q n a + l * v

/-- A table of results whose entries fit together. -/
structure Consistent (q genus m : Nat) (marked : Bool) (t : StoreMap) : Prop where
  plausible : ∀ k z, (k, z) ∈ t → Plausible q genus m marked k
  /-- With `f` every `s f` for a square `s` is counted, so that numbers are positive multiples of `(q - 1) / 2`. -/
  positive : ∀ k z, (k, z) ∈ t → 0 < z
  dvd : ∀ k z, (k, z) ∈ t → (((q - 1) / 2 : Nat) : Int) ∣ z
  /-- The twists are counted, too. -/
  twist : ∀ k z, (k, z) ∈ t → (⟨k.ramification, twistedOffsets k.offsets⟩, z) ∈ t
  /-- The offsets over extensions of odd degree have mean zero. -/
  mean : ∀ n, n < m → n % 2 = 0 → (t.map fun x => x.2 * x.1.offsets.getD n 0).sum = 0

end Hycu
