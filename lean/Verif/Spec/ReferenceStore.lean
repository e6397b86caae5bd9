import Verif.Spec.Census
import Verif.Model.ReferenceStore

/-!
What is assumed about Sage for the script that computes the reference stores.
-/

namespace Hycu
namespace Reference

open Fintype

/-- What is assumed about Sage for counts over the extensions of degree `1..m`: `GF(p^n)` has `p^n` elements, and an iteration
visits each of them once; squares are recognised; polynomial routines are right. -/
structure Sage.Ok {p : Nat} [Fact p.Prime] {E : Nat → Extension (ZMod p)} (S : Sage p E) (m : Nat) : Prop where
  card_eq : ∀ n, 0 < n → n ≤ m → card (E n).K = p ^ n
  nodup : ∀ n, 0 < n → n ≤ m → (S.elements n).Nodup
  mem : ∀ n, 0 < n → n ≤ m → ∀ x, x ∈ S.elements n
  isSquare : ∀ n, 0 < n → n ≤ m → ∀ x, S.isSquare n x = true ↔ ∃ y, y ^ 2 = x
  squarefree : ∀ cs, S.isSquarefree cs = true ↔ Squarefree (polyOfList cs)
  factor : ∀ cs, polyOfList cs ≠ 0 → IsFactorisation (polyOfList cs) (S.factor cs)
  exponents : ∀ cs, ∀ f ∈ S.factor cs, 0 < f.2

end Reference
end Hycu
