import Mathlib.Algebra.Field.Basic
import Mathlib.Data.Fintype.Card
import Mathlib.Data.Nat.Prime.Basic

/-!
Specification vocabulary for finite fields, independent of the code.
-/

namespace Hycu

/-- `g` is a primitive element of `F`: it is not zero and its powers are all non-zero elements. -/
def Primitive {F : Type} [Field F] (g : F) : Prop := g ≠ 0 ∧ ∀ x : F, x ≠ 0 → ∃ n : Nat, x = g ^ n

/-- The field element with index `e` in a field of `q` elements: `g^e`, where the index `q-1` stands for
zero. -/
def eltOf {F : Type} [Field F] (g : F) (q e : Nat) : F := if e = q - 1 then 0 else g ^ e

/-- `cand k` is the first primitive element of the sequence `cand`. -/
def FirstPrimitive {F : Type} [Field F] (cand : Nat → F) (k : Nat) : Prop :=
  Primitive (cand k) ∧ ∀ j, j < k → ¬ Primitive (cand j)

/-- How FLINT presents a finite field of `p^r` elements (external behaviour): every element has `r`
coefficients below `p`, which determine the element, are added modulo `p`, and those of `1` are
`(1,0,..,0)`. -/
structure FqRep (F : Type) [Field F] [Fintype F] (p r : Nat) where
  prime : p.Prime
  pos : 0 < r
  card_eq : Fintype.card F = p ^ r
  coeff : F → Nat → Nat
  coeff_lt : ∀ a i, coeff a i < p
  coeff_ext : ∀ a b, (∀ i, i < r → coeff a i = coeff b i) → a = b
  coeff_add : ∀ a b i, i < r → coeff (a + b) i = (coeff a i + coeff b i) % p
  coeff_one : ∀ i, i < r → coeff 1 i = if i = 0 then 1 else 0

end Hycu
