import Mathlib.LinearAlgebra.Basis.VectorSpace
import Mathlib.FieldTheory.Finite.Basic
import Mathlib.Algebra.CharP.CharAndCard
import Mathlib.Algebra.Algebra.ZMod
import Verif.Spec.Field

/-!
Every finite field has a presentation as assumed of FLINT (`FqRep`), so the hypothesis is never empty.
-/

namespace Hycu

open Module

theorem exists_fqRep {F : Type} [Field F] [Fintype F] {p r : Nat} (hp : p.Prime) (hr : 0 < r)
    (hcard : Fintype.card F = p ^ r) : Nonempty (FqRep F p r) := by
  have := Fact.mk hp
  have : CharP F p := charP_of_card_eq_prime_pow hcard
  let : Algebra (ZMod p) F := ZMod.algebra F p
  have hs : LinearIndepOn (ZMod p) id ({1} : Set F) := by
    simp
  let b := Basis.extend hs
  have h1 : (1 : F) ∈ hs.extend (Set.subset_univ _) := hs.subset_extend _ (by simp)
  have hfin : finrank (ZMod p) F = r := by
    have h := Module.card_eq_pow_finrank (K := ZMod p) (V := F)
    rw [hcard, ZMod.card] at h
    exact (Nat.pow_right_injective hp.two_le h).symm
  let e : (hs.extend (Set.subset_univ _)) ≃ Fin r := Fintype.equivFinOfCardEq (by
    rw [← hfin, finrank_eq_card_basis b])
  let b' : Basis (Fin r) (ZMod p) F := b.reindex e
  obtain ⟨i0, hi0⟩ : ∃ i, b' i = 1 := by
    refine ⟨e ⟨1, h1⟩, ?_⟩
    simp [b', b]
  let c : Basis (Fin r) (ZMod p) F := b'.reindex (Equiv.swap i0 ⟨0, hr⟩)
  have hc : c ⟨0, hr⟩ = 1 := by simp [c, hi0]
  refine ⟨{ prime := hp, pos := hr, card_eq := hcard
            coeff := fun a i => if h : i < r then (c.repr a ⟨i, h⟩).val else 0
            coeff_lt := ?_, coeff_ext := ?_, coeff_add := ?_, coeff_one := ?_ }⟩
  · intro a i
    split
    · exact ZMod.val_lt _
    · exact hp.pos
  · intro a b h
    apply c.repr.injective
    ext ⟨i, hi⟩
    have := h i hi
    simp only [hi, dif_pos] at this
    exact ZMod.val_injective p this
  · intro a b i hi
    simp [hi, ZMod.val_add]
  · intro i hi
    simp only [hi, dif_pos]
    rw [← hc, c.repr_self]
    rw [Finsupp.single_apply]
    by_cases h : i = 0
    · subst h; simp [ZMod.val_one]
    · rw [if_neg, if_neg h, ZMod.val_zero]
      intro e; exact h (congrArg Fin.val e).symm

end Hycu
