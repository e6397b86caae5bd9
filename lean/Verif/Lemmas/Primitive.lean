import Mathlib.GroupTheory.OrderOfElement
import Mathlib.FieldTheory.Finite.Basic
import Verif.Spec.Field

/-!
Elementary facts about primitive elements and element indices.
-/

namespace Hycu

open Fintype

variable {F : Type} [Field F] [Fintype F]

theorem two_le_card : 2 ≤ card F := Fintype.one_lt_card

theorem pow_card_pred {g : F} (hg : g ≠ 0) : g ^ (card F - 1) = 1 :=
  FiniteField.pow_card_sub_one_eq_one g hg

theorem orderOf_pos' {g : F} (hg : g ≠ 0) : 0 < orderOf g := by
  apply orderOf_pos_iff.2
  rw [isOfFinOrder_iff_pow_eq_one]
  exact ⟨card F - 1, by have := two_le_card (F := F); omega, pow_card_pred hg⟩

theorem orderOf_le {g : F} (hg : g ≠ 0) : orderOf g ≤ card F - 1 :=
  orderOf_le_of_pow_eq_one (by have := two_le_card (F := F); omega) (pow_card_pred hg)

theorem primitive_iff_orderOf {g : F} (hg : g ≠ 0) : Primitive g ↔ orderOf g = card F - 1 := by
  classical
  have hpos := orderOf_pos' hg
  have hS : ∀ (S : Finset F), S = (Finset.range (orderOf g)).image (fun n => g ^ n) →
      S.card = orderOf g := by
    intro S hS
    rw [hS, Finset.card_image_of_injOn, Finset.card_range]
    intro i hi j hj hij
    exact pow_injOn_Iio_orderOf (by simpa using hi) (by simpa using hj) hij
  have hN : (Finset.univ.erase (0 : F)).card = card F - 1 := by
    rw [Finset.card_erase_of_mem (Finset.mem_univ _)]; rfl
  have hsub : (Finset.range (orderOf g)).image (fun n => g ^ n) ⊆ Finset.univ.erase (0 : F) := by
    intro x hx
    obtain ⟨n, _, rfl⟩ := Finset.mem_image.1 hx
    simp [pow_ne_zero n hg]
  constructor
  · rintro ⟨_, h⟩
    have : (Finset.range (orderOf g)).image (fun n => g ^ n) = Finset.univ.erase (0 : F) := by
      apply Finset.Subset.antisymm hsub
      intro x hx
      obtain ⟨n, rfl⟩ := h x (Finset.ne_of_mem_erase hx)
      refine Finset.mem_image.2 ⟨n % orderOf g, by simpa using Nat.mod_lt _ hpos, ?_⟩
      simp [pow_mod_orderOf]
    rw [← hN, ← this]
    exact (hS _ rfl).symm
  · intro h
    refine ⟨hg, fun x hx => ?_⟩
    have heq := Finset.eq_of_subset_of_card_le hsub (by rw [hN, hS _ rfl, h])
    have hx' : x ∈ Finset.univ.erase (0 : F) := by simp [hx]
    rw [← heq] at hx'
    obtain ⟨n, _, rfl⟩ := Finset.mem_image.1 hx'
    exact ⟨n, rfl⟩

theorem Primitive.orderOf_eq {g : F} (h : Primitive g) : orderOf g = card F - 1 :=
  (primitive_iff_orderOf h.1).1 h

theorem Primitive.pow_inj {g : F} (h : Primitive g) {i j : Nat} (hi : i < card F - 1)
    (hj : j < card F - 1) (he : g ^ i = g ^ j) : i = j := by
  rw [← h.orderOf_eq] at hi hj
  exact pow_injOn_Iio_orderOf (by simpa using hi) (by simpa using hj) he

theorem Primitive.pow_mod {g : F} (h : Primitive g) (n : Nat) : g ^ (n % (card F - 1)) = g ^ n := by
  rw [← h.orderOf_eq, pow_mod_orderOf]

theorem Primitive.pow_eq_iff {g : F} (h : Primitive g) {i j : Nat} :
    g ^ i = g ^ j ↔ i % (card F - 1) = j % (card F - 1) := by
  have hq := two_le_card (F := F)
  constructor
  · intro he
    apply h.pow_inj (Nat.mod_lt _ (by omega)) (Nat.mod_lt _ (by omega))
    rw [h.pow_mod, h.pow_mod, he]
  · intro he
    rw [← h.pow_mod i, ← h.pow_mod j, he]

theorem exists_primitive : ∃ g : F, Primitive g := by
  obtain ⟨g, hg⟩ := IsCyclic.exists_generator (α := Fˣ)
  refine ⟨(g : F), g.ne_zero, fun x hx => ?_⟩
  obtain ⟨n, hn⟩ := mem_powers_iff_mem_zpowers.2 (hg (Units.mk0 x hx))
  refine ⟨n, ?_⟩
  have := congrArg (fun u : Fˣ => (u : F)) hn
  simpa using this.symm

variable {g : F}

theorem Primitive.eltOf_inj (h : Primitive g) {i j : Nat} (hi : i < card F) (hj : j < card F)
    (he : eltOf g (card F) i = eltOf g (card F) j) : i = j := by
  unfold eltOf at he
  split at he <;> split at he
  · omega
  · exact absurd he.symm (pow_ne_zero _ h.1)
  · exact absurd he (pow_ne_zero _ h.1)
  · exact h.pow_inj (by omega) (by omega) he

theorem Primitive.eltOf_surj (h : Primitive g) (x : F) :
    ∃ i, i < card F ∧ eltOf g (card F) i = x := by
  have hq := two_le_card (F := F)
  by_cases hx : x = 0
  · exact ⟨card F - 1, by omega, by simp [eltOf, hx]⟩
  · obtain ⟨n, rfl⟩ := h.2 x hx
    have hlt := Nat.mod_lt n (show 0 < card F - 1 by omega)
    refine ⟨n % (card F - 1), by omega, ?_⟩
    rw [eltOf, if_neg (by omega), h.pow_mod]

omit [Fintype F] in
theorem eltOf_zero_index (g : F) (q : Nat) : eltOf g q (q - 1) = 0 := by simp [eltOf]

omit [Fintype F] in
theorem eltOf_of_ne {q e : Nat} (h : e ≠ q - 1) : eltOf g q e = g ^ e := by simp [eltOf, h]

omit [Fintype F] in
theorem Primitive.eltOf_eq_zero (h : Primitive g) {q e : Nat} : eltOf g q e = 0 ↔ e = q - 1 := by
  unfold eltOf
  split
  · simp_all
  · simp_all [h.1]

end Hycu
