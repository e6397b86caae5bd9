import Mathlib.Algebra.CharP.Two
import Mathlib.Algebra.BigOperators.Fin
import Mathlib.Algebra.Polynomial.Eval.Degree
import Mathlib.Algebra.Polynomial.Degree.Lemmas
import Verif.Spec.Points
import Verif.Lemmas.Primitive

/-!
Lemmas about the number of points.
-/

namespace Hycu

open Polynomial Fintype

section Poly
variable {K : Type} [Field K]

theorem eval_polyOfList (x : K) : ∀ l : List K,
    (polyOfList l).eval x = l.foldr (fun a s => a + x * s) 0
  | [] => by simp [polyOfList]
  | a :: l => by simp [polyOfList, eval_polyOfList x l]

theorem coeff_polyOfList : ∀ (l : List K) (i : Nat), (polyOfList l).coeff i = l.getD i 0
  | [], i => by simp [polyOfList]
  | a :: l, 0 => by simp [polyOfList]
  | a :: l, i + 1 => by simp [polyOfList, coeff_C_succ, coeff_polyOfList l i]

theorem polyOfList_map {L : Type} [Field L] (φ : K →+* L) : ∀ l : List K,
    (polyOfList l).map φ = polyOfList (l.map φ)
  | [] => by simp [polyOfList]
  | a :: l => by simp [polyOfList, polyOfList_map φ l]

theorem natDegree_polyOfList {l : List K} {a : K} (h : l.getLast? = some a) (ha : a ≠ 0) :
    (polyOfList l).natDegree = l.length - 1 := by
  have hl : l ≠ [] := by rintro rfl; simp at h
  have hpos := List.length_pos_iff.2 hl
  apply natDegree_eq_of_le_of_coeff_ne_zero
  · rw [natDegree_le_iff_coeff_eq_zero]
    intro N hN
    rw [coeff_polyOfList, List.getD, List.getElem?_eq_none (by omega)]; rfl
  · rw [coeff_polyOfList]
    rw [List.getLast?_eq_getElem?] at h
    simpa [List.getD, h] using ha

end Poly

variable {K : Type} [Field K] [Fintype K]

theorem neg_one_ne_one_of_odd (hodd : card K % 2 = 1) : (-1 : K) ≠ 1 := by
  apply Ring.neg_one_ne_one_of_char_ne_two
  intro h
  have := FiniteField.even_card_of_char_two h
  omega

/-- Number of non-zero square roots. -/
noncomputable def numSqrt (a : K) : Nat := Nat.card {y : K // y ^ 2 = a ∧ y ≠ 0}

omit [Fintype K] in
theorem numSqrt_zero : numSqrt (0 : K) = 0 := by
  unfold numSqrt
  rw [Nat.card_eq_zero]
  left
  constructor
  rintro ⟨y, h1, h2⟩
  exact h2 (by simpa using h1)

theorem numSqrt_pow {g : K} (hg : Primitive g) (hodd : card K % 2 = 1) (e : Nat) :
    numSqrt (g ^ e) = if e % 2 = 0 then 2 else 0 := by
  classical
  have hq := two_le_card (F := K)
  unfold numSqrt
  split
  · rename_i he
    obtain ⟨k, rfl⟩ : ∃ k, e = 2 * k := ⟨e / 2, by omega⟩
    have hne : g ^ k ≠ - g ^ k := by
      intro h
      have h2 : g ^ k * (-1) = g ^ k * 1 := by rw [mul_one, mul_neg_one]; exact h.symm
      exact neg_one_ne_one_of_odd hodd (mul_left_cancel₀ (pow_ne_zero _ hg.1) h2)
    have : ∀ y : K, (y ^ 2 = g ^ (2 * k) ∧ y ≠ 0) ↔ y ∈ ({g ^ k, - g ^ k} : Finset K) := by
      intro y
      rw [Nat.mul_comm, pow_mul, sq_eq_sq_iff_eq_or_eq_neg]
      simp only [Finset.mem_insert, Finset.mem_singleton]
      constructor
      · exact fun h => h.1
      · rintro (rfl | rfl)
        · exact ⟨Or.inl rfl, pow_ne_zero _ hg.1⟩
        · exact ⟨Or.inr rfl, neg_ne_zero.2 (pow_ne_zero _ hg.1)⟩
    rw [Nat.card_congr (Equiv.subtypeEquivRight this), Nat.card_eq_fintype_card, Fintype.card_coe,
      Finset.card_pair hne]
  · rename_i he
    rw [Nat.card_eq_zero]
    left
    constructor
    rintro ⟨y, h1, h2⟩
    obtain ⟨n, rfl⟩ := hg.2 y h2
    rw [← pow_mul, hg.pow_eq_iff] at h1
    have h3 : (n * 2) % 2 = e % 2 := by
      have hd : 2 ∣ card K - 1 := by omega
      rw [← Nat.mod_mod_of_dvd (n * 2) hd, h1, Nat.mod_mod_of_dvd e hd]
    omega

/-- Contribution of an index to the number of points with `y ≠ 0`. -/
def unr (pred f : Nat) : Nat := if f = pred then 0 else if f % 2 = 0 then 2 else 0

/-- Contribution of an index to the number of points with `y = 0`. -/
def ram (pred f : Nat) : Nat := if f = pred then 1 else 0

theorem unr_eq {g : K} (hg : Primitive g) (hodd : card K % 2 = 1) (e : Nat) :
    unr (card K - 1) e = numSqrt (eltOf g (card K) e) := by
  unfold unr eltOf
  split
  · rw [numSqrt_zero]
  · rw [numSqrt_pow hg hodd]

open Classical in
theorem ram_eq {g : K} (hg : Primitive g) (e : Nat) :
    ram (card K - 1) e = if eltOf g (card K) e = 0 then 1 else 0 := by
  simp [ram, hg.eltOf_eq_zero]

theorem card_affine (f : K[X]) :
    Nat.card {P : K × K // P.2 ^ 2 = f.eval P.1 ∧ P.2 ≠ 0} = ∑ x : K, numSqrt (f.eval x) := by
  classical
  let e : {P : K × K // P.2 ^ 2 = f.eval P.1 ∧ P.2 ≠ 0} ≃
      (Σ x : K, {y : K // y ^ 2 = f.eval x ∧ y ≠ 0}) :=
    { toFun := fun P => ⟨P.1.1, P.1.2, P.2⟩
      invFun := fun s => ⟨(s.1, s.2.1), s.2.2⟩
      left_inv := fun _ => rfl
      right_inv := fun _ => rfl }
  rw [Nat.card_congr e, Nat.card_sigma]
  rfl

omit [Fintype K] in
theorem numSqrt_zero_root (a : K) [Decidable (a = 0)] :
    Nat.card {y : K // y ^ 2 = a ∧ y = 0} = if a = 0 then 1 else 0 := by
  split
  · rename_i h
    rw [Nat.card_eq_one_iff_exists]
    exact ⟨⟨0, by simp [h]⟩, by rintro ⟨y, h1, h2⟩; exact Subtype.ext h2⟩
  · rename_i h
    rw [Nat.card_eq_zero]
    left
    constructor
    rintro ⟨y, h1, rfl⟩
    exact h (by simpa using h1.symm)

open Classical in
theorem card_affine_ram (f : K[X]) :
    Nat.card {P : K × K // P.2 ^ 2 = f.eval P.1 ∧ P.2 = 0} =
      ∑ x : K, if f.eval x = 0 then 1 else 0 := by
  let e : {P : K × K // P.2 ^ 2 = f.eval P.1 ∧ P.2 = 0} ≃
      (Σ x : K, {y : K // y ^ 2 = f.eval x ∧ y = 0}) :=
    { toFun := fun P => ⟨P.1.1, P.1.2, P.2⟩
      invFun := fun s => ⟨(s.1, s.2.1), s.2.2⟩
      left_inv := fun _ => rfl
      right_inv := fun _ => rfl }
  rw [Nat.card_congr e, Nat.card_sigma]
  apply Finset.sum_congr rfl
  intro x _
  rw [numSqrt_zero_root]

/-- Summation over a finite field along the powers of a primitive element. -/
theorem sum_field {g : K} (hg : Primitive g) (s : K → Nat) :
    ∑ x : K, s x = s 0 + ((List.range (card K - 1)).map fun i => s (g ^ i)).sum := by
  classical
  rw [← Finset.add_sum_erase _ _ (Finset.mem_univ (0 : K))]
  congr 1
  have h : ((List.range (card K - 1)).map fun i => s (g ^ i)).sum =
      ∑ i ∈ Finset.range (card K - 1), s (g ^ i) := by
    generalize card K - 1 = n
    induction n with
    | zero => simp
    | succ n ih => rw [List.range_succ, List.map_append, List.sum_append, ih, Finset.sum_range_succ]; simp
  rw [h]
  symm
  apply Finset.sum_bij (fun i _ => g ^ i)
  · intro i _; simp [pow_ne_zero i hg.1]
  · intro i hi j hj he
    exact hg.pow_inj (by simpa using hi) (by simpa using hj) he
  · intro x hx
    obtain ⟨n, rfl⟩ := hg.2 x (Finset.ne_of_mem_erase hx)
    have hq := two_le_card (F := K)
    exact ⟨n % (card K - 1), by simpa using Nat.mod_lt _ (by omega), hg.pow_mod n⟩
  · intro i _; rfl

theorem sum_field' {g : K} (hg : Primitive g) (s : K → Nat) :
    ∑ x : K, s x = s 0 + ((List.range' 1 (card K - 1)).map fun i => s (g ^ i)).sum := by
  rw [sum_field hg]
  congr 1
  have hq := two_le_card (F := K)
  obtain ⟨k, hk⟩ : ∃ k, card K - 1 = k + 1 := ⟨card K - 2, by omega⟩
  have h1 : g ^ (k + 1) = 1 := by rw [← hk, pow_card_pred hg.1]
  rw [hk, List.range_eq_range', List.range'_succ, List.map_cons, List.sum_cons, pow_zero]
  have h2 : List.range' 1 (k + 1) = List.range' 1 k ++ [k + 1] := by
    rw [List.range'_concat]; simp [Nat.add_comm]
  rw [h2, List.map_append, List.sum_append]
  simp [h1, Nat.add_comm]

end Hycu
