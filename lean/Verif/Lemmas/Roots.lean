import Mathlib.FieldTheory.Finite.Extension
import Mathlib.FieldTheory.Perfect
import Mathlib.RingTheory.Polynomial.UniqueFactorization
import Verif.Lemmas.Points
import Verif.Spec.Ramification

/-!
The number of roots of a squarefree polynomial in extensions of a finite field.
-/

namespace Hycu

open Polynomial UniqueFactorizationMonoid

set_option linter.unusedSectionVars false

variable {F K : Type} [Field F] [Fintype F] [Field K] [Fintype K]

theorem card_roots_irreducible (ι : F →+* K) {n : Nat} (hK : Fintype.card K = Fintype.card F ^ n) {P : F[X]}
    (hP : Irreducible P) : (P.map ι).roots.card = if P.natDegree ∣ n then P.natDegree else 0 := by
  classical
  let _ : Algebra F K := ι.toAlgebra
  have hcard : Nat.card F ^ n = Fintype.card K := by rw [hK, Nat.card_eq_fintype_card]
  have hX : ((X : F[X]) ^ Nat.card F ^ n - X).map ι = X ^ Fintype.card K - X := by
    rw [hcard]; simp
  have hne : (X ^ Fintype.card K - X : K[X]) ≠ 0 := FiniteField.X_pow_card_sub_X_ne_zero K Fintype.one_lt_card
  split
  · rename_i h
    have hdvd := map_dvd (mapRingHom ι) (hP.natDegree_dvd_iff_dvd_X_pow_card_pow_sub_X.1 h)
    simp only [coe_mapRingHom] at hdvd
    rw [hX] at hdvd
    have hsp : (X ^ Fintype.card K - X : K[X]).Splits := by
      rw [splits_iff_card_roots, FiniteField.roots_X_pow_card_sub_X,
        FiniteField.X_pow_card_sub_X_natDegree_eq K Fintype.one_lt_card]
      rfl
    have := Splits.of_dvd hsp hne hdvd
    rw [splits_iff_card_roots] at this
    rw [this, natDegree_map]
  · rename_i h
    rw [Multiset.card_eq_zero]
    by_contra h0
    obtain ⟨x, hx⟩ := Multiset.exists_mem_of_ne_zero h0
    apply h
    rw [hP.natDegree_dvd_iff_dvd_X_pow_card_pow_sub_X, ← hP.dvd_iff_aeval_eq_zero (b := x)]
    · have : aeval x ((X : F[X]) ^ Nat.card F ^ n - X) = eval x (((X : F[X]) ^ Nat.card F ^ n - X).map ι) := by
        rw [eval_map]; rfl
      rw [this, hX]
      simp [FiniteField.pow_card]
    · have := (mem_roots'.1 hx).2
      rw [IsRoot, eval_map] at this
      exact this

theorem factorDegrees_pos {f : F[X]} {m : Nat} (h : m ∈ factorDegrees f) : 0 < m := by
  obtain ⟨P, hP, rfl⟩ := Multiset.mem_map.1 h
  exact (irreducible_of_factor P hP).natDegree_pos

theorem factorDegrees_sum {f : F[X]} (hf : f ≠ 0) : (factorDegrees f).sum = f.natDegree := by
  have h := factors_prod hf
  have h1 := natDegree_eq_of_degree_eq (degree_eq_degree_of_associated h)
  rw [← h1, natDegree_multiset_prod _ (by intro h; exact (irreducible_of_factor _ h).ne_zero rfl)]
  rfl

theorem card_roots_squarefree (ι : F →+* K) {n : Nat} (hK : Fintype.card K = Fintype.card F ^ n) {f : F[X]}
    (hf : Squarefree f) : Nat.card {x : K // (f.map ι).eval x = 0} = ((factorDegrees f).filter (· ∣ n)).sum := by
  classical
  have hf0 : f ≠ 0 := hf.ne_zero
  have hm0 : f.map ι ≠ 0 := (Polynomial.map_ne_zero_iff ι.injective).2 hf0
  have hsep : (f.map ι).Separable := (PerfectField.separable_iff_squarefree.2 hf).map
  have hnd := nodup_roots hsep
  have h1 : Nat.card {x : K // (f.map ι).eval x = 0} = (f.map ι).roots.card := by
    rw [← Multiset.toFinset_card_of_nodup hnd, Nat.card_eq_fintype_card, Fintype.card_subtype]
    congr 1
    ext x
    simp [hm0]
  obtain ⟨u, hu⟩ := factors_prod hf0
  obtain ⟨a, ha, hua⟩ := Polynomial.isUnit_iff.1 u.isUnit
  have h2 : f.map ι = C (ι a) * ((factors f).map (fun P => P.map ι)).prod := by
    rw [← Polynomial.map_multiset_prod, ← Polynomial.map_C, ← Polynomial.map_mul, hua, mul_comm, hu]
  have h0 : (0 : K[X]) ∉ (factors f).map (fun P => P.map ι) := by
    intro h
    obtain ⟨P, hP, h⟩ := Multiset.mem_map.1 h
    exact (irreducible_of_factor P hP).ne_zero ((Polynomial.map_eq_zero_iff ι.injective).1 h)
  rw [h1, h2, roots_C_mul _ (by simpa using ha.ne_zero), roots_multiset_prod _ h0, Multiset.card_bind,
    Multiset.map_map]
  have h3 : ∀ s : Multiset F[X], (∀ P ∈ s, Irreducible P) →
      (s.map ((Multiset.card ∘ roots) ∘ fun P => P.map ι)).sum = ((s.map natDegree).filter (· ∣ n)).sum := by
    intro s
    induction s using Multiset.induction with
    | empty => intro _; simp
    | cons P s ih =>
      intro h
      rw [Multiset.map_cons, Multiset.sum_cons, ih (fun Q hQ => h Q (Multiset.mem_cons_of_mem hQ)), Multiset.map_cons]
      simp only [Function.comp_apply]
      rw [card_roots_irreducible ι hK (h P (Multiset.mem_cons_self _ _))]
      by_cases hd : P.natDegree ∣ n
      · rw [if_pos hd, Multiset.filter_cons_of_pos (p := (· ∣ n)) _ hd, Multiset.sum_cons]
      · rw [if_neg hd, Multiset.filter_cons_of_neg (p := (· ∣ n)) _ hd, zero_add]
  exact h3 _ (fun P hP => irreducible_of_factor P hP)

end Hycu
