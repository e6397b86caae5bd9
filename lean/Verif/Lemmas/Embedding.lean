import Mathlib.FieldTheory.Finite.GaloisField
import Verif.Lemmas.Setting

/-!
Point counts do not depend on the embedding; matching generators exist.
-/

set_option linter.unusedSectionVars false

namespace Hycu

open Polynomial Fintype

variable {F K : Type} [Field F] [Fintype F] [Field K] [Fintype K]

/-- Two embeddings of a finite field differ by an automorphism of the big field. -/
theorem exists_automorphism (ι ι' : F →+* K) : ∃ τ : K ≃+* K, ∀ x, τ (ι x) = ι' x := by
  let a1 : Algebra F K := ι.toAlgebra
  have h1 := @FiniteField.isSplittingField_sub K F _ _ _ a1
  let a2 : Algebra F K := ι'.toAlgebra
  have h2 := @FiniteField.isSplittingField_sub K F _ _ _ a2
  let e1 := @IsSplittingField.algEquiv F K _ _ a1 (X ^ card K - X : F[X]) h1
  let e2 := @IsSplittingField.algEquiv F K _ _ a2 (X ^ card K - X : F[X]) h2
  refine ⟨(@AlgEquiv.toRingEquiv _ _ _ _ _ _ a1 _ e1).trans
    (@AlgEquiv.toRingEquiv _ _ _ _ _ _ a2 _ e2).symm, ?_⟩
  intro x
  have h3 : e1 (ι x) = algebraMap F (SplittingField (X ^ card K - X : F[X])) x :=
    @AlgEquiv.commutes _ _ _ _ _ _ a1 _ e1 x
  have h4 : e2 (ι' x) = algebraMap F (SplittingField (X ^ card K - X : F[X])) x :=
    @AlgEquiv.commutes _ _ _ _ _ _ a2 _ e2 x
  have h5 := @AlgEquiv.symm_apply_apply _ _ _ _ _ _ a2 _ e2 (ι' x)
  show e2.symm (e1 (ι x)) = ι' x
  rw [h3, ← h4]
  exact h5

omit [Fintype K] in
theorem halfDegree_map {L : Type} [Field L] (τ : K →+* L) (f : K[X]) : halfDegree (f.map τ) = halfDegree f := by
  unfold halfDegree
  rw [natDegree_map]

omit [Fintype K] in
/-- Isomorphic fields give the same numbers of points. -/
theorem points_ringEquiv (τ : K ≃+* K) (f : K[X]) :
    unramifiedPoints (f.map (τ : K →+* K)) = unramifiedPoints f ∧
      ramifiedPoints (f.map (τ : K →+* K)) = ramifiedPoints f := by
  have hev : ∀ x, (f.map (τ : K →+* K)).eval (τ x) = τ (f.eval x) := by
    intro x
    have := eval_map_apply (p := f) (f := (τ : K →+* K)) x
    simpa using this
  have e1 : ∀ (P : K → Prop) (Q : K → Prop), (∀ y, Q (τ y) ↔ P y) →
      Nat.card {p : K × K // p.2 ^ 2 = f.eval p.1 ∧ P p.2} =
      Nat.card {p : K × K // p.2 ^ 2 = (f.map (τ : K →+* K)).eval p.1 ∧ Q p.2} := by
    intro P Q hPQ
    apply Nat.card_congr
    refine Equiv.subtypeEquiv (Equiv.prodCongr τ.toEquiv τ.toEquiv) ?_
    rintro ⟨x, y⟩
    simp only [Equiv.prodCongr_apply, Prod.map_apply, RingEquiv.toEquiv_eq_coe, EquivLike.coe_coe]
    rw [hev, ← map_pow, τ.injective.eq_iff, hPQ]
  have e2 : ∀ (P : K → Prop) (Q : K → Prop), (∀ y, Q (τ y) ↔ P y) →
      Nat.card {w : K // w ^ 2 = f.coeff (2 * halfDegree f) ∧ P w} =
      Nat.card {w : K // w ^ 2 = (f.map (τ : K →+* K)).coeff (2 * halfDegree (f.map (τ : K →+* K))) ∧ Q w} := by
    intro P Q hPQ
    apply Nat.card_congr
    refine Equiv.subtypeEquiv τ.toEquiv ?_
    intro y
    simp only [RingEquiv.toEquiv_eq_coe, EquivLike.coe_coe]
    rw [halfDegree_map, coeff_map, RingEquiv.coe_toRingHom, ← map_pow, τ.injective.eq_iff, hPQ]
  unfold unramifiedPoints ramifiedPoints
  rw [e1 (· ≠ 0) (· ≠ 0) (by simp), e2 (· ≠ 0) (· ≠ 0) (by simp), e1 (· = 0) (· = 0) (by simp),
    e2 (· = 0) (· = 0) (by simp)]
  exact ⟨rfl, rfl⟩

/-- The number of points over `K` does not depend on how the base field is embedded. -/
theorem points_embedding (ι ι' : F →+* K) (f : F[X]) :
    unramifiedPoints (f.map ι) = unramifiedPoints (f.map ι') ∧
      ramifiedPoints (f.map ι) = ramifiedPoints (f.map ι') := by
  obtain ⟨τ, hτ⟩ := exists_automorphism ι ι'
  have h : f.map ι' = (f.map ι).map (τ : K →+* K) := by
    rw [Polynomial.map_map]
    congr 1
    ext x
    simp [hτ]
  rw [h, (points_ringEquiv τ (f.map ι)).1, (points_ringEquiv τ (f.map ι)).2]
  exact ⟨rfl, rfl⟩

/-- The elements `x` with `x^q = x` are those of the subfield of `q` elements. -/
theorem mem_range_of_pow (ι : F →+* K) {x : K} (h : x ^ card F = x) : ∃ a, ι a = x := by
  classical
  have hq := two_le_card (F := F)
  set s := (Finset.univ : Finset F).image ι
  set r := ((X ^ card F - X : K[X]).roots.toFinset)
  have hne : (X ^ card F - X : K[X]) ≠ 0 := FiniteField.X_pow_card_sub_X_ne_zero K (by omega)
  have hsub : s ⊆ r := by
    intro y hy
    obtain ⟨a, _, rfl⟩ := Finset.mem_image.1 hy
    rw [Multiset.mem_toFinset, mem_roots hne]
    simp [← map_pow, FiniteField.pow_card]
  have hcard : r.card ≤ s.card := by
    rw [Finset.card_image_of_injective _ ι.injective, Finset.card_univ]
    calc r.card ≤ Multiset.card (X ^ card F - X : K[X]).roots := Multiset.toFinset_card_le _
      _ ≤ (X ^ card F - X : K[X]).natDegree := card_roots' _
      _ = card F := FiniteField.X_pow_card_sub_X_natDegree_eq K (by omega)
  have heq := Finset.eq_of_subset_of_card_le hsub hcard
  have hx : x ∈ s := by
    rw [heq, Multiset.mem_toFinset, mem_roots hne]
    simp [h]
  obtain ⟨a, _, ha⟩ := Finset.mem_image.1 hx
  exact ⟨a, ha⟩

/-- For every extension and every generator of the big field there is a matching generator of the small one. -/
theorem exists_matching (ι : F →+* K) (hdvd : (card F - 1) ∣ (card K - 1)) {gK : K} (hg : Primitive gK) :
    ∃ gF : F, Primitive gF ∧ GeneratorsMatch gF gK ι := by
  have hq := two_le_card (F := F)
  have hQ := two_le_card (F := K)
  obtain ⟨d, hd⟩ := hdvd
  have hdpos : 0 < d := Nat.pos_of_ne_zero (by rintro rfl; omega)
  have hdiv : (card K - 1) / (card F - 1) = d := by
    rw [hd]; exact Nat.mul_div_cancel_left _ (by omega)
  have hpow : (gK ^ d) ^ card F = gK ^ d := by
    obtain ⟨q, hq'⟩ : ∃ q, card F = q + 1 := ⟨card F - 1, by omega⟩
    rw [hq'] at hd ⊢
    rw [pow_succ, ← pow_mul, Nat.mul_comm d q]
    simp only [Nat.add_sub_cancel] at hd
    rw [← hd, pow_card_pred hg.1, one_mul]
  obtain ⟨a, ha⟩ := mem_range_of_pow ι hpow
  refine ⟨a, ⟨?_, ?_⟩, by rw [GeneratorsMatch, hdiv, ha]⟩
  · rintro rfl
    rw [map_zero] at ha
    exact pow_ne_zero d hg.1 ha.symm
  · intro x hx
    obtain ⟨n, hn⟩ := hg.2 (ι x) (by simpa using hx)
    -- `g^(n (q-1)) = 1`, so `d` divides `n`
    have h1 : gK ^ (n * (card F - 1)) = gK ^ 0 := by
      rw [pow_mul, ← hn, ← map_pow, pow_card_pred hx, map_one, pow_zero]
    rw [hg.pow_eq_iff, Nat.zero_mod, hd] at h1
    have h2 : d ∣ n := by
      have := Nat.dvd_of_mod_eq_zero h1
      rw [Nat.mul_comm n] at this
      exact Nat.dvd_of_mul_dvd_mul_left (by omega) this
    obtain ⟨m, rfl⟩ := h2
    refine ⟨m, ι.injective ?_⟩
    rw [hn, map_pow, ha, ← pow_mul]

end Hycu
