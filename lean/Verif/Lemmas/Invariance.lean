import Mathlib.Algebra.Polynomial.AlgebraMap
import Mathlib.FieldTheory.Finite.Basic
import Verif.Lemmas.RamFactor

/-!
Substitutions and quadratic twists: points and branch degrees.
-/

namespace Hycu

open Polynomial UniqueFactorizationMonoid Fintype

set_option linter.unusedSectionVars false

section Subst
variable {K : Type} [Field K]

theorem natDegree_subst (f : K[X]) {a b c : K} (hb : b ≠ 0) (hc : c ≠ 0) :
    (C (c ^ 2) * f.comp (C b * X + C a)).natDegree = f.natDegree := by
  rw [natDegree_C_mul (pow_ne_zero 2 hc), natDegree_comp, natDegree_linear hb, Nat.mul_one]

theorem coeff_subst (f : K[X]) {a b c : K} (hb : b ≠ 0) (hc : c ≠ 0) :
    (C (c ^ 2) * f.comp (C b * X + C a)).coeff (2 * halfDegree f) =
      (c * b ^ halfDegree f) ^ 2 * f.coeff (2 * halfDegree f) := by
  have hn := natDegree_subst f (a := a) hb hc
  by_cases h : f.natDegree = 2 * halfDegree f
  · rw [coeff_C_mul]
    have h1 : (f.comp (C b * X + C a)).coeff (2 * halfDegree f) = f.leadingCoeff * b ^ f.natDegree := by
      have h2 : (f.comp (C b * X + C a)).natDegree = 2 * halfDegree f := by
        rw [natDegree_comp, natDegree_linear hb, Nat.mul_one, h]
      rw [← h2]
      show (f.comp (C b * X + C a)).leadingCoeff = _
      rw [leadingCoeff_comp (by rw [natDegree_linear hb]; decide), leadingCoeff_linear hb]
    rw [h1, ← h, leadingCoeff, mul_pow, ← pow_mul, Nat.mul_comm (halfDegree f), ← h]
    ring
  · have h3 : f.natDegree < 2 * halfDegree f := by unfold halfDegree at h ⊢; omega
    rw [coeff_eq_zero_of_natDegree_lt (by omega), coeff_eq_zero_of_natDegree_lt h3, mul_zero]

/-- The points of `c² f(bx+a)`, with any condition on `y` that only depends on whether `y` is zero. -/
theorem card_subst (f : K[X]) {a b c : K} (hb : b ≠ 0) (hc : c ≠ 0) (P : Prop → Prop) :
    Nat.card {Q : K × K // Q.2 ^ 2 = (C (c ^ 2) * f.comp (C b * X + C a)).eval Q.1 ∧ P (Q.2 = 0)} =
      Nat.card {Q : K × K // Q.2 ^ 2 = f.eval Q.1 ∧ P (Q.2 = 0)} := by
  have hc2 : c ^ 2 ≠ 0 := pow_ne_zero 2 hc
  refine Nat.card_congr ⟨fun Q => ⟨(b * Q.1.1 + a, Q.1.2 / c), ?_⟩,
    fun Q => ⟨((Q.1.1 - a) / b, Q.1.2 * c), ?_⟩, ?_, ?_⟩
  · obtain ⟨⟨x, y⟩, h1, h2⟩ := Q
    simp only at h1 h2 ⊢
    refine ⟨?_, ?_⟩
    · rw [div_pow, h1, eval_mul, eval_C, eval_comp]
      simp only [eval_add, eval_mul, eval_C, eval_X]
      rw [mul_div_cancel_left₀ _ hc2]
    · rw [div_eq_zero_iff]; simpa [hc] using h2
  · obtain ⟨⟨x, y⟩, h1, h2⟩ := Q
    simp only at h1 h2 ⊢
    refine ⟨?_, ?_⟩
    · rw [mul_pow, h1, eval_mul, eval_C, eval_comp]
      simp only [eval_add, eval_mul, eval_C, eval_X]
      rw [mul_div_cancel₀ _ hb, sub_add_cancel, mul_comm]
    · rw [mul_eq_zero]; simpa [hc] using h2
  · rintro ⟨⟨x, y⟩, _⟩
    simp only [Subtype.mk.injEq, Prod.mk.injEq]
    constructor
    · rw [add_sub_cancel_right, mul_div_cancel_left₀ _ hb]
    · rw [div_mul_cancel₀ _ hc]
  · rintro ⟨⟨x, y⟩, _⟩
    simp only [Subtype.mk.injEq, Prod.mk.injEq]
    constructor
    · rw [mul_div_cancel₀ _ hb, sub_add_cancel]
    · rw [mul_div_cancel_right₀ _ hc]

/-- Square roots of `s² a`. -/
theorem card_root_mul (a : K) {s : K} (hs : s ≠ 0) (P : Prop → Prop) :
    Nat.card {w : K // w ^ 2 = s ^ 2 * a ∧ P (w = 0)} = Nat.card {w : K // w ^ 2 = a ∧ P (w = 0)} := by
  refine Nat.card_congr ⟨fun w => ⟨w.1 / s, ?_⟩, fun w => ⟨w.1 * s, ?_⟩, ?_, ?_⟩
  · refine ⟨?_, ?_⟩
    · rw [div_pow, w.2.1, mul_div_cancel_left₀ _ (pow_ne_zero 2 hs)]
    · rw [div_eq_zero_iff]; simpa [hs] using w.2.2
  · refine ⟨?_, ?_⟩
    · rw [mul_pow, w.2.1, mul_comm]
    · rw [mul_eq_zero]; simpa [hs] using w.2.2
  · intro w; apply Subtype.ext; exact div_mul_cancel₀ _ hs
  · intro w; apply Subtype.ext; exact mul_div_cancel_right₀ _ hs

theorem points_subst (f : K[X]) {a b c : K} (hb : b ≠ 0) (hc : c ≠ 0) :
    unramifiedPoints (C (c ^ 2) * f.comp (C b * X + C a)) = unramifiedPoints f ∧
    ramifiedPoints (C (c ^ 2) * f.comp (C b * X + C a)) = ramifiedPoints f := by
  have hh : halfDegree (C (c ^ 2) * f.comp (C b * X + C a)) = halfDegree f := by
    rw [halfDegree, natDegree_subst f hb hc, halfDegree]
  have hs : c * b ^ halfDegree f ≠ 0 := mul_ne_zero hc (pow_ne_zero _ hb)
  constructor
  · unfold unramifiedPoints
    rw [hh, coeff_subst f hb hc]
    exact congrArg₂ _ (card_subst f hb hc (fun p => ¬ p)) (card_root_mul _ hs (fun p => ¬ p))
  · unfold ramifiedPoints
    rw [hh, coeff_subst f hb hc]
    exact congrArg₂ _ (card_subst f hb hc (fun p => p)) (card_root_mul _ hs (fun p => p))

theorem map_subst {L : Type} [Field L] (ι : K →+* L) (f : K[X]) (a b c : K) :
    (C (c ^ 2) * f.comp (C b * X + C a)).map ι =
      C ((ι c) ^ 2) * (f.map ι).comp (C (ι b) * X + C (ι a)) := by
  rw [Polynomial.map_mul, map_C, map_pow, Polynomial.map_comp]
  simp

/-- Degrees of factors are unchanged by automorphisms of the polynomial ring that preserve degrees, and by
constants. -/
theorem factorDegrees_congr {f h : K[X]} (hf : f ≠ 0) (σ : K[X] ≃* K[X])
    (hσ : ∀ p, (σ p).natDegree = p.natDegree) (hass : Associated h (σ f)) : factorDegrees h = factorDegrees f := by
  have hh : h ≠ 0 := by
    intro h0
    rw [h0] at hass
    have := (associated_zero_iff_eq_zero _).1 hass.symm
    exact hf (by
      have h1 : (σ f) * 0 = σ f := by rw [this, zero_mul]
      have h2 : σ (f * σ.symm 0) = σ f := by rw [map_mul, σ.apply_symm_apply, h1]
      have h3 : f * σ.symm 0 = f := σ.injective h2
      have h4 : σ.symm 0 = 1 := mul_left_cancel₀ hf (by rw [h3, mul_one])
      have h5 : (0 : K[X]) = 1 := by rw [← σ.apply_symm_apply 0, h4, map_one]
      exact absurd h5 zero_ne_one)
  have h1 : ∀ x ∈ (factors f).map σ, Irreducible x := by
    intro x hx
    obtain ⟨y, hy, rfl⟩ := Multiset.mem_map.1 hx
    exact (MulEquiv.irreducible_iff σ).2 (irreducible_of_factor y hy)
  have h2 : Associated (factors h).prod ((factors f).map σ).prod := by
    refine (factors_prod hh).trans (hass.trans ?_)
    rw [Multiset.prod_hom]
    exact (factors_prod hf).symm.map σ.toMonoidHom
  have hrel := factors_unique (fun x hx => irreducible_of_factor x hx) h1 h2
  rw [factorDegrees, factorDegrees, ← Multiset.rel_eq, Multiset.rel_map]
  rw [Multiset.rel_map_right] at hrel
  refine hrel.mono ?_
  intro x _ y _ hxy
  rw [natDegree_eq_of_degree_eq (degree_eq_degree_of_associated hxy), hσ]

theorem branchDegrees_subst {f : K[X]} (hf : f ≠ 0) {a b c : K} (hb : b ≠ 0) (hc : c ≠ 0) :
    branchDegrees (C (c ^ 2) * f.comp (C b * X + C a)) = branchDegrees f := by
  have := invertibleOfNonzero hb
  rw [branchDegrees, natDegree_subst f hb hc, branchDegrees]
  congr 1
  refine factorDegrees_congr hf (algEquivCMulXAddC b a).toRingEquiv.toMulEquiv ?_ ?_
  · intro p
    show (algEquivCMulXAddC b a p).natDegree = _
    rw [algEquivCMulXAddC_apply, ← comp_eq_aeval, natDegree_comp, natDegree_linear hb, Nat.mul_one]
  · show Associated _ (algEquivCMulXAddC b a f)
    rw [algEquivCMulXAddC_apply, ← comp_eq_aeval]
    exact associated_unit_mul_left _ _ (isUnit_C.2 (isUnit_iff_ne_zero.2 (pow_ne_zero 2 hc)))

theorem squarefree_subst {f : K[X]} (hf : Squarefree f) {a b c : K} (hb : b ≠ 0) (hc : c ≠ 0) :
    Squarefree (C (c ^ 2) * f.comp (C b * X + C a)) := by
  have := invertibleOfNonzero hb
  have h1 : Squarefree (algEquivCMulXAddC b a f) := by
    intro x hx
    have h2 := map_dvd (algEquivCMulXAddC b a).symm hx
    rw [map_mul, AlgEquiv.symm_apply_apply] at h2
    have := (hf _ h2).map (algEquivCMulXAddC b a)
    rwa [AlgEquiv.apply_symm_apply] at this
  rw [algEquivCMulXAddC_apply, ← comp_eq_aeval] at h1
  exact h1.squarefree_of_dvd ((associated_unit_mul_left _ _
    (isUnit_C.2 (isUnit_iff_ne_zero.2 (pow_ne_zero 2 hc)))).dvd)

end Subst

/-! ### Twists -/

section Twist
variable {K : Type} [Field K]

theorem branchDegrees_C_mul {f : K[X]} (hf : f ≠ 0) {ν : K} (hν : ν ≠ 0) :
    branchDegrees (C ν * f) = branchDegrees f := by
  rw [branchDegrees, natDegree_C_mul hν, branchDegrees]
  congr 1
  exact factorDegrees_congr hf (MulEquiv.refl _) (fun _ => rfl)
    (associated_unit_mul_left _ _ (isUnit_C.2 (isUnit_iff_ne_zero.2 hν)))

theorem squarefree_C_mul {f : K[X]} (hf : Squarefree f) {ν : K} (hν : ν ≠ 0) : Squarefree (C ν * f) :=
  hf.squarefree_of_dvd (associated_unit_mul_left _ _ (isUnit_C.2 (isUnit_iff_ne_zero.2 hν))).dvd

theorem points_square_mul (f : K[X]) {s : K} (hs : s ≠ 0) :
    unramifiedPoints (C (s ^ 2) * f) = unramifiedPoints f ∧
    ramifiedPoints (C (s ^ 2) * f) = ramifiedPoints f := by
  have := points_subst f (a := 0) (b := 1) (c := s) one_ne_zero hs
  simpa using this

variable [Fintype K]

/-- For a non-square `ν`, one of `a` and `ν a` is a square, unless they are zero. -/
theorem numSqrt_twist (h2 : ringChar K ≠ 2) {ν : K} (hν : ¬ IsSquare ν) (a : K) [Decidable (a = 0)] :
    numSqrt a + numSqrt (ν * a) + (if a = 0 then 2 else 0) = 2 := by
  classical
  have hν0 : ν ≠ 0 := by rintro rfl; exact hν ⟨0, by simp⟩
  obtain ⟨g, hg⟩ := exists_primitive (F := K)
  have hodd : card K % 2 = 1 := by
    by_contra h
    exact h2 ((FiniteField.even_card_iff_char_two).2 (by omega))
  by_cases ha : a = 0
  · rw [if_pos ha, ha, mul_zero, numSqrt_zero]
  · rw [if_neg ha, Nat.add_zero, numSqrt_euler hg hodd ha, numSqrt_euler hg hodd (mul_ne_zero hν0 ha)]
    have hm : (card K - 1) / 2 = card K / 2 := by omega
    have h1 : ν ^ (card K / 2) = -1 :=
      (FiniteField.pow_dichotomy h2 hν0).resolve_left fun h => hν ((FiniteField.isSquare_iff h2 hν0).2 h)
    have hne : (-1 : K) ≠ 1 := Ring.neg_one_ne_one_of_char_ne_two h2
    rw [hm, mul_pow, h1]
    rcases FiniteField.pow_dichotomy h2 ha with h | h
    · rw [h, mul_one, if_pos rfl, if_neg hne]
    · rw [h, if_neg hne, neg_mul_neg, one_mul, if_pos rfl]

/-- Over a field where `ν` is not a square, a curve and its twist have `2 (q+1)` points together. -/
theorem points_twist (h2 : ringChar K ≠ 2) {ν : K} (hν : ¬ IsSquare ν) (f : K[X]) :
    unramifiedPoints f + ramifiedPoints f + (unramifiedPoints (C ν * f) + ramifiedPoints (C ν * f)) =
      2 * (card K + 1) := by
  classical
  have hν0 : ν ≠ 0 := by rintro rfl; exact hν ⟨0, by simp⟩
  have hh : halfDegree (C ν * f) = halfDegree f := by rw [halfDegree, natDegree_C_mul hν0, halfDegree]
  unfold unramifiedPoints ramifiedPoints
  rw [card_affine, card_affine_ram, numSqrt_zero_root, card_affine, card_affine_ram, numSqrt_zero_root, hh]
  simp only [eval_mul, eval_C, coeff_C_mul, mul_eq_zero, hν0, false_or]
  have h1 : ∑ x : K, numSqrt (f.eval x) + ∑ x : K, (if f.eval x = 0 then 1 else 0) +
      (∑ x : K, numSqrt (ν * f.eval x) + ∑ x : K, (if f.eval x = 0 then 1 else 0)) = 2 * card K := by
    rw [← Finset.sum_add_distrib, ← Finset.sum_add_distrib, ← Finset.sum_add_distrib]
    calc _ = ∑ _x : K, 2 := Finset.sum_congr rfl fun x _ => by
            have := numSqrt_twist h2 hν (f.eval x)
            split_ifs at this ⊢ <;> omega
      _ = 2 * card K := by simp [Nat.mul_comm]
  have h3 := numSqrt_twist h2 hν (f.coeff (2 * halfDegree f))
  have h4 : (if f.coeff (2 * halfDegree f) = 0 then 2 else 0) =
      (if f.coeff (2 * halfDegree f) = 0 then 1 else 0) + (if f.coeff (2 * halfDegree f) = 0 then 1 else 0) := by
    split <;> rfl
  rw [h4] at h3
  unfold numSqrt at h1 h3 ⊢
  omega

variable {F : Type} [Field F] [Fintype F]

/-- A non-square becomes a square exactly in the extensions of even degree. -/
theorem isSquare_extension (ι : F →+* K) (h2 : ringChar F ≠ 2) {k : Nat} (hK : card K = card F ^ k)
    {ν : F} (hν : ¬ IsSquare ν) : IsSquare (ι ν) ↔ k % 2 = 0 := by
  have hν0 : ν ≠ 0 := by rintro rfl; exact hν ⟨0, by simp⟩
  have hιν : ι ν ≠ 0 := by simpa using hν0
  have hq : card F % 2 = 1 := by
    by_contra h
    exact h2 ((FiniteField.even_card_iff_char_two).2 (by omega))
  have h2K : ringChar K ≠ 2 := by
    intro h
    have := (FiniteField.even_card_iff_char_two).1 h
    rw [hK, Nat.pow_mod, hq, Nat.one_pow] at this
    omega
  have h1 : ν ^ (card F / 2) = -1 :=
    (FiniteField.pow_dichotomy h2 hν0).resolve_left fun h => hν ((FiniteField.isSquare_iff h2 hν0).2 h)
  have hexp : ∀ j : Nat, ∃ s, card F ^ j / 2 = card F / 2 * s ∧ s % 2 = j % 2 := by
    intro j
    obtain ⟨m, hm⟩ : ∃ m, card F = 2 * m + 1 := ⟨card F / 2, by omega⟩
    have hm2 : card F / 2 = m := by omega
    induction j with
    | zero => exact ⟨0, by simp, rfl⟩
    | succ j ih =>
      obtain ⟨s, hs1, hs2⟩ := ih
      rw [hm2] at hs1 ⊢
      refine ⟨card F * s + 1, ?_, ?_⟩
      · have hodd : card F ^ j % 2 = 1 := by rw [Nat.pow_mod, hq, Nat.one_pow]
        have he : card F ^ j = 2 * (m * s) + 1 := by omega
        rw [pow_succ, he, hm]
        have : (2 * (m * s) + 1) * (2 * m + 1) = 2 * (m * ((2 * m + 1) * s + 1)) + 1 := by ring
        omega
      · rw [hm]
        have : (2 * m + 1) * s + 1 = 2 * (m * s) + s + 1 := by ring
        omega
  obtain ⟨s, hs1, hs2⟩ := hexp k
  rw [FiniteField.isSquare_iff h2K hιν, hK, hs1, ← map_pow, pow_mul, h1, map_pow, map_neg, map_one]
  have hne : (-1 : K) ≠ 1 := Ring.neg_one_ne_one_of_char_ne_two h2K
  rcases Nat.mod_two_eq_zero_or_one s with h | h
  · rw [Even.neg_one_pow (Nat.even_iff.2 h)]
    simp only [true_iff]; omega
  · rw [Odd.neg_one_pow (Nat.odd_iff.2 h)]
    constructor
    · intro h3; exact absurd h3 hne
    · intro h3; omega

/-- Points of the twist over an extension of degree `k`. -/
theorem points_twist_extension (ι : F →+* K) (h2 : ringChar F ≠ 2) {k : Nat} (hK : card K = card F ^ k)
    {ν : F} (hν : ¬ IsSquare ν) (f : F[X]) :
    (k % 2 = 0 → unramifiedPoints ((C ν * f).map ι) + ramifiedPoints ((C ν * f).map ι) =
      unramifiedPoints (f.map ι) + ramifiedPoints (f.map ι)) ∧
    (k % 2 = 1 → unramifiedPoints (f.map ι) + ramifiedPoints (f.map ι) +
      (unramifiedPoints ((C ν * f).map ι) + ramifiedPoints ((C ν * f).map ι)) = 2 * (card K + 1)) := by
  have hν0 : ν ≠ 0 := by rintro rfl; exact hν ⟨0, by simp⟩
  have hsq := isSquare_extension ι h2 hK hν
  have h2K : ringChar K ≠ 2 := by
    intro h
    have h3 := (FiniteField.even_card_iff_char_two).1 h
    have hq : card F % 2 = 1 := by
      by_contra h
      exact h2 ((FiniteField.even_card_iff_char_two).2 (by omega))
    rw [hK, Nat.pow_mod, hq, Nat.one_pow] at h3
    omega
  rw [Polynomial.map_mul, map_C]
  constructor
  · intro h
    obtain ⟨s, hs⟩ := hsq.2 h
    have hs0 : s ≠ 0 := by
      rintro rfl
      rw [mul_zero] at hs
      exact hν0 (by simpa using hs)
    rw [hs, ← pow_two]
    obtain ⟨e1, e2⟩ := points_square_mul (f.map ι) hs0
    rw [e1, e2]
  · intro h
    exact points_twist h2K (fun h3 => by have := hsq.1 h3; omega) _

end Twist
end Hycu
