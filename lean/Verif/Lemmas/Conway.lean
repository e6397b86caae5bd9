import Mathlib.FieldTheory.Finite.Extension
import Mathlib.RingTheory.AdjoinRoot
import Verif.Spec.Conway
import Verif.Lemmas.Primitive

/-!
Fields presented by Conway polynomials have matching generators.
-/

namespace Hycu

open Polynomial Fintype

variable {p N : Nat} [Fact p.Prime] {C : Nat → (ZMod p)[X]}
variable {F K : Type} [Field F] [Fintype F] [Algebra (ZMod p) F] [Field K] [Fintype K] [Algebra (ZMod p) K]

omit [Fintype F] in
/-- An irreducible polynomial divides exactly the polynomials with a common root. -/
theorem dvd_iff_root {f g : (ZMod p)[X]} (hf : Irreducible f) {x : F} (h1 : aeval x f = 0) :
    f ∣ g ↔ aeval x g = 0 := (hf.dvd_iff_aeval_eq_zero h1).symm

/-- Roots of Conway polynomials are primitive. -/
theorem IsConway.primitive_root (h : IsConway p N C) {n : Nat} (h0 : 0 < n) (hn : n ≤ N) (hc : card F = p ^ n)
    {g : F} (hg : aeval g (C n) = 0) : Primitive g := by
  have key : ∀ m, g ^ m = 1 ↔ p ^ n - 1 ∣ m := by
    intro m
    rw [← h.primitive n h0 hn m, dvd_iff_root (h.irreducible n h0 hn) hg]
    simp [sub_eq_zero]
  have hp := (Fact.out : p.Prime).two_le
  have hpos : 2 ≤ p ^ n := le_trans hp (Nat.le_self_pow (by omega) p)
  have hne : g ≠ 0 := by
    rintro rfl
    have := (key (p ^ n - 1)).2 dvd_rfl
    rw [zero_pow (by omega)] at this
    exact zero_ne_one this
  rw [primitive_iff_orderOf hne, hc]
  exact Nat.dvd_antisymm (orderOf_dvd_of_pow_eq_one ((key _).2 dvd_rfl)) ((key _).1 (pow_orderOf_eq_one g))

/-- The generators of two fields match. -/
theorem IsConway.gens_match (h : IsConway p N C) {r k : Nat} (hr : 0 < r) (hk : 0 < k) (hn : k * r ≤ N)
    (hF : card F = p ^ r) (hK : card K = p ^ (k * r)) {gF : F} {gK : K} (h1 : aeval gF (C r) = 0)
    (h2 : aeval gK (C (k * r)) = 0) : ∃ ι : F →+* K, GeneratorsMatch gF gK ι := by
  have hrN : r ≤ N := le_trans (Nat.le_mul_of_pos_left r hk) hn
  have hkr : 0 < k * r := Nat.mul_pos hk hr
  have hirr := h.irreducible r hr hrN
  have : Fact (Irreducible (C r)) := ⟨hirr⟩
  have hroot : aeval (gK ^ ((p ^ (k * r) - 1) / (p ^ r - 1))) (C r) = 0 := by
    have := (dvd_iff_root (h.irreducible _ hkr hn) h2).1 (h.compatible r (k * r) hr hkr hn (Dvd.intro_left k rfl))
    rwa [aeval_comp, map_pow, aeval_X] at this
  let φ : AdjoinRoot (C r) →ₐ[ZMod p] F := AdjoinRoot.liftAlgHom (C r) (Algebra.ofId _ _) gF h1
  let ψ : AdjoinRoot (C r) →ₐ[ZMod p] K := AdjoinRoot.liftAlgHom (C r) (Algebra.ofId _ _) _ hroot
  have hφ : φ (AdjoinRoot.root (C r)) = gF := AdjoinRoot.liftAlgHom_root ..
  have hψ : ψ (AdjoinRoot.root (C r)) = gK ^ ((p ^ (k * r) - 1) / (p ^ r - 1)) := AdjoinRoot.liftAlgHom_root ..
  have hbij : Function.Bijective φ := by
    refine ⟨φ.toRingHom.injective, fun x => ?_⟩
    by_cases hx : x = 0
    · exact ⟨0, by rw [hx, map_zero]⟩
    · obtain ⟨n, rfl⟩ := (h.primitive_root hr hrN hF h1).2 x hx
      exact ⟨AdjoinRoot.root (C r) ^ n, by rw [map_pow, hφ]⟩
  let e := AlgEquiv.ofBijective φ hbij
  refine ⟨(ψ.comp e.symm.toAlgHom).toRingHom, ?_⟩
  unfold GeneratorsMatch
  rw [hF, hK, ← hψ]
  show ψ (e.symm gF) = _
  rw [show e.symm gF = AdjoinRoot.root (C r) from e.symm_apply_eq.2 hφ.symm]

omit [Fintype K] in
/-- Elements of order `p^n - 1` have degree `n`. -/
theorem natDegree_minpoly_of_order [Finite K] {x : K} {n : Nat} (hn : 0 < n) (hx : orderOf x = p ^ n - 1) :
    (minpoly (ZMod p) x).natDegree = n := by
  have hp := (Fact.out : p.Prime).two_le
  have hint : IsIntegral (ZMod p) x := .of_finite _ _
  have hirr := minpoly.irreducible hint
  have hcard : Nat.card (ZMod p) = p := by simp
  have hpow : ∀ m, 0 < m → (minpoly (ZMod p) x ∣ X ^ (Nat.card (ZMod p)) ^ m - X ↔ p ^ n - 1 ∣ p ^ m - 1) := by
    intro m hm
    have h1 : 1 ≤ p ^ m := Nat.one_le_pow _ _ (by omega)
    have hx0 : x ≠ 0 := by
      rintro rfl
      rw [orderOf_zero] at hx
      have : 2 ≤ p ^ n := le_trans hp (Nat.le_self_pow (by omega) p)
      omega
    rw [dvd_iff_root hirr (minpoly.aeval _ x), hcard, ← hx, orderOf_dvd_iff_pow_eq_one]
    simp only [map_sub, map_pow, aeval_X, sub_eq_zero]
    conv_lhs => rw [show p ^ m = (p ^ m - 1) + 1 by omega, pow_succ]
    constructor
    · intro h
      exact mul_right_cancel₀ hx0 (h.trans (one_mul x).symm)
    · intro h
      rw [h, one_mul]
  have h1 : (minpoly (ZMod p) x).natDegree ∣ n :=
    hirr.natDegree_dvd_of_dvd_X_pow_card_pow_sub_X ((hpow n hn).2 dvd_rfl)
  have hD : 0 < (minpoly (ZMod p) x).natDegree := minpoly.natDegree_pos hint
  have h2 := (hpow _ hD).1 (hirr.natDegree_dvd_iff_dvd_X_pow_card_pow_sub_X.1 dvd_rfl)
  have h3 : 2 ≤ p ^ (minpoly (ZMod p) x).natDegree := le_trans hp (Nat.le_self_pow (by omega) p)
  have h4 := Nat.le_of_dvd (by omega) h2
  have h5 : p ^ n ≤ p ^ (minpoly (ZMod p) x).natDegree := by omega
  have h6 := (Nat.pow_le_pow_iff_right (by omega)).1 h5
  exact le_antisymm (Nat.le_of_dvd hn h1) h6

/-- There are such polynomials. -/
theorem exists_conway (p N : Nat) [Fact p.Prime] : ∃ C, IsConway p N C := by
  classical
  have hp := (Fact.out : p.Prime).two_le
  let _ : Fintype (GaloisField p N.factorial) := .ofFinite _
  have hc : card (GaloisField p N.factorial) = p ^ N.factorial := by
    rw [← Nat.card_eq_fintype_card]
    exact GaloisField.card p _ (Nat.factorial_ne_zero N)
  obtain ⟨g, hg⟩ := exists_primitive (F := GaloisField p N.factorial)
  have hord := hg.orderOf_eq
  rw [hc] at hord
  have two : ∀ n, 0 < n → 2 ≤ p ^ n := fun n hn => le_trans hp (Nat.le_self_pow (by omega) p)
  have hdvd : ∀ d n, d ∣ n → p ^ d - 1 ∣ p ^ n - 1 := by
    rintro d n ⟨k, rfl⟩
    rw [pow_mul]
    simpa using Nat.sub_dvd_pow_sub_pow (p ^ d) 1 k
  have hfac : ∀ n, 0 < n → n ≤ N → n ∣ N.factorial := fun n h1 h2 => Nat.dvd_factorial h1 h2
  let e : Nat → Nat := fun n => (p ^ N.factorial - 1) / (p ^ n - 1)
  have hpos := two N.factorial (Nat.factorial_pos N)
  have he : ∀ n, 0 < n → n ≤ N → orderOf (g ^ e n) = p ^ n - 1 := by
    intro n h1 h2
    have h3 := two n h1
    have h4 := hdvd n _ (hfac n h1 h2)
    rw [orderOf_pow_of_dvd (Nat.div_pos (Nat.le_of_dvd (by omega) h4) (by omega)).ne' (by
      rw [hord]
      exact Nat.div_dvd_of_dvd h4), hord]
    exact Nat.div_div_self h4 (by omega)
  refine ⟨fun n => minpoly (ZMod p) (g ^ e n), ?_, ?_, ?_, ?_, ?_⟩
  · exact fun n _ _ => minpoly.monic (.of_finite _ _)
  · exact fun n h1 h2 => natDegree_minpoly_of_order h1 (he n h1 h2)
  · exact fun n _ _ => minpoly.irreducible (.of_finite _ _)
  · intro n h1 h2 m
    rw [dvd_iff_root (minpoly.irreducible (.of_finite _ _)) (minpoly.aeval _ (g ^ e n)), ← he n h1 h2,
      orderOf_dvd_iff_pow_eq_one]
    simp [sub_eq_zero]
  · intro d n h1 h2 h3 h4
    rw [dvd_iff_root (minpoly.irreducible (.of_finite _ _)) (minpoly.aeval _ (g ^ e n)), aeval_comp, map_pow, aeval_X,
      ← pow_mul]
    have h5 : e n * ((p ^ n - 1) / (p ^ d - 1)) = e d := by
      obtain ⟨a, ha⟩ := hdvd n _ (hfac n h2 h3)
      obtain ⟨b, hb⟩ := hdvd d n h4
      have := two d h1
      have := two n h2
      show (p ^ N.factorial - 1) / (p ^ n - 1) * ((p ^ n - 1) / (p ^ d - 1)) = (p ^ N.factorial - 1) / (p ^ d - 1)
      rw [ha, Nat.mul_div_cancel_left _ (by omega), hb, Nat.mul_div_cancel_left _ (by omega), Nat.mul_assoc,
        Nat.mul_div_cancel_left _ (by omega), Nat.mul_comm]
    rw [h5]
    exact minpoly.aeval _ _

/-- All elements are roots. -/
theorem splits_whole (F : Type) [Field F] [Fintype F] : (X ^ card F - X : F[X]).Splits := by
  rw [splits_iff_card_roots, FiniteField.roots_X_pow_card_sub_X, FiniteField.X_pow_card_sub_X_natDegree_eq F one_lt_card]
  rfl

/-- A Conway polynomial has a root in every field of the right size. -/
theorem IsConway.exists_root (h : IsConway p N C) {n : Nat} (h0 : 0 < n) (hn : n ≤ N) (hc : card F = p ^ n) :
    ∃ g : F, aeval g (C n) = 0 := by
  have hp := (Fact.out : p.Prime).two_le
  have h1 : C n ∣ X ^ p ^ n - X := by
    have := (h.irreducible n h0 hn).natDegree_dvd_iff_dvd_X_pow_card_pow_sub_X (n := n)
    rw [h.degree n h0 hn, Nat.card_zmod] at this
    exact this.1 dvd_rfl
  have h2 : (C n).map (algebraMap (ZMod p) F) ∣ X ^ p ^ n - X := by
    have := map_dvd (algebraMap (ZMod p) F) h1
    simpa using this
  rw [← hc] at h2
  have h3 : ((C n).map (algebraMap (ZMod p) F)).Splits :=
    Splits.of_dvd (splits_whole F) (FiniteField.X_pow_card_sub_X_ne_zero F one_lt_card) h2
  obtain ⟨x, hx⟩ := h3.exists_eval_eq_zero (by
    rw [degree_map]
    intro h4
    have h5 : (C n).natDegree = 0 := natDegree_eq_zero_iff_degree_le_zero.2 h4.le
    rw [h.degree n h0 hn] at h5
    omega)
  exact ⟨x, by rwa [aeval_def, ← eval_map]⟩

end Hycu
