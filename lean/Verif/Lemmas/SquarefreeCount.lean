import Mathlib.RingTheory.Polynomial.Basic
import Mathlib.RingTheory.UniqueFactorizationDomain.Nat
import Mathlib.RingTheory.PrincipalIdealDomain
import Mathlib.Algebra.Squarefree.Basic
import Mathlib.SetTheory.Cardinal.Finite
import Mathlib.Algebra.Polynomial.FieldDivision
import Mathlib.Tactic.Ring
import Mathlib.Algebra.GroupWithZero.Units.Fintype
import Mathlib.Tactic.Linarith

/-!
The number of squarefree polynomials over a finite field.
-/

namespace Hycu

open Polynomial UniqueFactorizationMonoid

variable {F : Type} [Field F]

/-- Monic polynomials of a degree. -/
abbrev Mon (F : Type) [Field F] (n : Nat) := {f : F[X] // f.Monic ∧ f.natDegree = n}

/-- Squarefree ones. -/
abbrev Sqf (F : Type) [Field F] (n : Nat) := {f : F[X] // f.Monic ∧ f.natDegree = n ∧ Squarefree f}

instance Mon.finite [Finite F] (n : Nat) : Finite (Mon F n) :=
  Finite.of_equiv (Fin n → F) ((monicEquivDegreeLT n).trans (degreeLTEquiv F n).toEquiv).symm

instance Sqf.finite [Finite F] (n : Nat) : Finite (Sqf F n) :=
  Finite.of_injective (fun f => (⟨f.1, f.2.1, f.2.2.1⟩ : Mon F n)) fun _ _ h => Subtype.ext (congrArg (fun x : Mon F n => x.1) h)

theorem card_mon [Fintype F] (n : Nat) : Nat.card (Mon F n) = Fintype.card F ^ n := by
  rw [Nat.card_congr ((monicEquivDegreeLT n).trans (degreeLTEquiv F n).toEquiv), Nat.card_eq_fintype_card]
  simp

/-- Every monic polynomial is a squarefree one times a square. -/
theorem exists_sqf_mul_sq : ∀ (n : Nat) (f : F[X]), f.Monic → f.natDegree = n →
    ∃ a b : F[X], a.Monic ∧ b.Monic ∧ Squarefree a ∧ f = a * b ^ 2 := by
  classical
  intro n
  induction n using Nat.strong_induction_on with
  | _ n ih =>
    intro f hf hn
    by_cases hs : Squarefree f
    · exact ⟨f, 1, hf, monic_one, hs, by ring⟩
    · unfold Squarefree at hs
      push Not at hs
      obtain ⟨d, ⟨g, hg⟩, hd⟩ := hs
      have hd0 : d ≠ 0 := fun h => hf.ne_zero (by rw [hg, h]; ring)
      have hg0 : g ≠ 0 := fun h => hf.ne_zero (by rw [hg, h]; ring)
      have hdm : (normalize d).Monic := monic_normalize hd0
      -- `f = (normalize d)^2 * g'`
      have hdvd : normalize d * normalize d ∣ f := by
        have : normalize d ∣ d := normalize_dvd_iff.2 dvd_rfl
        exact (mul_dvd_mul this this).trans ⟨g, hg⟩
      obtain ⟨g', hg'⟩ := hdvd
      have hm : g'.Monic := by
        have h1 : (normalize d * normalize d).Monic := hdm.mul hdm
        exact Monic.of_mul_monic_left h1 (hg' ▸ hf)
      have hdeg : 0 < (normalize d).natDegree := by
        rw [Nat.pos_iff_ne_zero]
        intro h0
        have h1 : normalize d = 1 := by
          rw [eq_C_of_natDegree_eq_zero h0, ← h0]
          exact congrArg C hdm
        exact hd (normalize_eq_one.1 h1)
      have hn' : g'.natDegree < n := by
        rw [← hn, hg', (hdm.mul hdm).natDegree_mul hm, hdm.natDegree_mul hdm]
        omega
      obtain ⟨a, b, h1, h2, h3, h4⟩ := ih _ hn' g' hm rfl
      exact ⟨a, normalize d * b, h1, hdm.mul h2, h3, by rw [hg', h4]; ring⟩

/-- Both factors are determined. -/
theorem sqf_mul_sq_inj {a b a' b' : F[X]} (ha : a.Monic) (hb : b.Monic) (ha' : a'.Monic) (hb' : b'.Monic) (hs : Squarefree a)
    (hs' : Squarefree a') (h : a * b ^ 2 = a' * b' ^ 2) : a = a' ∧ b = b' := by
  classical
  have hn : ∀ {a b : F[X]}, a.Monic → b.Monic → normalizedFactors (a * b ^ 2) =
      normalizedFactors a + 2 • normalizedFactors b := fun ha hb => by
    rw [normalizedFactors_mul ha.ne_zero (pow_ne_zero _ hb.ne_zero), normalizedFactors_pow]
  have h1 : normalizedFactors a + 2 • normalizedFactors b = normalizedFactors a' + 2 • normalizedFactors b' := by
    rw [← hn ha hb, ← hn ha' hb', h]
  have h2 : normalizedFactors b = normalizedFactors b' := by
    ext p
    have h3 := congrArg (Multiset.count p) h1
    rw [Multiset.count_add, Multiset.count_add, Multiset.count_nsmul, Multiset.count_nsmul] at h3
    have h4 := Multiset.nodup_iff_count_le_one.1 ((squarefree_iff_nodup_normalizedFactors ha.ne_zero).1 hs) p
    have h5 := Multiset.nodup_iff_count_le_one.1 ((squarefree_iff_nodup_normalizedFactors ha'.ne_zero).1 hs') p
    omega
  have h3 : Associated b b' := (associated_iff_normalizedFactors_eq_normalizedFactors hb.ne_zero hb'.ne_zero).2 h2
  have h4 : b = b' := eq_of_monic_of_associated hb hb' h3
  subst h4
  exact ⟨mul_right_cancel₀ (pow_ne_zero _ hb.ne_zero) h, rfl⟩

/-- Monic polynomials by the degree of the square. -/
theorem sum_sqf [Fintype F] (n : Nat) :
    ∑ k : Fin (n / 2 + 1), Nat.card (Sqf F (n - 2 * k)) * Fintype.card F ^ (k : Nat) = Fintype.card F ^ n := by
  let Φ : (Σ k : Fin (n / 2 + 1), Sqf F (n - 2 * k) × Mon F k) → Mon F n := fun x =>
    ⟨x.2.1.1 * x.2.2.1 ^ 2, x.2.1.2.1.mul (x.2.2.2.1.pow 2), by
      rw [x.2.1.2.1.natDegree_mul (x.2.2.2.1.pow 2), x.2.2.2.1.natDegree_pow, x.2.1.2.2.1, x.2.2.2.2]
      have := x.1.2
      omega⟩
  have hΦ : Function.Bijective Φ := by
    constructor
    · rintro ⟨⟨k, hk⟩, ⟨a, ha, hda, hsa⟩, ⟨b, hb, hdb⟩⟩ ⟨⟨k', hk'⟩, ⟨a', ha', hda', hsa'⟩, ⟨b', hb', hdb'⟩⟩ h
      have h1 : a * b ^ 2 = a' * b' ^ 2 := congrArg (fun x : Mon F n => x.1) h
      obtain ⟨rfl, rfl⟩ := sqf_mul_sq_inj ha hb ha' hb' hsa hsa' h1
      simp only at hdb hdb'
      have : k = k' := hdb.symm.trans hdb'
      subst this
      rfl
    · rintro ⟨f, hf, hn⟩
      obtain ⟨a, b, h1, h2, h3, h4⟩ := exists_sqf_mul_sq n f hf hn
      have hdeg : a.natDegree + 2 * b.natDegree = n := by
        rw [← hn, h4, h1.natDegree_mul (h2.pow 2), h2.natDegree_pow]
      refine ⟨⟨⟨b.natDegree, by omega⟩, ⟨a, h1, ?_, h3⟩, ⟨b, h2, rfl⟩⟩, Subtype.ext h4.symm⟩
      simp only
      omega
  rw [← card_mon (F := F) n, ← Nat.card_congr (Equiv.ofBijective Φ hΦ), Nat.card_sigma]
  refine Finset.sum_congr rfl fun k _ => ?_
  rw [Nat.card_prod, card_mon]

/-- The number of monic squarefree polynomials of degree at least 2. -/
theorem card_sqf [Fintype F] (n : Nat) : Nat.card (Sqf F (n + 2)) + Fintype.card F ^ (n + 1) = Fintype.card F ^ (n + 2) := by
  have h1 := sum_sqf (F := F) (n + 2)
  have h2 := sum_sqf (F := F) n
  have hk : (n + 2) / 2 + 1 = (n / 2 + 1) + 1 := by omega
  have h3 : ∑ k : Fin ((n + 2) / 2 + 1), Nat.card (Sqf F (n + 2 - 2 * k)) * Fintype.card F ^ (k : Nat) =
      Nat.card (Sqf F (n + 2)) + Fintype.card F * Fintype.card F ^ n := by
    rw [← h2, Finset.mul_sum, Fin.sum_univ_eq_sum_range (fun k => Nat.card (Sqf F (n + 2 - 2 * k)) * Fintype.card F ^ k),
      Fin.sum_univ_eq_sum_range (fun k => Fintype.card F * (Nat.card (Sqf F (n - 2 * k)) * Fintype.card F ^ k)), hk,
      Finset.sum_range_succ']
    rw [add_comm]
    congr 1
    · simp
    · refine Finset.sum_congr rfl fun k _ => ?_
      rw [show n + 2 - 2 * (k + 1) = n - 2 * k by omega]
      ring
  rw [← h1, h3]
  ring

/-- The number of squarefree polynomials of degree at least 2. -/
theorem card_squarefree [Fintype F] (n : Nat) :
    Nat.card {f : F[X] // Squarefree f ∧ f.natDegree = n + 2} = (Fintype.card F - 1) * (Fintype.card F - 1) * Fintype.card F ^ (n + 1) := by
  classical
  have hu : ∀ u : Fˣ, IsUnit (C (u : F)) := fun u => isUnit_C.2 u.isUnit
  let Φ : Fˣ × Sqf F (n + 2) → {f : F[X] // Squarefree f ∧ f.natDegree = n + 2} := fun x =>
    ⟨C (x.1 : F) * x.2.1, by
      refine ⟨?_, by rw [natDegree_C_mul x.1.ne_zero]; exact x.2.2.2.1⟩
      have : Associated x.2.1 (C (x.1 : F) * x.2.1) := ⟨(hu x.1).unit, by rw [mul_comm]; rfl⟩
      exact (this.squarefree_iff).1 x.2.2.2.2⟩
  have hΦ : Function.Bijective Φ := by
    constructor
    · rintro ⟨u, f, hf, hd, hs⟩ ⟨u', f', hf', hd', hs'⟩ h
      have h1 : C (u : F) * f = C (u' : F) * f' := congrArg (fun x => x.1) h
      have h2 := congrArg leadingCoeff h1
      rw [leadingCoeff_mul, leadingCoeff_mul, hf.leadingCoeff, hf'.leadingCoeff, leadingCoeff_C, leadingCoeff_C, mul_one,
        mul_one] at h2
      have h3 : u = u' := Units.ext h2
      subst h3
      have h4 : f = f' := mul_left_cancel₀ (hu u).ne_zero h1
      subst h4
      rfl
    · rintro ⟨f, hs, hd⟩
      have h0 : f ≠ 0 := hs.ne_zero
      have hl : f.leadingCoeff ≠ 0 := leadingCoeff_ne_zero.2 h0
      refine ⟨⟨Units.mk0 _ hl, C f.leadingCoeff⁻¹ * f, ?_, ?_, ?_⟩, Subtype.ext ?_⟩
      · unfold Monic
        rw [leadingCoeff_mul, leadingCoeff_C, inv_mul_cancel₀ hl]
      · rw [natDegree_C_mul (inv_ne_zero hl)]
        exact hd
      · have : Associated f (C f.leadingCoeff⁻¹ * f) :=
          ⟨(hu (Units.mk0 _ (inv_ne_zero hl))).unit, by rw [mul_comm]; rfl⟩
        exact (this.squarefree_iff).1 hs
      · show C f.leadingCoeff * (C f.leadingCoeff⁻¹ * f) = f
        rw [← mul_assoc, ← C_mul, mul_inv_cancel₀ hl, C_1, one_mul]
  rw [← Nat.card_congr (Equiv.ofBijective Φ hΦ), Nat.card_prod, show Nat.card Fˣ = Fintype.card F - 1 by rw [Nat.card_eq_fintype_card, Fintype.card_units], mul_assoc]
  congr 1
  have h := card_sqf (F := F) n
  have h1 : 1 ≤ Fintype.card F := Fintype.card_pos
  obtain ⟨q, hq⟩ : ∃ q, Fintype.card F = q + 1 := ⟨_, (Nat.sub_add_cancel h1).symm⟩
  rw [hq] at h ⊢
  rw [Nat.add_sub_cancel]
  have : (q + 1) ^ (n + 2) = q * (q + 1) ^ (n + 1) + (q + 1) ^ (n + 1) := by ring
  omega

end Hycu
