import Mathlib.Algebra.BigOperators.Ring.Finset
import Mathlib.Algebra.Polynomial.Taylor
import Mathlib.GroupTheory.SpecificGroups.Cyclic
import Mathlib.RingTheory.IntegralDomain
import Mathlib.FieldTheory.Finite.Basic
import Verif.Spec.Mass
import Verif.Lemmas.Primitive

/-!
Sums of invariant functions over polynomials, compared with sums over normal forms.
-/

namespace Hycu

open Polynomial Finset
open scoped Classical

set_option linter.unusedSectionVars false

/-- The elements of `S` with property `R`. -/
noncomputable def fil {X : Type} (S : Finset X) (R : X → Prop) : Finset X := S.filter R

theorem mem_fil {X : Type} {S : Finset X} {R : X → Prop} {x : X} : x ∈ fil S R ↔ x ∈ S ∧ R x :=
  Finset.mem_filter

theorem fil_fil {X : Type} (S : Finset X) (R R' : X → Prop) :
    fil (fil S R) R' = fil S (fun x => R x ∧ R' x) := by
  ext x
  simp only [mem_fil]
  tauto

theorem fil_congr {X : Type} {S : Finset X} {R R' : X → Prop} (h : ∀ x ∈ S, R x ↔ R' x) : fil S R = fil S R' := by
  ext x
  simp only [mem_fil]
  constructor
  · rintro ⟨h1, h2⟩; exact ⟨h1, (h x h1).1 h2⟩
  · rintro ⟨h1, h2⟩; exact ⟨h1, (h x h1).2 h2⟩

theorem sum_fil {X : Type} (S : Finset X) (R : X → Prop) (Ψ : X → Nat) :
    ∑ f ∈ fil S R, Ψ f = ∑ f ∈ S, if R f then Ψ f else 0 := Finset.sum_filter _ _

theorem sum_fil_add_not {X : Type} (S : Finset X) (R : X → Prop) (Ψ : X → Nat) :
    ∑ f ∈ S, Ψ f = ∑ f ∈ fil S R, Ψ f + ∑ f ∈ fil S (fun f => ¬ R f), Ψ f := by
  rw [sum_fil, sum_fil, ← Finset.sum_add_distrib]
  apply Finset.sum_congr rfl
  intro f _
  by_cases h : R f <;> simp [h]

/-- If the maps `τ b` permute `S` and keep `Ψ`, and for each element of `S` exactly `n` of them give an
element with property `R`, then the elements with property `R` carry the share `n / |B|`. -/
theorem orbit_sum {X β : Type} (S : Finset X) (B : Finset β) (τ : β → X → X)
    (Ψ : X → Nat) (R : X → Prop) (n : Nat)
    (hmem : ∀ b ∈ B, ∀ f ∈ S, τ b f ∈ S) (hinj : ∀ b ∈ B, ∀ f ∈ S, ∀ g ∈ S, τ b f = τ b g → f = g)
    (hΨ : ∀ b ∈ B, ∀ f ∈ S, Ψ (τ b f) = Ψ f)
    (hn : ∀ f ∈ S, (fil B fun b => R (τ b f)).card = n) :
    B.card * ∑ f ∈ fil S (fun f => R f), Ψ f = n * ∑ f ∈ S, Ψ f := by
  have h1 : ∀ b ∈ B, ∑ f ∈ fil S (fun f => R (τ b f)), Ψ f = ∑ f ∈ fil S (fun f => R f), Ψ f := by
    intro b hb
    have himg : S.image (τ b) = S := by
      apply Finset.eq_of_subset_of_card_le
      · intro x hx
        obtain ⟨f, hf, rfl⟩ := Finset.mem_image.1 hx
        exact hmem b hb f hf
      · rw [Finset.card_image_of_injOn (fun f hf g hg h => hinj b hb f hf g hg h)]
    rw [sum_fil, sum_fil]
    conv_rhs => rw [← himg]
    rw [Finset.sum_image (fun f hf g hg h => hinj b hb f hf g hg h)]
    apply Finset.sum_congr rfl
    intro f hf
    rw [hΨ b hb f hf]
  calc B.card * ∑ f ∈ fil S (fun f => R f), Ψ f = ∑ b ∈ B, ∑ f ∈ fil S (fun f => R f), Ψ f := by
        rw [Finset.sum_const, smul_eq_mul]
    _ = ∑ b ∈ B, ∑ f ∈ fil S (fun f => R (τ b f)), Ψ f := (Finset.sum_congr rfl h1).symm
    _ = ∑ b ∈ B, ∑ f ∈ S, if R (τ b f) then Ψ f else 0 := by simp only [sum_fil]
    _ = ∑ f ∈ S, ∑ b ∈ B, if R (τ b f) then Ψ f else 0 := Finset.sum_comm
    _ = ∑ f ∈ S, n * Ψ f := by
        apply Finset.sum_congr rfl
        intro f hf
        rw [← Finset.sum_filter, Finset.sum_const, smul_eq_mul]
        exact congrArg (· * Ψ f) (hn f hf)
    _ = n * ∑ f ∈ S, Ψ f := (Finset.mul_sum _ _ _).symm

/-- Splitting a sum by the largest index below `n` at which `z` does not hold. -/
theorem peel_sum {X : Type} (S : Finset X) (Ψ : X → Nat) (z : X → Nat → Prop) :
    ∀ n, ∑ f ∈ S, Ψ f = (∑ m ∈ range n, ∑ f ∈ fil S (fun f => (∀ i, m < i → i < n → z f i) ∧ ¬ z f m), Ψ f) +
      ∑ f ∈ fil S (fun f => ∀ i, i < n → z f i), Ψ f := by
  intro n
  have hex : ∀ f : X, (if ∀ i, i < n → z f i then Ψ f else 0) +
      ∑ m ∈ range n, (if (∀ i, m < i → i < n → z f i) ∧ ¬ z f m then Ψ f else 0) = Ψ f := by
    intro f
    induction n with
    | zero => simp
    | succ n ih =>
      rw [Finset.sum_range_succ]
      by_cases hz : z f n
      · have e1 : (∀ i, i < n + 1 → z f i) ↔ ∀ i, i < n → z f i := by
          constructor
          · intro h i hi; exact h i (by omega)
          · intro h i hi
            by_cases hin : i = n
            · rw [hin]; exact hz
            · exact h i (by omega)
        have e2 : ∀ m, (∀ i, m < i → i < n + 1 → z f i) ↔ ∀ i, m < i → i < n → z f i := by
          intro m
          constructor
          · intro h i h1 h2; exact h i h1 (by omega)
          · intro h i h1 hi
            by_cases hin : i = n
            · rw [hin]; exact hz
            · exact h i h1 (by omega)
        simp only [e1, e2]
        simp only [hz, not_true_eq_false, and_false, if_false, Nat.add_zero]
        exact ih
      · rw [if_neg (fun h => hz (h n (by omega)))]
        rw [Finset.sum_eq_zero, if_pos ⟨fun i h1 h2 => by omega, hz⟩]
        · omega
        · intro m hm
          rw [if_neg]
          rintro ⟨h, _⟩
          exact hz (h n (Finset.mem_range.1 hm) (by omega))
  simp only [sum_fil]
  rw [Finset.sum_comm, ← Finset.sum_add_distrib]
  apply Finset.sum_congr rfl
  intro f _
  rw [Nat.add_comm]
  refine (hex f).symm.trans ?_
  congr!

section
variable {F : Type} [Field F] [Fintype F]

theorem mem_polys {d : Nat} {f : F[X]} : f ∈ polysOfDegree F d ↔ f ≠ 0 ∧ f.natDegree = d := by
  simp [polysOfDegree]

/-- Another description of the polynomials of degree `d`. -/
theorem mem_polys' {d : Nat} {f : F[X]} : f ∈ polysOfDegree F d ↔ f.coeff d ≠ 0 ∧ ∀ i, d < i → f.coeff i = 0 := by
  rw [mem_polys]
  constructor
  · rintro ⟨h1, rfl⟩
    exact ⟨by simpa using h1, fun i hi => coeff_eq_zero_of_natDegree_lt hi⟩
  · rintro ⟨h1, h2⟩
    refine ⟨fun h => h1 (by simp [h]), ?_⟩
    apply le_antisymm
    · exact natDegree_le_iff_coeff_eq_zero.2 h2
    · exact le_natDegree_of_ne_zero h1

/-! ### The substitutions -/

theorem taylor_polys {d : Nat} {f : F[X]} (hf : f ∈ polysOfDegree F d) (b : F) : taylor b f ∈ polysOfDegree F d := by
  rw [mem_polys] at hf ⊢
  refine ⟨?_, by rw [natDegree_taylor]; exact hf.2⟩
  intro h
  exact hf.1 ((taylor_injective b) (by rw [h, map_zero]))

theorem coeff_taylor {d : Nat} {f : F[X]} (hf : f ∈ polysOfDegree F d) (b : F) (k : Nat) :
    (taylor b f).coeff k = ∑ i ∈ range (d + 1), (i.choose k : F) * f.coeff i * b ^ (i - k) := by
  rw [taylor_coeff, hasseDeriv_apply, sum_over_range' (n := d + 1)]
  · rw [eval_finsetSum]
    apply Finset.sum_congr rfl
    intro i _
    rw [eval_monomial]
  · intro i; simp
  · rw [(mem_polys.1 hf).2]; omega

theorem taylor_coeff_pred {d : Nat} (hd : 1 ≤ d) {f : F[X]} (hf : f ∈ polysOfDegree F d) (b : F) :
    (taylor b f).coeff (d - 1) = f.coeff (d - 1) + d * f.coeff d * b := by
  obtain ⟨e, rfl⟩ : ∃ e, d = e + 1 := ⟨d - 1, by omega⟩
  rw [coeff_taylor hf, Finset.sum_range_succ, Finset.sum_range_succ, Finset.sum_eq_zero]
  · simp
  · intro i hi
    rw [Nat.choose_eq_zero_of_lt (by have := Finset.mem_range.1 hi; omega)]
    simp

theorem taylor_coeff_top {d : Nat} {f : F[X]} (hf : f ∈ polysOfDegree F d) (b : F) :
    (taylor b f).coeff d = f.coeff d := by
  rw [coeff_taylor hf, Finset.sum_range_succ, Finset.sum_eq_zero]
  · simp
  · intro i hi
    rw [Nat.choose_eq_zero_of_lt (by have := Finset.mem_range.1 hi; omega)]
    simp

theorem taylor_coeff_pred2 {d : Nat} (hd : 2 ≤ d) {f : F[X]} (hf : f ∈ polysOfDegree F d) (b : F) :
    (taylor b f).coeff (d - 2) = f.coeff (d - 2) + ((d - 1 : Nat) : F) * f.coeff (d - 1) * b +
      (d.choose 2 : F) * f.coeff d * b ^ 2 := by
  obtain ⟨e, rfl⟩ : ∃ e, d = e + 2 := ⟨d - 2, by omega⟩
  rw [coeff_taylor hf, Finset.sum_range_succ, Finset.sum_range_succ, Finset.sum_range_succ, Finset.sum_eq_zero]
  · have h1 : (e + 2).choose e = (e + 2).choose 2 := by
      rw [← Nat.choose_symm (show e ≤ e + 2 by omega)]; congr 1; omega
    simp only [show e + 2 - 2 = e by omega, show e + 2 - 1 = e + 1 by omega, Nat.choose_self,
      Nat.choose_succ_self_right, h1, show e + 1 - e = 1 by omega, show e + 2 - e = 2 by omega, Nat.sub_self]
    simp
  · intro i hi
    rw [Nat.choose_eq_zero_of_lt (by have := Finset.mem_range.1 hi; omega)]
    simp

/-- `c f(b x)`. -/
noncomputable def scale (c b : F) (f : F[X]) : F[X] := C c * f.comp (C b * X)

theorem coeff_scale (c b : F) (f : F[X]) (i : Nat) : (scale c b f).coeff i = c * b ^ i * f.coeff i := by
  rw [scale, coeff_C_mul, comp_C_mul_X_coeff]
  ring

theorem scale_injective {c b : F} (hc : c ≠ 0) (hb : b ≠ 0) : Function.Injective (scale c b : F[X] → F[X]) := by
  intro f g h
  ext i
  have := congrArg (fun p => p.coeff i) h
  simp only [coeff_scale] at this
  exact mul_left_cancel₀ (mul_ne_zero hc (pow_ne_zero i hb)) this

theorem scale_polys {d : Nat} {c b : F} (hc : c ≠ 0) (hb : b ≠ 0) {f : F[X]} (hf : f ∈ polysOfDegree F d) :
    scale c b f ∈ polysOfDegree F d := by
  rw [mem_polys'] at hf ⊢
  simp only [coeff_scale]
  refine ⟨mul_ne_zero (mul_ne_zero hc (pow_ne_zero _ hb)) hf.1, fun i hi => ?_⟩
  rw [hf.2 i hi, mul_zero]

/-! ### The count of normal forms -/

theorem card_linear {u v : F} (hv : v ≠ 0) :
    (fil (univ : Finset F) fun b => u + v * b = 0).card = 1 := by
  rw [Finset.card_eq_one]
  refine ⟨-u / v, ?_⟩
  ext b
  simp only [mem_fil, Finset.mem_univ, true_and, Finset.mem_singleton]
  rw [eq_div_iff hv]
  constructor
  · intro h; linear_combination h
  · intro h; linear_combination h

theorem card_scalar {u : F} (hu : u ≠ 0) :
    (fil (univ : Finset Fˣ) fun c : Fˣ => (c : F) * u = 1).card = 1 := by
  rw [Finset.card_eq_one]
  refine ⟨(Units.mk0 u hu)⁻¹, ?_⟩
  ext c
  simp only [mem_fil, Finset.mem_univ, true_and, Finset.mem_singleton]
  rw [eq_inv_iff_mul_eq_one, ← Units.val_inj]
  simp

theorem zpowers_of_primitive {g : F} (hg : Primitive g) (x : Fˣ) : ∃ n : Nat, x = (Units.mk0 g hg.1) ^ n := by
  obtain ⟨n, hn⟩ := hg.2 x x.ne_zero
  exact ⟨n, Units.ext (by simpa using hn)⟩

theorem orderOf_primitive {g : F} (hg : Primitive g) : orderOf (Units.mk0 g hg.1) = Fintype.card F - 1 := by
  rw [← Fintype.card_units, ← Nat.card_eq_fintype_card]
  refine orderOf_eq_card_of_forall_mem_zpowers ?_
  intro x
  obtain ⟨n, hn⟩ := zpowers_of_primitive hg x
  exact ⟨n, by simpa using hn.symm⟩

/-- For every `a ≠ 0` and `k` there are `gcd(k, q-1)` units `b` such that `b^k a` is one of the powers `g^j`,
`j < gcd(k, q-1)`. -/
theorem card_coset {g : F} (hg : Primitive g) (k : Nat) {a : F} (ha : a ≠ 0) :
    (fil (univ : Finset Fˣ) fun b : Fˣ => ∃ j, j < Nat.gcd k (Fintype.card F - 1) ∧ (b : F) ^ k * a = g ^ j).card =
      Nat.gcd k (Fintype.card F - 1) := by
  set u := Units.mk0 g hg.1 with hu
  set N := Fintype.card F - 1 with hN
  have hNpos : 0 < N := by
    have := Fintype.one_lt_card (α := F)
    omega
  have hord : orderOf u = N := orderOf_primitive hg
  have hcard : Nat.card Fˣ = N := by rw [Nat.card_eq_fintype_card, Fintype.card_units]
  set γ := Nat.gcd k N with hγ
  have hγ0 : 0 < γ := Nat.gcd_pos_of_pos_right _ hNpos
  have hγN : γ ∣ N := Nat.gcd_dvd_right _ _
  obtain ⟨s, hs⟩ := zpowers_of_primitive hg (Units.mk0 a ha)
  rw [← hu] at hs
  -- the only possible `j`
  have hj : ∀ (b : Fˣ) (j : Nat), b ^ k * u ^ s = u ^ j → j % γ = s % γ := by
    intro b j h
    obtain ⟨n, rfl⟩ := zpowers_of_primitive hg b
    rw [← hu, ← pow_mul, ← pow_add, pow_inj_mod, hord] at h
    have h1 : n * k + s ≡ j [MOD γ] := Nat.ModEq.of_dvd hγN h
    have h2 : n * k ≡ 0 [MOD γ] := (Nat.modEq_zero_iff_dvd).2 (Dvd.dvd.mul_left (Nat.gcd_dvd_left _ _) _)
    have h3 : n * k + s ≡ 0 + s [MOD γ] := h2.add_right s
    rw [Nat.zero_add] at h3
    exact (h1.symm.trans h3)
  -- one solution
  obtain ⟨b0, hb0⟩ : ∃ b0 : Fˣ, b0 ^ k * u ^ s = u ^ (s % γ) := by
    -- x k ≡ s%γ - s mod N
    have hbez := Nat.gcd_eq_gcd_ab k N
    rw [← hγ] at hbez
    refine ⟨u ^ (-(Nat.gcdA k N * ((s / γ : Nat) : ℤ))), ?_⟩
    have e1 : u ^ (N : ℤ) = 1 := by rw [zpow_natCast, ← hord, pow_orderOf_eq_one]
    have e2 : (s : ℤ) = γ * ((s / γ : Nat) : ℤ) + ((s % γ : Nat) : ℤ) := by
      exact_mod_cast (Nat.div_add_mod s γ).symm
    have e3 : (u ^ (-(Nat.gcdA k N * ((s / γ : Nat) : ℤ)))) ^ k * u ^ s =
        u ^ (((s % γ : Nat) : ℤ) + N * (Nat.gcdB k N * ((s / γ : Nat) : ℤ))) := by
      rw [← zpow_natCast, ← zpow_natCast, ← zpow_mul, ← zpow_add]
      congr 1
      rw [e2, hbez]
      ring
    rw [e3, zpow_add, zpow_mul, e1, one_zpow, mul_one, zpow_natCast]
  have hker := IsCyclic.card_powMonoidHom_ker (G := Fˣ) k
  rw [hcard, Nat.gcd_comm, ← hγ] at hker
  have hker' : (fil (univ : Finset Fˣ) fun b => b ^ k = 1).card = γ := by
    rw [← hker, Nat.subtype_card]
    intro x
    simp [mem_fil, MonoidHom.mem_ker]
  conv_rhs => rw [← hker']
  have hchar : ∀ b : Fˣ, (∃ j, j < γ ∧ (b : F) ^ k * a = g ^ j) ↔ b ^ k * u ^ s = u ^ (s % γ) := by
    intro b
    have hval : ∀ j, (b : F) ^ k * a = g ^ j ↔ b ^ k * u ^ s = u ^ j := by
      intro j
      rw [← hs, ← Units.val_inj]
      simp [hu]
    simp only [hval]
    constructor
    · rintro ⟨j, h1, h2⟩
      have := hj b j h2
      rw [Nat.mod_eq_of_lt h1] at this
      rw [h2, this]
    · intro h
      exact ⟨_, Nat.mod_lt _ hγ0, h⟩
  simp only [hchar]
  refine Finset.card_nbij' (fun b => b * b0⁻¹) (fun b => b * b0) ?_ ?_ ?_ ?_
  · intro b hb
    simp only [Finset.mem_coe, mem_fil, Finset.mem_univ, true_and] at hb ⊢
    rw [mul_pow, inv_pow, mul_inv_eq_one]
    exact mul_right_cancel (hb.trans hb0.symm)
  · intro b hb
    simp only [Finset.mem_coe, mem_fil, Finset.mem_univ, true_and] at hb ⊢
    rw [mul_pow, hb, one_mul, hb0]
  · intro b _; simp
  · intro b _; simp

end
end Hycu
