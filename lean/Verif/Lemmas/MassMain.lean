import Mathlib.Algebra.CharP.CharAndCard
import Verif.Lemmas.MassSum

/-!
The sum of multiplicities times an invariant function over all enumerated polynomials of one degree.
-/

namespace Hycu

open Polynomial Finset CurveIterator
open scoped Classical

set_option linter.unusedSectionVars false

variable {F : Type} [Field F] [Fintype F] {g : F}

/-- The element `a` has an index that satisfies `A`. -/
def IdxRel (g : F) (A : Nat → Prop) (a : F) : Prop :=
  ∃ x, x < Fintype.card F ∧ eltOf g (Fintype.card F) x = a ∧ A x

theorem idxRel_zero (_hg : Primitive g) (a : F) : IdxRel g (fun x => x = Fintype.card F - 1) a ↔ a = 0 := by
  have := two_le_card (F := F)
  constructor
  · rintro ⟨x, _, rfl, rfl⟩; exact eltOf_zero_index g _
  · rintro rfl; exact ⟨_, by omega, eltOf_zero_index g _, rfl⟩

theorem idxRel_one (hq : 3 ≤ Fintype.card F) (a : F) : IdxRel g (fun x => x = 0) a ↔ a = 1 := by
  constructor
  · rintro ⟨x, _, rfl, rfl⟩; rw [eltOf_of_ne (by omega), pow_zero]
  · rintro rfl; exact ⟨0, by omega, by rw [eltOf_of_ne (by omega), pow_zero], rfl⟩

theorem idxRel_pow {γ : Nat} (hγ : γ ≤ Fintype.card F - 1) (a : F) :
    IdxRel g (fun x => x < γ) a ↔ ∃ j, j < γ ∧ a = g ^ j := by
  have := two_le_card (F := F)
  constructor
  · rintro ⟨x, _, rfl, h⟩; exact ⟨x, h, eltOf_of_ne (by omega)⟩
  · rintro ⟨j, h, rfl⟩; exact ⟨j, by omega, eltOf_of_ne (by omega), h⟩

theorem idxRel_nz (hg : Primitive g) (a : F) : IdxRel g (fun x => x < Fintype.card F - 1) a ↔ a ≠ 0 := by
  have := two_le_card (F := F)
  constructor
  · rintro ⟨x, _, rfl, h⟩
    rw [Ne, hg.eltOf_eq_zero]
    omega
  · intro h
    obtain ⟨x, h1, rfl⟩ := hg.eltOf_surj a
    rw [Ne, hg.eltOf_eq_zero] at h
    exact ⟨x, h1, rfl, by omega⟩

theorem idxRel_or (hg : Primitive g) {γ : Nat} (hγ : γ ≤ Fintype.card F - 1) (a : F) :
    IdxRel g (fun x => x < γ ∨ x = Fintype.card F - 1) a ↔ a = 0 ∨ ∃ j, j < γ ∧ a = g ^ j := by
  rw [← idxRel_zero hg, ← idxRel_pow hγ]
  constructor
  · rintro ⟨x, h1, h2, h | h⟩
    · exact Or.inr ⟨x, h1, h2, h⟩
    · exact Or.inl ⟨x, h1, h2, h⟩
  · rintro (⟨x, h1, h2, h⟩ | ⟨x, h1, h2, h⟩)
    · exact ⟨x, h1, h2, Or.inr h⟩
    · exact ⟨x, h1, h2, Or.inl h⟩

theorem idxRel_all (hg : Primitive g) (a : F) : IdxRel g (fun x => x < Fintype.card F) a := by
  obtain ⟨x, h1, h2⟩ := hg.eltOf_surj a
  exact ⟨x, h1, h2, h1⟩

/-- All coefficients have indices allowed by `A`. -/
def CoeffRel (g : F) (d : Nat) (A : Nat → Nat → Prop) (f : F[X]) : Prop :=
  ∀ i, i < d + 1 → IdxRel g (A i) (f.coeff i)

section
variable (hg : Primitive g) (hq : 3 ≤ Fintype.card F) {d : Nat} (hd : 3 ≤ d)
include hg hq hd

theorem coeffRel_square {f : F[X]} : CoeffRel g d (squareA (Fintype.card F) d) f ↔
    f.coeff d = 1 ∧ f.coeff (d - 1) = 0 ∧
      (f.coeff (d - 2) = 0 ∨ ∃ j, j < Nat.gcd 2 (Fintype.card F - 1) ∧ f.coeff (d - 2) = g ^ j) := by
  have hγ : Nat.gcd 2 (Fintype.card F - 1) ≤ Fintype.card F - 1 := Nat.gcd_le_right _ (by omega)
  have e1 : squareA (Fintype.card F) d d = fun x => x = 0 := by
    funext x; rw [squareA, if_pos rfl]
  have e2 : squareA (Fintype.card F) d (d - 1) = fun x => x = Fintype.card F - 1 := by
    funext x; rw [squareA, if_neg (by omega), if_pos rfl]
  have e3 : squareA (Fintype.card F) d (d - 2) =
      fun x => x < Nat.gcd 2 (Fintype.card F - 1) ∨ x = Fintype.card F - 1 := by
    funext x; rw [squareA, if_neg (by omega), if_neg (by omega), if_pos rfl]
  have e4 : ∀ i, i < d - 2 → squareA (Fintype.card F) d i = fun x => x < Fintype.card F := by
    intro i hi
    funext x; rw [squareA, if_neg (by omega), if_neg (by omega), if_neg (by omega)]
  constructor
  · intro h
    have h1 := h d (by omega)
    have h2 := h (d - 1) (by omega)
    have h3 := h (d - 2) (by omega)
    rw [e1, idxRel_one hq] at h1
    rw [e2, idxRel_zero hg] at h2
    rw [e3, idxRel_or hg hγ] at h3
    exact ⟨h1, h2, h3⟩
  · rintro ⟨h1, h2, h3⟩ i hi
    by_cases i1 : i = d
    · rw [i1, e1, idxRel_one hq]; exact h1
    · by_cases i2 : i = d - 1
      · rw [i2, e2, idxRel_zero hg]; exact h2
      · by_cases i3 : i = d - 2
        · rw [i3, e3, idxRel_or hg hγ]; exact h3
        · rw [e4 i (by omega)]; exact idxRel_all hg _

theorem coeffRel_div {f : F[X]} : CoeffRel g d (divA (Fintype.card F) d) f ↔
    f.coeff d = 1 ∧ f.coeff (d - 1) ≠ 0 ∧ f.coeff (d - 2) = 0 ∧
      (f.coeff (d - 3) = 0 ∨ ∃ j, j < Nat.gcd 3 (Fintype.card F - 1) ∧ f.coeff (d - 3) = g ^ j) := by
  have hγ : Nat.gcd 3 (Fintype.card F - 1) ≤ Fintype.card F - 1 := Nat.gcd_le_right _ (by omega)
  have e1 : divA (Fintype.card F) d d = fun x => x = 0 := by
    funext x; rw [divA, if_pos rfl]
  have e2 : divA (Fintype.card F) d (d - 1) = fun x => x < Fintype.card F - 1 := by
    funext x; rw [divA, if_neg (by omega), if_pos rfl]
  have e3 : divA (Fintype.card F) d (d - 2) = fun x => x = Fintype.card F - 1 := by
    funext x; rw [divA, if_neg (by omega), if_neg (by omega), if_pos rfl]
  have e4 : divA (Fintype.card F) d (d - 3) =
      fun x => x < Nat.gcd 3 (Fintype.card F - 1) ∨ x = Fintype.card F - 1 := by
    funext x; rw [divA, if_neg (by omega), if_neg (by omega), if_neg (by omega), if_pos rfl]
  have e5 : ∀ i, i < d - 3 → divA (Fintype.card F) d i = fun x => x < Fintype.card F := by
    intro i hi
    funext x; rw [divA, if_neg (by omega), if_neg (by omega), if_neg (by omega), if_neg (by omega)]
  constructor
  · intro h
    have h1 := h d (by omega)
    have h2 := h (d - 1) (by omega)
    have h3 := h (d - 2) (by omega)
    have h4 := h (d - 3) (by omega)
    rw [e1, idxRel_one hq] at h1
    rw [e2, idxRel_nz hg] at h2
    rw [e3, idxRel_zero hg] at h3
    rw [e4, idxRel_or hg hγ] at h4
    exact ⟨h1, h2, h3, h4⟩
  · rintro ⟨h1, h2, h3, h4⟩ i hi
    by_cases i1 : i = d
    · rw [i1, e1, idxRel_one hq]; exact h1
    · by_cases i2 : i = d - 1
      · rw [i2, e2, idxRel_nz hg]; exact h2
      · by_cases i3 : i = d - 2
        · rw [i3, e3, idxRel_zero hg]; exact h3
        · by_cases i4 : i = d - 3
          · rw [i4, e4, idxRel_or hg hγ]; exact h4
          · rw [e5 i (by omega)]; exact idxRel_all hg _

theorem coeffRel_mono {f : F[X]} : CoeffRel g d (fun i x => i < d + 1 → monoA (Fintype.card F) d i x) f ↔
    f.coeff d = 1 ∧ ∀ i, i < d → f.coeff i = 0 := by
  have e1 : (fun x => d < d + 1 → monoA (Fintype.card F) d d x) = fun x => x = 0 := by
    funext x; rw [monoA, if_pos rfl]; simp
  have e2 : ∀ i, i < d → (fun x => i < d + 1 → monoA (Fintype.card F) d i x) = fun x => x = Fintype.card F - 1 := by
    intro i hi
    funext x; rw [monoA, if_neg (by omega)]; simp; omega
  constructor
  · intro h
    have h1 := h d (by omega)
    simp only at h1
    rw [e1, idxRel_one hq] at h1
    refine ⟨h1, fun i hi => ?_⟩
    have h2 := h i (by omega)
    simp only at h2
    rw [e2 i hi, idxRel_zero hg] at h2
    exact h2
  · rintro ⟨h1, h2⟩ i hi
    by_cases i1 : i = d
    · subst i1
      show IdxRel g (fun x => i < i + 1 → monoA (Fintype.card F) i i x) _
      rw [e1, idxRel_one hq]; exact h1
    · show IdxRel g (fun x => i < d + 1 → monoA (Fintype.card F) d i x) _
      rw [e2 i (by omega), idxRel_zero hg]; exact h2 i (by omega)

theorem coeffRel_large {m l1 : Nat} (hm : m + 1 < d) (hl : l1 ≤ m) {f : F[X]} :
    CoeffRel g d (largeA (Fintype.card F) d m l1) f ↔
    f.coeff d ≠ 0 ∧ (∀ i, m < i → i < d → f.coeff i = 0) ∧ f.coeff m = 1 ∧
      (∀ i, l1 ≤ i → i < m → f.coeff i = 0) ∧
      ∀ i, i + 1 = l1 → ∃ j, j < Nat.gcd (m - i) (Fintype.card F - 1) ∧ f.coeff i = g ^ j := by
  have hγ : ∀ i, Nat.gcd (m - i) (Fintype.card F - 1) ≤ Fintype.card F - 1 :=
    fun i => Nat.gcd_le_right _ (by omega)
  have e1 : largeA (Fintype.card F) d m l1 d = fun x => x < Fintype.card F - 1 := by
    funext x; rw [largeA, if_pos rfl]
  have e2 : ∀ i, m < i → i < d → largeA (Fintype.card F) d m l1 i = fun x => x = Fintype.card F - 1 := by
    intro i h1 h2
    funext x; rw [largeA, if_neg (by omega), if_pos h1]
  have e3 : largeA (Fintype.card F) d m l1 m = fun x => x = 0 := by
    funext x; rw [largeA, if_neg (by omega), if_neg (by omega), if_pos rfl]
  have e4 : ∀ i, l1 ≤ i → i < m → largeA (Fintype.card F) d m l1 i = fun x => x = Fintype.card F - 1 := by
    intro i h1 h2
    funext x; rw [largeA, if_neg (by omega), if_neg (by omega), if_neg (by omega), if_pos h1]
  have e5 : ∀ i, i + 1 = l1 → largeA (Fintype.card F) d m l1 i =
      fun x => x < Nat.gcd (m - i) (Fintype.card F - 1) := by
    intro i h1
    funext x; rw [largeA, if_neg (by omega), if_neg (by omega), if_neg (by omega), if_neg (by omega), if_pos h1]
  have e6 : ∀ i, i + 1 < l1 → largeA (Fintype.card F) d m l1 i = fun x => x < Fintype.card F := by
    intro i h1
    funext x; rw [largeA, if_neg (by omega), if_neg (by omega), if_neg (by omega), if_neg (by omega),
      if_neg (by omega)]
  constructor
  · intro h
    have h1 := h d (by omega)
    have h3 := h m (by omega)
    rw [e1, idxRel_nz hg] at h1
    rw [e3, idxRel_one hq] at h3
    refine ⟨h1, ?_, h3, ?_, ?_⟩
    · intro i i1 i2
      have := h i (by omega)
      rw [e2 i i1 i2, idxRel_zero hg] at this
      exact this
    · intro i i1 i2
      have := h i (by omega)
      rw [e4 i i1 i2, idxRel_zero hg] at this
      exact this
    · intro i i1
      have := h i (by omega)
      rw [e5 i i1, idxRel_pow (hγ i)] at this
      exact this
  · rintro ⟨h1, h2, h3, h4, h5⟩ i hi
    by_cases i1 : i = d
    · rw [i1, e1, idxRel_nz hg]; exact h1
    · by_cases i2 : m < i
      · rw [e2 i i2 (by omega), idxRel_zero hg]; exact h2 i i2 (by omega)
      · by_cases i3 : i = m
        · rw [i3, e3, idxRel_one hq]; exact h3
        · by_cases i4 : l1 ≤ i
          · rw [e4 i i4 (by omega), idxRel_zero hg]; exact h4 i i4 (by omega)
          · by_cases i5 : i + 1 = l1
            · rw [e5 i i5, idxRel_pow (hγ i)]; exact h5 i i5
            · rw [e6 i (by omega)]; exact idxRel_all hg _

end

/-- The enumerated polynomials of degree `d`. -/
noncomputable def enumPolys (g : F) (p d : Nat) : Finset F[X] :=
  fil (polysOfDegree F d) fun f => ∃ A, Kind (Fintype.card F) p d A ∧ CoeffRel g d A f

/-- The multiplicity of a polynomial. -/
noncomputable def polyMult (p d : Nat) (f : F[X]) : Res Nat :=
  CurveIterator.multiplicity p (Fintype.card F) (suppOf (fun i => decide (f.coeff i ≠ 0)) (d + 1))

/-- The value, for a multiplicity that exists. -/
def Res.val : Res Nat → Nat
  | .ok n => n
  | _ => 0

theorem res_val_of {x : Res Nat} {Q : Nat → Prop} (h : ∃ M, x = .ok M ∧ 0 < M ∧ Q M) :
    x = .ok x.val ∧ 0 < x.val ∧ Q x.val := by
  obtain ⟨M, rfl, h1, h2⟩ := h
  exact ⟨rfl, h1, h2⟩

variable {Ψ : F[X] → Nat}

/-- Sum over normal forms with leading coefficient one, with weights `w`. -/
theorem sum_square_weights (h : FullInvariant Ψ) (hg : Primitive g) {S : Finset F[X]} (hS : ZeroPattern S)
    {m l k K : Nat} (hlm : l < m) (hk : m - l = k) (hm : ∀ f ∈ S, f.coeff m ≠ 0) (w : F[X] → Nat)
    (h1 : ∀ f ∈ S, f.coeff m = 1 → f.coeff l ≠ 0 →
      Nat.gcd k (Fintype.card F - 1) * w f = K * ((Fintype.card F - 1) * (Fintype.card F - 1)))
    (h0 : ∀ f ∈ S, f.coeff m = 1 → f.coeff l = 0 → w f = K * (Fintype.card F - 1)) :
    ∑ f ∈ fil S (fun f => f.coeff m = 1 ∧
        (f.coeff l = 0 ∨ ∃ j, j < Nat.gcd k (Fintype.card F - 1) ∧ f.coeff l = g ^ j)), w f * Ψ f =
      K * ∑ f ∈ S, Ψ f := by
  have hγ : 0 < Nat.gcd k (Fintype.card F - 1) := Nat.gcd_pos_of_pos_left _ (by omega)
  have hs := sum_square h hg hS hlm hm
  rw [hk] at hs
  apply Nat.eq_of_mul_eq_mul_left hγ
  rw [sum_fil_add_not _ (fun f => f.coeff l = 0), fil_fil, fil_fil, mul_left_comm, ← hs]
  have e1 : fil S (fun f => (f.coeff m = 1 ∧ (f.coeff l = 0 ∨
      ∃ j, j < Nat.gcd k (Fintype.card F - 1) ∧ f.coeff l = g ^ j)) ∧ f.coeff l = 0) =
      fil S fun f => f.coeff m = 1 ∧ f.coeff l = 0 := fil_congr (fun f _ => by tauto)
  have e2 : fil S (fun f => (f.coeff m = 1 ∧ (f.coeff l = 0 ∨
      ∃ j, j < Nat.gcd k (Fintype.card F - 1) ∧ f.coeff l = g ^ j)) ∧ ¬ f.coeff l = 0) =
      fil S fun f => (f.coeff m = 1 ∧ f.coeff l ≠ 0) ∧
        ∃ j, j < Nat.gcd k (Fintype.card F - 1) ∧ f.coeff l = g ^ j := fil_congr (fun f _ => by tauto)
  have e3 : ∑ f ∈ fil S (fun f => f.coeff m = 1 ∧ f.coeff l = 0), w f * Ψ f =
      K * (Fintype.card F - 1) * ∑ f ∈ fil S (fun f => f.coeff m = 1 ∧ f.coeff l = 0), Ψ f := by
    rw [Finset.mul_sum]
    apply Finset.sum_congr rfl
    intro f hf
    obtain ⟨f1, f2, f3⟩ := mem_fil.1 hf
    rw [h0 f f1 f2 f3]
  have e4 : Nat.gcd k (Fintype.card F - 1) * ∑ f ∈ fil S (fun f => (f.coeff m = 1 ∧ f.coeff l ≠ 0) ∧
        ∃ j, j < Nat.gcd k (Fintype.card F - 1) ∧ f.coeff l = g ^ j), w f * Ψ f =
      K * ((Fintype.card F - 1) * (Fintype.card F - 1)) * ∑ f ∈ fil S (fun f => (f.coeff m = 1 ∧ f.coeff l ≠ 0) ∧
        ∃ j, j < Nat.gcd k (Fintype.card F - 1) ∧ f.coeff l = g ^ j), Ψ f := by
    rw [Finset.mul_sum, Finset.mul_sum]
    apply Finset.sum_congr rfl
    intro f hf
    obtain ⟨f1, ⟨f2, f3⟩, _⟩ := mem_fil.1 hf
    rw [← mul_assoc, h1 f f1 f2 f3]
  rw [e1, e2, e3, mul_add, e4]
  ring

variable {p : Nat} (hp : p.Prime) {r : Nat} (hcard : Fintype.card F = p ^ r)

section
variable (hg : Primitive g) (hq : 3 ≤ Fintype.card F) (ho : Fintype.card F % 2 = 1) {d : Nat} (hd : 3 ≤ d)
include hg hq ho hd

theorem polyMult_square {f : F[X]} (hpd : p ≤ d) (hp0 : p ≠ 0) (h1 : f.coeff d = 1) (h2 : f.coeff (d - 1) = 0) :
    polyMult p d f = .ok (polyMult p d f).val ∧ 0 < (polyMult p d f).val ∧
    (f.coeff (d - 2) ≠ 0 → Nat.gcd 2 (Fintype.card F - 1) * (2 * (polyMult p d f).val) =
      (if d % p = 0 then 1 else Fintype.card F) * ((Fintype.card F - 1) * (Fintype.card F - 1))) ∧
    (f.coeff (d - 2) = 0 → 2 * (polyMult p d f).val =
      (if d % p = 0 then 1 else Fintype.card F) * (Fintype.card F - 1)) := by
  have hγ : Nat.gcd 2 (Fintype.card F - 1) = 2 := Nat.gcd_eq_left (two_dvd_of ho)
  rw [hγ]
  have hP : (fun i => decide (f.coeff i ≠ 0)) d = true := by simp [h1]
  by_cases h3 : f.coeff (d - 2) = 0
  · have := res_val_of (mult_rest (p := p) (P := fun i => decide (f.coeff i ≠ 0)) hq ho hP hpd hp0 hd
      (by simp [h2]) (by simp [h3]))
    exact ⟨this.1, this.2.1, fun h => absurd h3 h, fun _ => this.2.2⟩
  · have := res_val_of (mult_square (p := p) (P := fun i => decide (f.coeff i ≠ 0)) hq ho hP hpd hp0 hd
      (by simp [h2]) (by simp [h3]))
    exact ⟨this.1, this.2.1, fun _ => this.2.2, fun h => absurd h h3⟩

theorem polyMult_div {f : F[X]} (hpd : p ≤ d) (hp0 : p ≠ 0) (hdiv : d % p = 0) (h1 : f.coeff d = 1)
    (h2 : f.coeff (d - 1) ≠ 0) (h3 : f.coeff (d - 2) = 0) :
    polyMult p d f = .ok (polyMult p d f).val ∧ 0 < (polyMult p d f).val ∧
    (f.coeff (d - 3) ≠ 0 → Nat.gcd 3 (Fintype.card F - 1) * (2 * (polyMult p d f).val) =
      Fintype.card F * ((Fintype.card F - 1) * (Fintype.card F - 1))) ∧
    (f.coeff (d - 3) = 0 → 2 * (polyMult p d f).val = Fintype.card F * (Fintype.card F - 1)) := by
  have hP : (fun i => decide (f.coeff i ≠ 0)) d = true := by simp [h1]
  by_cases h4 : f.coeff (d - 3) = 0
  · have := res_val_of (mult_div_two (p := p) (P := fun i => decide (f.coeff i ≠ 0)) hq ho hP hpd hp0 hdiv hd
      (by simp [h2]) (by simp [h4]))
    exact ⟨this.1, this.2.1, fun h => absurd h4 h, fun _ => this.2.2⟩
  · have := res_val_of (mult_div_three (p := p) (P := fun i => decide (f.coeff i ≠ 0)) hq ho hP hpd hp0 hdiv hd
      (by simp [h2]) (by simp [h3]) (by simp [h4]))
    exact ⟨this.1, this.2.1, fun _ => this.2.2.trans (mul_assoc _ _ _), fun h => absurd h h4⟩

theorem polyMult_three {f : F[X]} {m l : Nat} (hpd : d < p) (h0 : f.coeff d ≠ 0) (hm : m < d) (h1 : f.coeff m ≠ 0)
    (h2 : ∀ i, m < i → i < d → f.coeff i = 0) (hl : l < m) (h3 : f.coeff l ≠ 0)
    (h4 : ∀ i, l < i → i < m → f.coeff i = 0) :
    polyMult p d f = .ok (polyMult p d f).val ∧ 0 < (polyMult p d f).val ∧
      Nat.gcd (m - l) (Fintype.card F - 1) * (2 * (polyMult p d f).val) =
        Fintype.card F * (Fintype.card F - 1) * (Fintype.card F - 1) :=
  res_val_of (mult_three (p := p) (P := fun i => decide (f.coeff i ≠ 0)) hq ho (by simp [h0]) hpd hm (by simp [h1])
    (fun i a b => by simp [h2 i a b]) hl (by simp [h3]) (fun i a b => by simp [h4 i a b]))

theorem polyMult_two {f : F[X]} (hpd : d < p) (h0 : f.coeff d ≠ 0)
    (h : ∀ i j, i < d → j < i → f.coeff i ≠ 0 → f.coeff j = 0) :
    polyMult p d f = .ok (polyMult p d f).val ∧ 0 < (polyMult p d f).val ∧
      2 * (polyMult p d f).val = Fintype.card F * (Fintype.card F - 1) :=
  res_val_of (mult_two (p := p) (P := fun i => decide (f.coeff i ≠ 0)) hq ho (by simp [h0]) hpd
    (fun i j hi hj hi0 => by simp [h i j hi hj (by simpa using hi0)]))

/-- On enumerated polynomials the multiplicity is defined and positive. -/
theorem polyMult_ok (hp0 : p ≠ 0) {f : F[X]} (hf : f ∈ enumPolys g p d) :
    polyMult p d f = .ok (polyMult p d f).val ∧ 0 < (polyMult p d f).val := by
  obtain ⟨hf, A, hA, hr⟩ := mem_fil.1 hf
  have htop := (mem_polys'.1 hf).1
  cases hA with
  | large hpd hm hl =>
    rename_i m l1
    obtain ⟨_, h2, h3, h4, h5⟩ := (coeffRel_large hg hq hd hm hl).1 hr
    by_cases hl0 : l1 = 0
    · have := polyMult_two hg hq ho hd hpd htop (by
        intro i j hi hj hi0
        by_cases him : i ≤ m
        · exact h4 j (by omega) (by omega)
        · exact absurd (h2 i (by omega) hi) hi0)
      exact ⟨this.1, this.2.1⟩
    · obtain ⟨j, _, hj⟩ := h5 (l1 - 1) (by omega)
      have := polyMult_three hg hq ho hd hpd htop (m := m) (l := l1 - 1) (by omega) (by rw [h3]; exact one_ne_zero) h2
        (by omega) (by rw [hj]; exact pow_ne_zero _ hg.1) (fun i a b => h4 i (by omega) b)
      exact ⟨this.1, this.2.1⟩
  | mono hpd =>
    obtain ⟨_, h2⟩ := (coeffRel_mono hg hq hd).1 hr
    have := polyMult_two hg hq ho hd hpd htop (fun i j hi hj _ => h2 j (by omega))
    exact ⟨this.1, this.2.1⟩
  | div hpd hdiv =>
    obtain ⟨h1, h2, h3, _⟩ := (coeffRel_div hg hq hd).1 hr
    have := polyMult_div hg hq ho hd hpd hp0 hdiv h1 h2 h3
    exact ⟨this.1, this.2.1⟩
  | square hpd =>
    obtain ⟨h1, h2, _⟩ := (coeffRel_square hg hq hd).1 hr
    have := polyMult_square hg hq ho hd hpd hp0 h1 h2
    exact ⟨this.1, this.2.1⟩

/-- Sum over the polynomials with next to leading coefficient zero. -/
theorem sum_square_case (h : FullInvariant Ψ) (hp0 : p ≠ 0) (hpd : p ≤ d) :
    ∑ f ∈ fil (polysOfDegree F d) (fun f => f.coeff d = 1 ∧ f.coeff (d - 1) = 0 ∧
      (f.coeff (d - 2) = 0 ∨ ∃ j, j < Nat.gcd 2 (Fintype.card F - 1) ∧ f.coeff (d - 2) = g ^ j)),
      2 * (polyMult p d f).val * Ψ f =
    (if d % p = 0 then 1 else Fintype.card F) * ∑ f ∈ fil (polysOfDegree F d) (fun f => f.coeff (d - 1) = 0), Ψ f := by
  have := sum_square_weights h hg (S := fil (polysOfDegree F d) (fun f => f.coeff (d - 1) = 0))
    ((zeroPattern_polys d).filter (fun f _ hf b c hb hc => by rw [scale_zero_iff hc hb]; exact hf))
    (m := d) (l := d - 2) (k := 2) (K := if d % p = 0 then 1 else Fintype.card F) (by omega) (by omega)
    (fun f hf => (mem_polys'.1 (mem_fil.1 hf).1).1) (fun f => 2 * (polyMult p d f).val)
    (fun f hf h1 h3 => (polyMult_square hg hq ho hd hpd hp0 h1 (mem_fil.1 hf).2).2.2.1 h3)
    (fun f hf h1 h3 => (polyMult_square hg hq ho hd hpd hp0 h1 (mem_fil.1 hf).2).2.2.2 h3)
  rw [← this, fil_fil]
  exact Finset.sum_congr (fil_congr fun f _ => by tauto) (fun _ _ => rfl)

/-- Sum over the polynomials with next to leading coefficient not zero, degree divisible by the characteristic. -/
theorem sum_div_case (h : FullInvariant Ψ) (hp0 : p ≠ 0) (hpd : p ≤ d) (hdiv : d % p = 0) (hdF : (d : F) = 0)
    (h2F : (2 : F) ≠ 0) :
    ∑ f ∈ fil (polysOfDegree F d) (fun f => f.coeff d = 1 ∧ f.coeff (d - 1) ≠ 0 ∧ f.coeff (d - 2) = 0 ∧
      (f.coeff (d - 3) = 0 ∨ ∃ j, j < Nat.gcd 3 (Fintype.card F - 1) ∧ f.coeff (d - 3) = g ^ j)),
      2 * (polyMult p d f).val * Ψ f =
    ∑ f ∈ fil (polysOfDegree F d) (fun f => f.coeff (d - 1) ≠ 0), Ψ f := by
  have := sum_square_weights h hg
    (S := fil (fil (polysOfDegree F d) fun f => f.coeff (d - 1) ≠ 0) (fun f => f.coeff (d - 2) = 0))
    (((zeroPattern_polys d).filter (fun f _ hf b c hb hc => by
      simp only [ne_eq, scale_zero_iff hc hb]; exact hf)).filter
        (fun f _ hf b c hb hc => by rw [scale_zero_iff hc hb]; exact hf))
    (m := d) (l := d - 3) (k := 3) (K := Fintype.card F) (by omega) (by omega)
    (fun f hf => (mem_polys'.1 (mem_fil.1 (mem_fil.1 hf).1).1).1) (fun f => 2 * (polyMult p d f).val)
    (fun f hf h1 h3 => (polyMult_div hg hq ho hd hpd hp0 hdiv h1 (mem_fil.1 (mem_fil.1 hf).1).2
      (mem_fil.1 hf).2).2.2.1 h3)
    (fun f hf h1 h3 => (polyMult_div hg hq ho hd hpd hp0 hdiv h1 (mem_fil.1 (mem_fil.1 hf).1).2
      (mem_fil.1 hf).2).2.2.2 h3)
  rw [sum_translate2 h (by omega) hdF h2F] at this
  rw [← this, fil_fil, fil_fil]
  exact Finset.sum_congr (fil_congr fun f _ => by tauto) (fun _ _ => rfl)

/-- Which polynomials are enumerated if `d < p`, by the pattern of the first coefficients. -/
theorem enum_large_three {f : F[X]} (hpd : d < p) (hf : f ∈ polysOfDegree F d) {m l : Nat} (hm : m < d - 1)
    (hl : l < m) :
    ((∃ A, Kind (Fintype.card F) p d A ∧ CoeffRel g d A f) ∧
      ((∀ i, m < i → i < d - 1 → f.coeff i = 0) ∧ ¬ f.coeff m = 0) ∧
      ((∀ i, l < i → i < m → f.coeff i = 0) ∧ ¬ f.coeff l = 0)) ↔
    ((f.coeff (d - 1) = 0 ∧ (∀ i, m < i → i < d - 1 → f.coeff i = 0) ∧ ¬ f.coeff m = 0) ∧
            (∀ i, l < i → i < m → f.coeff i = 0) ∧ ¬ f.coeff l = 0) ∧
          (f.coeff m = 1 ∧ ∃ j, j < Nat.gcd (m - l) (Fintype.card F - 1) ∧ f.coeff l = g ^ j) := by
  constructor
  · rintro ⟨⟨A, hA, hr⟩, ⟨z1, z2⟩, z3, z4⟩
    cases hA with
    | large _ hm' hl' =>
      rename_i m' l1 _
      obtain ⟨_, h2, h3, h4, h5⟩ := (coeffRel_large hg hq hd hm' hl').1 hr
      have hmm : m' = m := by
        rcases Nat.lt_trichotomy m' m with h | h | h
        · exact absurd (h2 m h (by omega)) z2
        · exact h
        · exact absurd (z1 m' h (by omega)) (by rw [h3]; exact one_ne_zero)
      subst hmm
      have hll : l1 = l + 1 := by
        rcases Nat.lt_trichotomy l1 (l + 1) with h | h | h
        · exact absurd (h4 l (by omega) hl) z4
        · exact h
        · obtain ⟨j, _, hj⟩ := h5 (l1 - 1) (by omega)
          exact absurd (z3 (l1 - 1) (by omega) (by omega)) (by rw [hj]; exact pow_ne_zero _ hg.1)
      exact ⟨⟨⟨h2 (d - 1) (by omega) (by omega), z1, z2⟩, z3, z4⟩, h3, h5 l hll.symm⟩
    | mono _ =>
      exact absurd (((coeffRel_mono hg hq hd).1 hr).2 m (by omega)) z2
    | div h => omega
    | square h => omega
  · rintro ⟨⟨⟨y1, z1, z2⟩, z3, z4⟩, y2, y3⟩
    refine ⟨⟨_, .large hpd (m := m) (l1 := l + 1) (by omega) (by omega), ?_⟩, ⟨z1, z2⟩, z3, z4⟩
    refine (coeffRel_large hg hq hd (by omega) (by omega)).2 ⟨(mem_polys'.1 hf).1, ?_, y2, ?_, ?_⟩
    · intro i h1 h2
      by_cases hi : i = d - 1
      · rw [hi]; exact y1
      · exact z1 i h1 (by omega)
    · intro i h1 h2; exact z3 i (by omega) h2
    · intro i hi
      obtain rfl : i = l := by omega
      exact y3

@[inherit_doc enum_large_three]
theorem enum_large_two {f : F[X]} (hpd : d < p) (hf : f ∈ polysOfDegree F d) {m : Nat} (hm : m < d - 1) :
    ((∃ A, Kind (Fintype.card F) p d A ∧ CoeffRel g d A f) ∧
      ((∀ i, m < i → i < d - 1 → f.coeff i = 0) ∧ ¬ f.coeff m = 0) ∧ (∀ i, i < m → f.coeff i = 0)) ↔
    ((f.coeff (d - 1) = 0 ∧ (∀ i, m < i → i < d - 1 → f.coeff i = 0) ∧ ¬ f.coeff m = 0) ∧
            ∀ i, i < m → f.coeff i = 0) ∧ f.coeff m = 1 := by
  constructor
  · rintro ⟨⟨A, hA, hr⟩, ⟨z1, z2⟩, z3⟩
    cases hA with
    | large _ hm' hl' =>
      rename_i m' l1 _
      obtain ⟨_, h2, h3, h4, h5⟩ := (coeffRel_large hg hq hd hm' hl').1 hr
      have hmm : m' = m := by
        rcases Nat.lt_trichotomy m' m with h | h | h
        · exact absurd (h2 m h (by omega)) z2
        · exact h
        · exact absurd (z1 m' h (by omega)) (by rw [h3]; exact one_ne_zero)
      subst hmm
      exact ⟨⟨⟨h2 (d - 1) (by omega) (by omega), z1, z2⟩, z3⟩, h3⟩
    | mono _ =>
      exact absurd (((coeffRel_mono hg hq hd).1 hr).2 m (by omega)) z2
    | div h => omega
    | square h => omega
  · rintro ⟨⟨⟨y1, z1, z2⟩, z3⟩, y2⟩
    refine ⟨⟨_, .large hpd (m := m) (l1 := 0) (by omega) (by omega), ?_⟩, ⟨z1, z2⟩, z3⟩
    refine (coeffRel_large hg hq hd (by omega) (by omega)).2 ⟨(mem_polys'.1 hf).1, ?_, y2, ?_, ?_⟩
    · intro i h1 h2
      by_cases hi : i = d - 1
      · rw [hi]; exact y1
      · exact z1 i h1 (by omega)
    · intro i h1 h2; exact z3 i h2
    · intro i hi; omega

@[inherit_doc enum_large_three]
theorem enum_large_one {f : F[X]} (hpd : d < p) :
    ((∃ A, Kind (Fintype.card F) p d A ∧ CoeffRel g d A f) ∧ (∀ i, i < d - 1 → f.coeff i = 0)) ↔
    (f.coeff (d - 1) = 0 ∧ ∀ i, i < d - 1 → f.coeff i = 0) ∧ f.coeff d = 1 := by
  constructor
  · rintro ⟨⟨A, hA, hr⟩, z1⟩
    cases hA with
    | large _ hm' hl' =>
      rename_i m' l1 _
      obtain ⟨_, h2, h3, h4, h5⟩ := (coeffRel_large hg hq hd hm' hl').1 hr
      exact absurd (z1 m' (by omega)) (by rw [h3]; exact one_ne_zero)
    | mono _ =>
      obtain ⟨h1, h2⟩ := (coeffRel_mono hg hq hd).1 hr
      exact ⟨⟨h2 (d - 1) (by omega), z1⟩, h1⟩
    | div h => omega
    | square h => omega
  · rintro ⟨⟨y1, z1⟩, y2⟩
    refine ⟨⟨_, .mono hpd, ?_⟩, z1⟩
    refine (coeffRel_mono hg hq hd).2 ⟨y2, ?_⟩
    intro i hi
    by_cases h : i = d - 1
    · rw [h]; exact y1
    · exact z1 i (by omega)

theorem sum_large_case (h : FullInvariant Ψ) (hpd : d < p) (hdF : (d : F) ≠ 0) :
    ∑ f ∈ enumPolys g p d, 2 * (polyMult p d f).val * Ψ f = ∑ f ∈ polysOfDegree F d, Ψ f := by
  have hW : ∀ m l, l < m → m < d - 1 → Nat.gcd (m - l) (Fintype.card F - 1) *
      (Fintype.card F * (Fintype.card F - 1) * (Fintype.card F - 1) / Nat.gcd (m - l) (Fintype.card F - 1)) =
      Fintype.card F * (Fintype.card F - 1) * (Fintype.card F - 1) := fun m l _ _ =>
    Nat.mul_div_cancel' (Dvd.dvd.mul_left (Nat.gcd_dvd_right _ _) _)
  rw [← sum_large h hg (by omega) hdF (fun m l => Fintype.card F * (Fintype.card F - 1) * (Fintype.card F - 1) /
    Nat.gcd (m - l) (Fintype.card F - 1)) hW]
  rw [peel_sum (enumPolys g p d) (fun f => 2 * (polyMult p d f).val * Ψ f) (fun f i => f.coeff i = 0) (d - 1)]
  congr 1
  · apply Finset.sum_congr rfl
    intro m hm
    have hm := Finset.mem_range.1 hm
    rw [peel_sum (fil (enumPolys g p d) _) (fun f => 2 * (polyMult p d f).val * Ψ f) (fun f i => f.coeff i = 0) m]
    congr 1
    · apply Finset.sum_congr rfl
      intro l hl
      have hl := Finset.mem_range.1 hl
      rw [enumPolys, fil_fil, fil_fil, Finset.mul_sum]
      refine Finset.sum_congr ?_ ?_
      · refine fil_congr fun f hf => ?_
        exact enum_large_three hg hq ho hd hpd hf hm hl
      · intro f hf
        obtain ⟨hf, ⟨⟨y1, z1, z2⟩, z3, z4⟩, y2, y3⟩ := mem_fil.1 hf
        have := polyMult_three (p := p) hg hq ho hd hpd (mem_polys'.1 hf).1 (m := m) (l := l) (by omega) z2 (by
          intro i h1 h2
          by_cases hi : i = d - 1
          · rw [hi]; exact y1
          · exact z1 i h1 (by omega)) hl z4 z3
        have hγ : 0 < Nat.gcd (m - l) (Fintype.card F - 1) := Nat.gcd_pos_of_pos_left _ (by omega)
        rw [← this.2.2, Nat.mul_div_cancel_left _ hγ]
    · rw [enumPolys, fil_fil, fil_fil, Finset.mul_sum]
      refine Finset.sum_congr ?_ ?_
      · refine fil_congr fun f hf => ?_
        exact enum_large_two hg hq ho hd hpd hf hm
      · intro f hf
        obtain ⟨hf, ⟨⟨y1, z1, z2⟩, z3⟩, y2⟩ := mem_fil.1 hf
        have := polyMult_two (p := p) hg hq ho hd hpd (mem_polys'.1 hf).1 (by
          intro i j hi hj hi0
          by_cases him : m < i
          · exfalso
            apply hi0
            by_cases hid : i = d - 1
            · rw [hid]; exact y1
            · exact z1 i him (by omega)
          · exact z3 j (by omega))
        rw [this.2.2]
  · rw [enumPolys, fil_fil, Finset.mul_sum]
    refine Finset.sum_congr ?_ ?_
    · exact fil_congr fun f _ => enum_large_one hg hq ho hd hpd
    · intro f hf
      obtain ⟨hf, ⟨y1, z1⟩, y2⟩ := mem_fil.1 hf
      have := polyMult_two (p := p) hg hq ho hd hpd (mem_polys'.1 hf).1 (by
        intro i j hi hj hi0
        exact z1 j (by omega))
      rw [this.2.2]

include hp hcard in
/-- The sum over the enumerated polynomials of degree `d`. -/
theorem sum_enumPolys (h : FullInvariant Ψ) :
    ∑ f ∈ enumPolys g p d, 2 * (polyMult p d f).val * Ψ f = ∑ f ∈ polysOfDegree F d, Ψ f := by
  have : Fact p.Prime := ⟨hp⟩
  have : CharP F p := charP_of_card_eq_prime_pow hcard
  have hp0 := hp.ne_zero
  by_cases hpd : d < p
  · refine sum_large_case hg hq ho hd h hpd ?_
    rw [Ne, CharP.cast_eq_zero_iff F p]
    intro hdvd
    have := Nat.le_of_dvd (by omega) hdvd
    omega
  · have hpd' : p ≤ d := by omega
    have hsq := sum_square_case (p := p) hg hq ho hd h hp0 hpd'
    have h2F : (2 : F) ≠ 0 := by
      intro h2
      have h3 : ((2 : Nat) : F) = 0 := by exact_mod_cast h2
      rw [CharP.cast_eq_zero_iff F p, Nat.dvd_prime Nat.prime_two] at h3
      rcases h3 with h3 | h3
      · exact hp.one_lt.ne' h3
      · have hr : r ≠ 0 := by
          rintro rfl
          rw [pow_zero] at hcard
          omega
        rw [h3] at hcard
        have : 2 ∣ 2 ^ r := dvd_pow_self 2 hr
        omega
    by_cases hdiv : d % p = 0
    · have hdF : (d : F) = 0 := (CharP.cast_eq_zero_iff F p d).2 (Nat.dvd_of_mod_eq_zero hdiv)
      rw [if_pos hdiv, one_mul] at hsq
      have hdv := sum_div_case (p := p) hg hq ho hd h hp0 hpd' hdiv hdF h2F
      rw [sum_fil_add_not (polysOfDegree F d) (fun f => f.coeff (d - 1) = 0), ← hsq]
      change _ = _ + ∑ f ∈ fil (polysOfDegree F d) (fun f => f.coeff (d - 1) ≠ 0), Ψ f
      rw [← hdv, sum_fil_add_not (enumPolys g p d) (fun f => f.coeff (d - 1) = 0), enumPolys, fil_fil, fil_fil]
      congr 1
      · refine Finset.sum_congr (fil_congr fun f _ => ?_) (fun _ _ => rfl)
        constructor
        · rintro ⟨⟨A, hA, hr⟩, h1⟩
          cases hA with
          | large h => omega
          | mono h => omega
          | div _ _ => exact absurd h1 ((coeffRel_div hg hq hd).1 hr).2.1
          | square _ => exact (coeffRel_square hg hq hd).1 hr
        · intro h1
          exact ⟨⟨_, .square hpd', (coeffRel_square hg hq hd).2 h1⟩, h1.2.1⟩
      · refine Finset.sum_congr (fil_congr fun f _ => ?_) (fun _ _ => rfl)
        constructor
        · rintro ⟨⟨A, hA, hr⟩, h1⟩
          cases hA with
          | large h => omega
          | mono h => omega
          | div _ _ => exact (coeffRel_div hg hq hd).1 hr
          | square _ => exact absurd ((coeffRel_square hg hq hd).1 hr).2.1 h1
        · intro h1
          exact ⟨⟨_, .div hpd' hdiv, (coeffRel_div hg hq hd).2 h1⟩, h1.2.1⟩
    · have hdF : (d : F) ≠ 0 := by
        rw [Ne, CharP.cast_eq_zero_iff F p]
        intro hdvd
        exact hdiv (Nat.mod_eq_zero_of_dvd hdvd)
      rw [if_neg hdiv, sum_translate h (by omega) hdF] at hsq
      rw [← hsq, enumPolys]
      refine Finset.sum_congr (fil_congr fun f _ => ?_) (fun _ _ => rfl)
      constructor
      · rintro ⟨A, hA, hr⟩
        cases hA with
        | large h => omega
        | mono h => omega
        | div _ h => exact absurd h hdiv
        | square _ => exact (coeffRel_square hg hq hd).1 hr
      · intro h1
        exact ⟨_, .square hpd', (coeffRel_square hg hq hd).2 h1⟩

end
end Hycu
