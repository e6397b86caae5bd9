import Verif.Lemmas.Orbit

/-!
The sums over normal forms for each of the cases of `CurveIterator`.
-/

namespace Hycu

open Polynomial Finset
open scoped Classical

set_option linter.unusedSectionVars false

variable {F : Type} [Field F] [Fintype F]

/-- Invariance under translations and all multiples: `y^2 = f` and its twist are not distinguished. -/
structure FullInvariant (Ψ : F[X] → Nat) : Prop where
  trans : ∀ f b, Ψ (taylor b f) = Ψ f
  scale : ∀ f b c, b ≠ 0 → c ≠ 0 → Ψ (scale c b f) = Ψ f

variable {Ψ : F[X] → Nat}

theorem card_units_eq : (univ : Finset Fˣ).card = Fintype.card F - 1 := by
  rw [Finset.card_univ, Fintype.card_units]

/-- Normalisation of the next to leading coefficient. -/
theorem sum_translate (h : FullInvariant Ψ) {d : Nat} (hd : 1 ≤ d) (hdF : (d : F) ≠ 0) :
    Fintype.card F * ∑ f ∈ fil (polysOfDegree F d) (fun f => f.coeff (d - 1) = 0), Ψ f = ∑ f ∈ polysOfDegree F d, Ψ f := by
  have := orbit_sum (polysOfDegree F d) (univ : Finset F) (fun b f => taylor b f) Ψ
    (fun f => f.coeff (d - 1) = 0) 1 (fun b _ f hf => taylor_polys hf b)
    (fun b _ f _ g _ he => taylor_injective b he) (fun b _ f _ => h.trans f b) (by
      intro f hf
      simp only [taylor_coeff_pred hd hf]
      exact card_linear (mul_ne_zero hdF (mem_polys'.1 hf).1))
  rw [Finset.card_univ, one_mul] at this
  exact this

/-- Normalisation of the second to leading coefficient if the degree is zero in the field. -/
theorem sum_translate2 (h : FullInvariant Ψ) {d : Nat} (hd : 2 ≤ d) (hdF : (d : F) = 0)
    (h2 : (2 : F) ≠ 0) :
    Fintype.card F * ∑ f ∈ fil (fil (polysOfDegree F d) fun f => f.coeff (d - 1) ≠ 0) (fun f => f.coeff (d - 2) = 0), Ψ f =
      ∑ f ∈ fil (polysOfDegree F d) (fun f => f.coeff (d - 1) ≠ 0), Ψ f := by
  have hd1 : ((d - 1 : Nat) : F) ≠ 0 := by
    rw [Nat.cast_sub (by omega), hdF]
    simp
  have hch : (d.choose 2 : F) = 0 := by
    have h3 : d.choose 2 * 2 = d * (d - 1) := by
      rw [Nat.choose_two_right, Nat.div_mul_cancel (Nat.even_mul_pred_self d).two_dvd]
    have h4 := congrArg (Nat.cast : Nat → F) h3
    push_cast at h4
    rw [hdF, zero_mul] at h4
    exact (mul_eq_zero.1 h4).resolve_right h2
  have hc1 : ∀ f ∈ polysOfDegree F d, ∀ b, (taylor b f).coeff (d - 1) = f.coeff (d - 1) := by
    intro f hf b
    rw [taylor_coeff_pred (by omega) hf, hdF]
    simp
  have := orbit_sum (fil (polysOfDegree F d) fun f => f.coeff (d - 1) ≠ 0) (univ : Finset F)
    (fun b f => taylor b f) Ψ (fun f => f.coeff (d - 2) = 0) 1
    (by
      intro b _ f hf
      rw [mem_fil] at hf ⊢
      exact ⟨taylor_polys hf.1 b, by rw [hc1 f hf.1]; exact hf.2⟩)
    (fun b _ f _ g _ he => taylor_injective b he) (fun b _ f _ => h.trans f b) (by
      intro f hf
      rw [mem_fil] at hf
      simp only [taylor_coeff_pred2 hd hf.1, hch, zero_mul, add_zero]
      exact card_linear (mul_ne_zero hd1 hf.2))
  rw [Finset.card_univ, one_mul] at this
  exact this

/-- Normalisation of one coefficient to one by multiplication. -/
theorem sum_scalar (h : FullInvariant Ψ) (S : Finset F[X]) (m : Nat)
    (hS : ∀ c : F, c ≠ 0 → ∀ f ∈ S, scale c 1 f ∈ S) (hm : ∀ f ∈ S, f.coeff m ≠ 0) :
    (Fintype.card F - 1) * ∑ f ∈ fil S (fun f => f.coeff m = 1), Ψ f = ∑ f ∈ S, Ψ f := by
  have := orbit_sum S (univ : Finset Fˣ) (fun c f => scale (c : F) 1 f) Ψ (fun f => f.coeff m = 1) 1
    (fun c _ f hf => hS c c.ne_zero f hf)
    (fun c _ f _ g _ he => scale_injective c.ne_zero one_ne_zero he)
    (fun c _ f _ => h.scale f 1 c one_ne_zero c.ne_zero) (by
      intro f hf
      simp only [coeff_scale, one_pow, mul_one]
      exact card_scalar (hm f hf))
  rw [card_units_eq, one_mul] at this
  exact this

/-- Normalisation of one coefficient to a coset representative by substitution of a multiple of `x`. -/
theorem sum_coset (h : FullInvariant Ψ) {g : F} (hg : Primitive g) (S : Finset F[X]) {m l : Nat} (hlm : l < m)
    (hS : ∀ b : F, b ≠ 0 → ∀ f ∈ S, scale (b ^ m) b⁻¹ f ∈ S) (hl : ∀ f ∈ S, f.coeff l ≠ 0) :
    (Fintype.card F - 1) *
        ∑ f ∈ fil S (fun f => ∃ j, j < Nat.gcd (m - l) (Fintype.card F - 1) ∧ f.coeff l = g ^ j), Ψ f =
      Nat.gcd (m - l) (Fintype.card F - 1) * ∑ f ∈ S, Ψ f := by
  have := orbit_sum S (univ : Finset Fˣ) (fun b f => scale ((b : F) ^ m) (b : F)⁻¹ f) Ψ
    (fun f => ∃ j, j < Nat.gcd (m - l) (Fintype.card F - 1) ∧ f.coeff l = g ^ j)
    (Nat.gcd (m - l) (Fintype.card F - 1))
    (fun b _ f hf => hS b b.ne_zero f hf)
    (fun b _ f _ g _ he => scale_injective (pow_ne_zero _ b.ne_zero) (inv_ne_zero b.ne_zero) he)
    (fun b _ f _ => h.scale f _ _ (inv_ne_zero b.ne_zero) (pow_ne_zero _ b.ne_zero)) (by
      intro f hf
      have hc : ∀ b : Fˣ, (scale ((b : F) ^ m) (b : F)⁻¹ f).coeff l = (b : F) ^ (m - l) * f.coeff l := by
        intro b
        have hb := b.ne_zero
        rw [coeff_scale, inv_pow, ← pow_sub₀ _ hb (by omega)]
      simp only [hc]
      exact card_coset hg (m - l) (hl f hf))
  rw [card_units_eq] at this
  exact this

theorem scale_one_coeff (c : F) (f : F[X]) (i : Nat) : (scale c 1 f).coeff i = c * f.coeff i := by
  rw [coeff_scale, one_pow, mul_one]

theorem scale_zero_iff {c b : F} (hc : c ≠ 0) (hb : b ≠ 0) (f : F[X]) (i : Nat) :
    (scale c b f).coeff i = 0 ↔ f.coeff i = 0 := by
  rw [coeff_scale]
  simp [hc, hb]

theorem scale_inv_coeff {b : F} (hb : b ≠ 0) (f : F[X]) (m : Nat) :
    (scale (b ^ m) b⁻¹ f).coeff m = f.coeff m := by
  rw [coeff_scale, inv_pow, mul_inv_cancel₀ (pow_ne_zero m hb), one_mul]

/-- A set of polynomials given by which coefficients vanish. -/
def ZeroPattern (S : Finset F[X]) : Prop :=
  ∀ f ∈ S, ∀ b c : F, b ≠ 0 → c ≠ 0 → scale c b f ∈ S

theorem zeroPattern_polys (d : Nat) : ZeroPattern (polysOfDegree F d) :=
  fun _ hf _ _ hb hc => scale_polys hc hb hf

theorem ZeroPattern.filter {S : Finset F[X]} (hS : ZeroPattern S) {R : F[X] → Prop}
    (hR : ∀ f ∈ S, R f → ∀ b c : F, b ≠ 0 → c ≠ 0 → R (Hycu.scale c b f)) : ZeroPattern (fil S R) := by
  intro f hf b c hb hc
  rw [mem_fil] at hf ⊢
  exact ⟨hS f hf.1 b c hb hc, hR f hf.1 hf.2 b c hb hc⟩

/-- First the coefficient `m` is made one, then the coefficient `l` a coset representative. -/
theorem sum_two_steps (h : FullInvariant Ψ) {g : F} (hg : Primitive g) {S : Finset F[X]} (hS : ZeroPattern S)
    {m l : Nat} (hlm : l < m) (hm : ∀ f ∈ S, f.coeff m ≠ 0) (hl : ∀ f ∈ S, f.coeff l ≠ 0) :
    (Fintype.card F - 1) * (Fintype.card F - 1) * ∑ f ∈ fil S (fun f => f.coeff m = 1 ∧
        ∃ j, j < Nat.gcd (m - l) (Fintype.card F - 1) ∧ f.coeff l = g ^ j), Ψ f =
      Nat.gcd (m - l) (Fintype.card F - 1) * ∑ f ∈ S, Ψ f := by
  have h1 := sum_scalar h S m (fun c hc f hf => hS f hf 1 c one_ne_zero hc) hm
  have h2 := sum_coset h hg (fil S fun f => f.coeff m = 1) hlm (by
    intro b hb f hf
    rw [mem_fil] at hf ⊢
    exact ⟨hS f hf.1 _ _ (inv_ne_zero hb) (pow_ne_zero _ hb), by rw [scale_inv_coeff hb]; exact hf.2⟩)
    (fun f hf => hl f (mem_fil.1 hf).1)
  rw [← h1, ← mul_assoc, Nat.mul_comm (Nat.gcd _ _) _, mul_assoc (Fintype.card F - 1) (Nat.gcd _ _), ← h2,
    ← mul_assoc, fil_fil]

/-- Leading coefficient one and coefficient `l` either zero or a coset representative. -/
theorem sum_square (h : FullInvariant Ψ) {g : F} (hg : Primitive g) {S : Finset F[X]} (hS : ZeroPattern S)
    {m l : Nat} (hlm : l < m) (hm : ∀ f ∈ S, f.coeff m ≠ 0) :
    (Fintype.card F - 1) * (Fintype.card F - 1) * ∑ f ∈ fil S (fun f => (f.coeff m = 1 ∧ f.coeff l ≠ 0) ∧
        ∃ j, j < Nat.gcd (m - l) (Fintype.card F - 1) ∧ f.coeff l = g ^ j), Ψ f +
      Nat.gcd (m - l) (Fintype.card F - 1) * (Fintype.card F - 1) *
        ∑ f ∈ fil S (fun f => f.coeff m = 1 ∧ f.coeff l = 0), Ψ f =
      Nat.gcd (m - l) (Fintype.card F - 1) * ∑ f ∈ S, Ψ f := by
  have h1 := sum_two_steps h hg (S := fil S fun f => f.coeff l ≠ 0)
    (hS.filter fun f _ hf b c hb hc => by simp only [ne_eq, scale_zero_iff hc hb]; exact hf) hlm
    (fun f hf => hm f (mem_fil.1 hf).1) (fun f hf => (mem_fil.1 hf).2)
  have h2 := sum_scalar h (fil S fun f => f.coeff l = 0) m
    (fun c hc f hf => by
      rw [mem_fil] at hf ⊢
      exact ⟨hS f hf.1 1 c one_ne_zero hc, by rw [scale_zero_iff hc one_ne_zero]; exact hf.2⟩)
    (fun f hf => hm f (mem_fil.1 hf).1)
  rw [fil_fil] at h1 h2
  have h3 : ∑ f ∈ S, Ψ f = ∑ f ∈ fil S (fun f => f.coeff l = 0), Ψ f + ∑ f ∈ fil S (fun f => f.coeff l ≠ 0), Ψ f :=
    sum_fil_add_not S _ _
  have e1 : (fil S fun f => (f.coeff m = 1 ∧ f.coeff l ≠ 0) ∧
      ∃ j, j < Nat.gcd (m - l) (Fintype.card F - 1) ∧ f.coeff l = g ^ j) =
      fil S fun f => f.coeff l ≠ 0 ∧ f.coeff m = 1 ∧
        ∃ j, j < Nat.gcd (m - l) (Fintype.card F - 1) ∧ f.coeff l = g ^ j :=
    fil_congr (fun f _ => by tauto)
  have e2 : (fil S fun f => f.coeff m = 1 ∧ f.coeff l = 0) =
      fil S fun f => f.coeff l = 0 ∧ f.coeff m = 1 :=
    fil_congr (fun f _ => by tauto)
  rw [e1, e2, h1, h3, mul_assoc, h2]
  ring

/-- Case `p > d`: all normal forms with weights. -/
theorem sum_large (h : FullInvariant Ψ) {g : F} (hg : Primitive g) {d : Nat} (hd : 1 ≤ d) (hdF : (d : F) ≠ 0)
    (W : Nat → Nat → Nat)
    (hW : ∀ m l, l < m → m < d - 1 → Nat.gcd (m - l) (Fintype.card F - 1) * W m l =
      Fintype.card F * (Fintype.card F - 1) * (Fintype.card F - 1)) :
    ∑ m ∈ range (d - 1), ((∑ l ∈ range m, W m l *
        ∑ f ∈ fil (polysOfDegree F d) (fun f => ((f.coeff (d - 1) = 0 ∧ (∀ i, m < i → i < d - 1 → f.coeff i = 0) ∧ ¬ f.coeff m = 0) ∧
            (∀ i, l < i → i < m → f.coeff i = 0) ∧ ¬ f.coeff l = 0) ∧
          (f.coeff m = 1 ∧ ∃ j, j < Nat.gcd (m - l) (Fintype.card F - 1) ∧ f.coeff l = g ^ j)), Ψ f) +
      Fintype.card F * (Fintype.card F - 1) *
        ∑ f ∈ fil (polysOfDegree F d) (fun f => ((f.coeff (d - 1) = 0 ∧ (∀ i, m < i → i < d - 1 → f.coeff i = 0) ∧ ¬ f.coeff m = 0) ∧
            ∀ i, i < m → f.coeff i = 0) ∧ f.coeff m = 1), Ψ f) +
      Fintype.card F * (Fintype.card F - 1) *
        ∑ f ∈ fil (polysOfDegree F d) (fun f => (f.coeff (d - 1) = 0 ∧ ∀ i, i < d - 1 → f.coeff i = 0) ∧ f.coeff d = 1), Ψ f =
      ∑ f ∈ polysOfDegree F d, Ψ f := by
  rw [← sum_translate h hd hdF]
  rw [peel_sum (fil (polysOfDegree F d) fun f => f.coeff (d - 1) = 0) Ψ (fun f i => f.coeff i = 0) (d - 1)]
  rw [mul_add, Finset.mul_sum (range (d - 1))]
  congr 1
  · apply Finset.sum_congr rfl
    intro m hm
    have hm := Finset.mem_range.1 hm
    rw [fil_fil]
    have hzp : ZeroPattern (fil (polysOfDegree F d) fun f =>
        f.coeff (d - 1) = 0 ∧ (∀ i, m < i → i < d - 1 → f.coeff i = 0) ∧ ¬ f.coeff m = 0) := by
      refine (zeroPattern_polys d).filter ?_
      intro f _ hf b c hb hc
      simp only [scale_zero_iff hc hb]
      exact hf
    rw [peel_sum (fil (polysOfDegree F d) fun f =>
      f.coeff (d - 1) = 0 ∧ (∀ i, m < i → i < d - 1 → f.coeff i = 0) ∧ ¬ f.coeff m = 0) Ψ
      (fun f i => f.coeff i = 0) m]
    rw [mul_add, Finset.mul_sum (range m)]
    congr 1
    · apply Finset.sum_congr rfl
      intro l hl
      have hl := Finset.mem_range.1 hl
      have := sum_two_steps h hg (S := fil (fil (polysOfDegree F d) fun f =>
          f.coeff (d - 1) = 0 ∧ (∀ i, m < i → i < d - 1 → f.coeff i = 0) ∧ ¬ f.coeff m = 0) fun f =>
          (∀ i, l < i → i < m → f.coeff i = 0) ∧ ¬ f.coeff l = 0) (hzp.filter (by
            intro f _ hf b c hb hc
            simp only [scale_zero_iff hc hb]
            exact hf)) hl
        (fun f hf => (mem_fil.1 (mem_fil.1 hf).1).2.2.2)
        (fun f hf => (mem_fil.1 hf).2.2)
      simp only [fil_fil, and_assoc] at this ⊢
      have hγ : 0 < Nat.gcd (m - l) (Fintype.card F - 1) := Nat.gcd_pos_of_pos_left _ (by omega)
      apply Nat.eq_of_mul_eq_mul_left hγ
      rw [← mul_assoc, hW m l hl hm, mul_left_comm, ← this]
      ring
    · have := sum_scalar h (fil (fil (polysOfDegree F d) fun f =>
          f.coeff (d - 1) = 0 ∧ (∀ i, m < i → i < d - 1 → f.coeff i = 0) ∧ ¬ f.coeff m = 0) fun f =>
          ∀ i, i < m → f.coeff i = 0) m (by
            intro c hc f hf
            refine (hzp.filter ?_) f hf 1 c one_ne_zero hc
            intro f _ hf b c hb hc
            simp only [scale_zero_iff hc hb]
            exact hf)
        (fun f hf => (mem_fil.1 (mem_fil.1 hf).1).2.2.2)
      rw [← this]
      simp only [fil_fil, and_assoc, mul_assoc]
  · have := sum_scalar h (fil (fil (polysOfDegree F d) fun f => f.coeff (d - 1) = 0) fun f =>
          ∀ i, i < d - 1 → f.coeff i = 0) d (by
            intro c hc f hf
            refine ((zeroPattern_polys d).filter ?_ |>.filter ?_) f hf 1 c one_ne_zero hc
            · intro f _ hf b c hb hc
              simp only [scale_zero_iff hc hb]
              exact hf
            · intro f _ hf b c hb hc
              simp only [scale_zero_iff hc hb]
              exact hf)
        (fun f hf => (mem_polys'.1 (mem_fil.1 (mem_fil.1 hf).1).1).1)
    rw [← this]
    simp only [fil_fil, and_assoc, mul_assoc]

end Hycu
