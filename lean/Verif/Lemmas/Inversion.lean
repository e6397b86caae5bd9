import Mathlib.Algebra.Polynomial.Reverse
import Mathlib.FieldTheory.Finite.Extension
import Verif.Lemmas.Results

/-!
The substitution `x ↦ 1/x`: the curve `y^2 = f(x)` with `f` of degree at most `2G` becomes `y^2 = x^(2G) f(1/x)`.
-/

namespace Hycu

open Polynomial Fintype

section Reflect
variable {K : Type} [Field K]

theorem eval_reflect {f : K[X]} {N : Nat} (hf : f.natDegree ≤ N) {x : K} (hx : x ≠ 0) :
    (reflect N f).eval x = x ^ N * f.eval x⁻¹ := by
  have := invertibleOfNonzero (inv_ne_zero hx)
  have h := eval₂_reflect_mul_pow (RingHom.id K) x⁻¹ N f hf
  simp only [invOf_eq_inv, inv_inv, eval₂_id] at h
  rw [← h, mul_comm, mul_assoc, ← mul_pow, inv_mul_cancel₀ hx, one_pow, mul_one]

theorem natDegree_reflect {f : K[X]} (hsf : Squarefree f) {G : Nat}
    (hd : f.natDegree = 2 * G + 1 ∨ f.natDegree = 2 * G + 2) :
    (reflect (2 * G + 2) f).natDegree = 2 * G + 1 ∨ (reflect (2 * G + 2) f).natDegree = 2 * G + 2 := by
  have h1 : (reflect (2 * G + 2) f).natDegree ≤ 2 * G + 2 := by
    have := natDegree_reflect_le (N := 2 * G + 2) (p := f)
    omega
  by_contra h2
  have h3 : (reflect (2 * G + 2) f).natDegree < 2 * G + 1 := by omega
  have e0 : f.coeff 0 = 0 := by
    have := coeff_eq_zero_of_natDegree_lt (n := 2 * G + 2) (by omega : (reflect (2 * G + 2) f).natDegree < _)
    rwa [coeff_reflect, revAt_le (by omega), Nat.sub_self] at this
  have e1 : f.coeff 1 = 0 := by
    have := coeff_eq_zero_of_natDegree_lt (n := 2 * G + 1) (by omega : (reflect (2 * G + 2) f).natDegree < _)
    rwa [coeff_reflect, revAt_le (by omega), show 2 * G + 2 - (2 * G + 1) = 1 by omega] at this
  have h4 : X * X ∣ f := by
    rw [← pow_two, X_pow_dvd_iff]
    intro d hd
    interval_cases d
    · exact e0
    · exact e1
  exact not_isUnit_X (hsf X h4)

theorem squarefree_reflect {f : K[X]} (hsf : Squarefree f) {G : Nat}
    (hd : f.natDegree = 2 * G + 1 ∨ f.natDegree = 2 * G + 2) : Squarefree (reflect (2 * G + 2) f) := by
  rintro h ⟨u, hu⟩
  have hne : reflect (2 * G + 2) f ≠ 0 := by
    rw [Ne, reflect_eq_zero_iff]
    exact hsf.ne_zero
  have hh : h ≠ 0 := by rintro rfl; exact hne (by rw [hu, zero_mul, zero_mul])
  have hu0 : u ≠ 0 := by rintro rfl; exact hne (by rw [hu, mul_zero])
  have hdeg : (reflect (2 * G + 2) f).natDegree ≤ 2 * G + 2 := by
    have := natDegree_reflect hsf hd
    omega
  rw [hu, natDegree_mul (mul_ne_zero hh hh) hu0, natDegree_mul hh hh] at hdeg
  have h1 : f = reflect h.natDegree h * reflect h.natDegree h *
      reflect (2 * G + 2 - (h.natDegree + h.natDegree)) u := by
    rw [← reflect_mul _ _ le_rfl le_rfl, ← reflect_mul _ _ (natDegree_mul_le) (by omega),
      Nat.add_sub_cancel' (by omega), ← hu, reflect_reflect]
  obtain ⟨c, hc0, hc⟩ := Polynomial.isUnit_iff.1 (hsf _ ⟨_, h1⟩)
  have h2 : h = C c * X ^ h.natDegree := by
    rw [← reflect_C, hc, reflect_reflect]
  by_cases he : h.natDegree = 0
  · rw [he, pow_zero, mul_one] at h2
    rw [h2]
    exact isUnit_C.2 hc0
  · exfalso
    have h3 : X ^ 2 ∣ reflect (2 * G + 2) f := by
      rw [hu, pow_two]
      have : X ∣ h := by
        rw [h2]
        exact Dvd.dvd.mul_left (dvd_pow_self X he) _
      exact Dvd.dvd.mul_right (mul_dvd_mul this this) _
    rw [X_pow_dvd_iff] at h3
    have e0 := h3 0 (by omega)
    have e1 := h3 1 (by omega)
    rw [coeff_reflect, revAt_le (by omega)] at e0 e1
    rcases hd with hd | hd
    · rw [show 2 * G + 2 - 1 = f.natDegree by omega] at e1
      exact hsf.ne_zero (leadingCoeff_eq_zero.1 e1)
    · rw [show 2 * G + 2 - 0 = f.natDegree by omega] at e0
      exact hsf.ne_zero (leadingCoeff_eq_zero.1 e0)

/-- The points over `x ≠ 0`, the points over `x = 0` and those over infinity. -/
theorem card_split [Fintype K] (f : K[X]) (P : Prop → Prop) :
    Nat.card {Q : K × K // Q.2 ^ 2 = f.eval Q.1 ∧ P (Q.2 = 0)} =
      Nat.card {Q : K × K // (Q.1 ≠ 0 ∧ Q.2 ^ 2 = f.eval Q.1) ∧ P (Q.2 = 0)} +
        Nat.card {w : K // w ^ 2 = f.coeff 0 ∧ P (w = 0)} := by
  classical
  have h1 : Nat.card {w : K // w ^ 2 = f.coeff 0 ∧ P (w = 0)} =
      Nat.card {Q : K × K // (Q.1 = 0 ∧ Q.2 ^ 2 = f.eval Q.1) ∧ P (Q.2 = 0)} := by
    refine Nat.card_congr ⟨fun w => ⟨(0, w.1), ⟨rfl, ?_⟩, w.2.2⟩, fun Q => ⟨Q.1.2, ?_, Q.2.2⟩, fun w => rfl, ?_⟩
    · exact w.2.1.trans (coeff_zero_eq_eval_zero f)
    · rw [Q.2.1.2, Q.2.1.1, coeff_zero_eq_eval_zero]
    · rintro ⟨⟨x, y⟩, ⟨h0, h⟩, h'⟩
      have h0 : x = 0 := h0
      subst h0
      rfl
  rw [h1, ← Nat.card_sum]
  refine Nat.card_congr ((Equiv.subtypeEquivRight fun Q => ?_).trans (subtypeOrEquiv _ _ ?_))
  · by_cases h : Q.1 = 0 <;> simp [h]
  · rw [Pi.disjoint_iff]
    intro Q
    rw [Prop.disjoint_iff]
    rintro ⟨⟨⟨h, _⟩, _⟩, ⟨h', _⟩, _⟩
    exact h h'

theorem card_reflect {f : K[X]} {G : Nat} (hf : f.natDegree ≤ 2 * G) (P : Prop → Prop) :
    Nat.card {Q : K × K // (Q.1 ≠ 0 ∧ Q.2 ^ 2 = (reflect (2 * G) f).eval Q.1) ∧ P (Q.2 = 0)} =
      Nat.card {Q : K × K // (Q.1 ≠ 0 ∧ Q.2 ^ 2 = f.eval Q.1) ∧ P (Q.2 = 0)} := by
  have key : ∀ x y : K, x ≠ 0 → (y ^ 2 = (reflect (2 * G) f).eval x ↔ (y * x⁻¹ ^ G) ^ 2 = f.eval x⁻¹) := by
    intro x y hx
    rw [eval_reflect hf hx, mul_pow, ← pow_mul, Nat.mul_comm G 2]
    have hx' : x ^ (2 * G) ≠ 0 := pow_ne_zero _ hx
    rw [inv_pow]
    constructor
    · intro h
      rw [h]
      field_simp
    · intro h
      rw [← h]
      field_simp
  have hz : ∀ x y : K, x ≠ 0 → (y * x⁻¹ ^ G = 0 ↔ y = 0) := by
    intro x y hx
    simp [hx]
  refine Nat.card_congr ⟨fun Q => ⟨(Q.1.1⁻¹, Q.1.2 * Q.1.1⁻¹ ^ G), ⟨inv_ne_zero Q.2.1.1, ?_⟩, ?_⟩,
    fun Q => ⟨(Q.1.1⁻¹, Q.1.2 * Q.1.1⁻¹ ^ G), ⟨inv_ne_zero Q.2.1.1, ?_⟩, ?_⟩, ?_, ?_⟩
  · exact (key _ _ Q.2.1.1).1 Q.2.1.2
  · show P (Q.1.2 * Q.1.1⁻¹ ^ G = 0)
    rw [hz _ _ Q.2.1.1]
    exact Q.2.2
  · show (Q.1.2 * Q.1.1⁻¹ ^ G) ^ 2 = _
    rw [key _ _ (inv_ne_zero Q.2.1.1), inv_inv, mul_assoc, ← mul_pow, inv_mul_cancel₀ Q.2.1.1, one_pow, mul_one]
    exact Q.2.1.2
  · show P (Q.1.2 * Q.1.1⁻¹ ^ G = 0)
    rw [hz _ _ Q.2.1.1]
    exact Q.2.2
  · rintro ⟨⟨x, y⟩, ⟨h, _⟩, _⟩
    have h : x ≠ 0 := h
    simp only [Subtype.mk.injEq, Prod.mk.injEq, inv_inv, true_and]
    rw [mul_assoc, ← mul_pow, inv_mul_cancel₀ h, one_pow, mul_one]
  · rintro ⟨⟨x, y⟩, ⟨h, _⟩, _⟩
    have h : x ≠ 0 := h
    simp only [Subtype.mk.injEq, Prod.mk.injEq, inv_inv, true_and]
    rw [mul_assoc, ← mul_pow, inv_mul_cancel₀ h, one_pow, mul_one]

/-- The number of points is the same. -/
theorem points_reflect [Fintype K] {f : K[X]} {G : Nat} (hd : f.natDegree = 2 * G + 1 ∨ f.natDegree = 2 * G + 2)
    (hr : (reflect (2 * G + 2) f).natDegree = 2 * G + 1 ∨ (reflect (2 * G + 2) f).natDegree = 2 * G + 2) :
    unramifiedPoints (reflect (2 * G + 2) f) = unramifiedPoints f ∧
      ramifiedPoints (reflect (2 * G + 2) f) = ramifiedPoints f := by
  have e1 : 2 * halfDegree f = 2 * G + 2 := by unfold halfDegree; omega
  have e2 : 2 * halfDegree (reflect (2 * G + 2) f) = 2 * G + 2 := by unfold halfDegree; omega
  have e3 : (reflect (2 * G + 2) f).coeff 0 = f.coeff (2 * G + 2) := by rw [coeff_reflect, revAt_le (by omega), Nat.sub_zero]
  have e4 : (reflect (2 * G + 2) f).coeff (2 * G + 2) = f.coeff 0 := by rw [coeff_reflect, revAt_le le_rfl, Nat.sub_self]
  have h : ∀ P : Prop → Prop, Nat.card {Q : K × K // Q.2 ^ 2 = (reflect (2 * G + 2) f).eval Q.1 ∧ P (Q.2 = 0)} +
      Nat.card {w : K // w ^ 2 = (reflect (2 * G + 2) f).coeff (2 * halfDegree (reflect (2 * G + 2) f)) ∧ P (w = 0)} =
      Nat.card {Q : K × K // Q.2 ^ 2 = f.eval Q.1 ∧ P (Q.2 = 0)} +
      Nat.card {w : K // w ^ 2 = f.coeff (2 * halfDegree f) ∧ P (w = 0)} := by
    intro P
    have h1 := card_reflect (f := f) (G := G + 1) (by omega) P
    rw [show 2 * (G + 1) = 2 * G + 2 by ring] at h1
    rw [e1, e2, card_split _ P, card_split f P, e3, e4, h1]
    ring
  exact ⟨h fun p => ¬ p, h fun p => p⟩

end Reflect

/-- A multiset of positive numbers is determined by the sums of the divisors of `n`, for all `n`. -/
theorem multiset_eq_of_divisor_sums {A B : Multiset Nat} (hA : ∀ d ∈ A, 0 < d) (hB : ∀ d ∈ B, 0 < d)
    (h : ∀ n, 0 < n → (A.filter (· ∣ n)).sum = (B.filter (· ∣ n)).sum) : A = B := by
  have key : ∀ n, A.count n = B.count n := by
    intro n
    induction n using Nat.strong_induction_on with
    | _ n ih =>
      rcases Nat.eq_zero_or_pos n with rfl | hn
      · rw [Multiset.count_eq_zero_of_notMem (fun h => absurd (hA 0 h) (by omega)),
          Multiset.count_eq_zero_of_notMem (fun h => absurd (hB 0 h) (by omega))]
      · have split : ∀ M : Multiset Nat, (M.filter (· ∣ n)).sum =
            (M.filter fun d => d ∣ n ∧ d < n).sum + M.count n * n := by
          intro M
          induction M using Multiset.induction_on with
          | empty => simp
          | cons a M ihM =>
            by_cases ha : a = n
            · subst ha
              rw [Multiset.filter_cons_of_pos (p := (· ∣ a)) _ (dvd_refl a), Multiset.sum_cons, ihM,
                Multiset.filter_cons_of_neg (p := fun d => d ∣ a ∧ d < a) _ (by simp), Multiset.count_cons_self]
              ring
            · rw [Multiset.count_cons_of_ne (Ne.symm ha)]
              by_cases hd : a ∣ n
              · rw [Multiset.filter_cons_of_pos (p := (· ∣ n)) _ hd,
                  Multiset.filter_cons_of_pos (p := fun d => d ∣ n ∧ d < n) _ ⟨hd, lt_of_le_of_ne (Nat.le_of_dvd hn hd) ha⟩, Multiset.sum_cons, Multiset.sum_cons, ihM]
                ring
              · rw [Multiset.filter_cons_of_neg (p := (· ∣ n)) _ hd,
                  Multiset.filter_cons_of_neg (p := fun d => d ∣ n ∧ d < n) _ (fun h => hd h.1), ihM]
        have low : A.filter (fun d => d ∣ n ∧ d < n) = B.filter (fun d => d ∣ n ∧ d < n) := by
          ext d
          rw [Multiset.count_filter, Multiset.count_filter]
          split
          · rename_i hd
            exact ih d hd.2
          · rfl
        have h1 := h n hn
        rw [split A, split B, low] at h1
        exact Nat.eq_of_mul_eq_mul_right hn (by omega)
  exact Multiset.ext.2 key

section Keys
variable {F : Type} [Field F] [Fintype F]

theorem branchDegrees_reflect {f : F[X]} (hsf : Squarefree f) {G : Nat}
    (hd : f.natDegree = 2 * G + 1 ∨ f.natDegree = 2 * G + 2) :
    branchDegrees (reflect (2 * G + 2) f) = branchDegrees f := by
  refine multiset_eq_of_divisor_sums (fun d => branchDegrees_pos) (fun d => branchDegrees_pos) fun n hn => ?_
  obtain ⟨p, hp⟩ := CharP.exists F
  have : Fact p.Prime := ⟨CharP.char_is_prime F p⟩
  have : NeZero n := ⟨by omega⟩
  let K := FiniteField.Extension F p n
  have : Finite K := Module.finite_of_finite F
  let _ := Fintype.ofFinite K
  have hK : card K = card F ^ n := by
    rw [← Nat.card_eq_fintype_card, ← Nat.card_eq_fintype_card]
    exact FiniteField.natCard_extension F p n
  let ι : F →+* K := algebraMap F K
  have hr := natDegree_reflect hsf hd
  rw [← ramifiedPoints_eq ι hK hsf, ← ramifiedPoints_eq ι hK (squarefree_reflect hsf hd), ← reflect_map]
  refine (points_reflect ?_ ?_).2
  · rwa [natDegree_map]
  · rwa [reflect_map, natDegree_map]

variable {E : Nat → Extension F} {m : Nat}

/-- The key is the same. -/
theorem IsKey.reflect {f : F[X]} (hsf : Squarefree f) {G : Nat}
    (hd : f.natDegree = 2 * G + 1 ∨ f.natDegree = 2 * G + 2) {k : Key} (hk : IsKey E m f k) :
    IsKey E m (reflect (2 * G + 2) f) k := by
  refine ⟨hk.ascending, hk.ramification.trans (branchDegrees_reflect hsf hd).symm, ?_⟩
  rw [hk.offsets]
  refine List.map_congr_left fun j _ => ?_
  have hr := natDegree_reflect hsf hd
  obtain ⟨h1, h2⟩ := points_reflect (f := f.map (E (j + 1)).ι) (G := G) (by rwa [natDegree_map])
    (by rwa [reflect_map, natDegree_map])
  rw [← reflect_map, h1, h2]

/-- The polynomials that are asked for with a root at `a` correspond to those of odd degree. -/
theorem card_root_at (E : Nat → Extension F) (m genus : Nat) (k : Key) (a : F) :
    Nat.card {f : F[X] // (Wanted genus false f ∧ IsKey E m f k) ∧ f.eval a = 0} =
      Nat.card {f : F[X] // Wanted genus true f ∧ IsKey E m f k} := by
  classical
  have wf : ∀ f : F[X], Wanted genus false f ↔
      Squarefree f ∧ (f.natDegree = 2 * genus + 1 ∨ f.natDegree = 2 * genus + 2) := fun f => by simp [Wanted]
  have wt : ∀ f : F[X], Wanted genus true f ↔ Squarefree f ∧ f.natDegree = 2 * genus + 1 := fun f => by simp [Wanted]
  have hid : ∀ (f : F[X]) (b : F), f.comp (X + C b) = C ((1 : F) ^ 2) * f.comp (C 1 * X + C b) := fun f b => by simp
  have hinv : ∀ (f : F[X]) (b : F), (f.comp (X + C b)).comp (X + C (-b)) = f := fun f b => by
    rw [comp_assoc]
    simp
  have sub : ∀ (f : F[X]) (b : F), Wanted genus false f ∧ IsKey E m f k →
      Wanted genus false (f.comp (X + C b)) ∧ IsKey E m (f.comp (X + C b)) k := by
    rintro f b ⟨h1, h2⟩
    rw [wf] at h1 ⊢
    rw [hid]
    refine ⟨⟨squarefree_subst h1.1 one_ne_zero one_ne_zero, ?_⟩, (IsKey.subst h1.1.ne_zero one_ne_zero one_ne_zero).2 h2⟩
    rw [natDegree_subst f one_ne_zero one_ne_zero]
    exact h1.2
  have ref : ∀ f : F[X], Wanted genus false f ∧ IsKey E m f k →
      Wanted genus false (Polynomial.reflect (2 * genus + 2) f) ∧
        IsKey E m (Polynomial.reflect (2 * genus + 2) f) k := by
    rintro f ⟨h1, h2⟩
    rw [wf] at h1 ⊢
    exact ⟨⟨squarefree_reflect h1.1 h1.2, natDegree_reflect h1.1 h1.2⟩, h2.reflect h1.1 h1.2⟩
  refine Nat.card_congr ⟨fun f => ⟨Polynomial.reflect (2 * genus + 2) (f.1.comp (X + C a)), ?_⟩,
    fun f => ⟨(Polynomial.reflect (2 * genus + 2) f.1).comp (X + C (-a)), ?_⟩, fun f => ?_, fun f => ?_⟩
  · obtain ⟨h1, h2⟩ := ref _ (sub f.1 a f.2.1)
    refine ⟨?_, h2⟩
    rw [wf] at h1
    rw [wt]
    refine ⟨h1.1, h1.2.resolve_right fun h => ?_⟩
    have h3 : (Polynomial.reflect (2 * genus + 2) (f.1.comp (X + C a))).coeff (2 * genus + 2) = 0 := by
      rw [coeff_reflect, revAt_le le_rfl, Nat.sub_self, coeff_zero_eq_eval_zero, eval_comp]
      simpa using f.2.2
    exact h1.1.ne_zero (leadingCoeff_eq_zero.1 (by rw [leadingCoeff, h, h3]))
  · have hf : Wanted genus false f.1 ∧ IsKey E m f.1 k := by
      refine ⟨?_, f.2.2⟩
      have := (wt _).1 f.2.1
      rw [wf]
      exact ⟨this.1, Or.inl this.2⟩
    refine ⟨sub _ (-a) (ref _ hf), ?_⟩
    rw [eval_comp]
    simp only [eval_add, eval_X, eval_C, add_neg_cancel]
    rw [← coeff_zero_eq_eval_zero, coeff_reflect, revAt_le (by omega), Nat.sub_zero]
    exact coeff_eq_zero_of_natDegree_lt (by rw [((wt _).1 f.2.1).2]; omega)
  · apply Subtype.ext
    show (Polynomial.reflect _ (Polynomial.reflect _ (f.1.comp (X + C a)))).comp (X + C (-a)) = f.1
    rw [reflect_reflect, hinv]
  · apply Subtype.ext
    show Polynomial.reflect _ (((Polynomial.reflect (2 * genus + 2) f.1).comp (X + C (-a))).comp (X + C a)) = f.1
    have := hinv (Polynomial.reflect (2 * genus + 2) f.1) (-a)
    rw [neg_neg] at this
    rw [this, reflect_reflect]

/-- Every curve with a given key has the same number of rational branch points, and all points of the line are alike. -/
theorem census_marked (E : Nat → Extension F) (m genus : Nat) (k : Key) :
    k.ramification.count 1 * census E m genus false k = (card F + 1) * census E m genus true k := by
  classical
  let S := {f : F[X] // Wanted genus false f ∧ IsKey E m f k}
  have := finite_wanted (F := F) genus false
  have hfin : Finite S := Finite.of_injective (fun f : S => (⟨f.1, f.2.1⟩ : {f : F[X] // Wanted genus false f}))
    fun _ _ h => Subtype.ext (congrArg (fun x => x.1) h)
  let _ := Fintype.ofFinite S
  -- branch points over the base field: roots, and infinity if the degree is odd
  let R : S → Option F → Prop := fun f P =>
    match P with
    | none => f.1.natDegree = 2 * genus + 1
    | some a => f.1.eval a = 0
  have h1 : ∀ f : S, Nat.card {P // R f P} = k.ramification.count 1 := by
    rintro ⟨f, hw, hk⟩
    have e1 := ramifiedPoints_eq (RingHom.id F) (n := 1) (by rw [pow_one]) hw.1
    rw [map_id] at e1
    have e2 : ((branchDegrees f).filter (· ∣ 1)).sum = k.ramification.count 1 := by
      rw [← hk.ramification, Multiset.filter_coe, Multiset.sum_coe]
      have : ∀ l : List Nat, (l.filter fun d => decide (d ∣ 1)).sum = l.count 1 := by
        intro l
        induction l with
        | nil => rfl
        | cons d l ih =>
          simp only [Nat.dvd_one] at ih
          by_cases hd : d = 1
          · subst hd
            simp [ih, Nat.add_comm]
          · simp [hd, ih]
      exact this _
    rw [← e2, ← e1, ramifiedPoints]
    have e3 : Nat.card {P // R ⟨f, hw, hk⟩ P} = Nat.card ({a : F // f.eval a = 0} ⊕
        {_u : Unit // f.natDegree = 2 * genus + 1}) := by
      refine Nat.card_congr ⟨fun P => ?_, fun x => ?_, ?_, ?_⟩
      · rcases P with ⟨_ | a, h⟩
        · exact Sum.inr ⟨(), h⟩
        · exact Sum.inl ⟨a, h⟩
      · rcases x with x | x
        · exact ⟨some x.1, x.2⟩
        · exact ⟨none, x.2⟩
      · rintro ⟨_ | a, h⟩ <;> rfl
      · rintro (x | x) <;> rfl
    rw [e3, Nat.card_sum]
    congr 1
    · refine Nat.card_congr ⟨fun a => ⟨(a.1, 0), by simp [a.2]⟩, fun Q => ⟨Q.1.1, by rw [← Q.2.1, Q.2.2]; simp⟩,
        fun a => rfl, ?_⟩
      rintro ⟨⟨x, y⟩, h1, h2⟩
      have h2 : y = 0 := h2
      subst h2
      rfl
    · have hh : 2 * halfDegree f = 2 * genus + 2 := by
        have := hw.2
        unfold halfDegree
        omega
      refine Nat.card_congr ⟨fun u => ⟨0, ?_, rfl⟩, fun w => ⟨(), ?_⟩, fun u => rfl, fun w => ?_⟩
      · rw [hh, coeff_eq_zero_of_natDegree_lt (by rw [u.2]; omega)]
        simp
      · have h2 := w.2.1
        rw [w.2.2, hh] at h2
        rcases hw.2 with h | ⟨_, h⟩
        · exact h
        · exfalso
          rw [← h] at h2
          exact hw.1.ne_zero (leadingCoeff_eq_zero.1 (by rw [leadingCoeff, ← h2]; simp))
      · exact Subtype.ext w.2.2.symm
  have h2 : ∀ P, Nat.card {f : S // R f P} = census E m genus true k := by
    intro P
    rw [census]
    cases P with
    | none =>
      refine Nat.card_congr ⟨fun f => ⟨f.1.1, ⟨f.1.2.1.1, Or.inl f.2⟩, f.1.2.2⟩,
        fun f => ⟨⟨f.1, ⟨f.2.1.1, Or.inl ?_⟩, f.2.2⟩, ?_⟩, fun f => rfl, fun f => rfl⟩
      · have := f.2.1.2
        simpa using this
      · have := f.2.1.2
        show f.1.natDegree = _
        simpa using this
    | some a =>
      rw [← card_root_at E m genus k a]
      exact Nat.card_congr ⟨fun f => ⟨f.1.1, f.1.2, f.2⟩, fun f => ⟨⟨f.1, f.2.1⟩, f.2.2⟩, fun f => rfl, fun f => rfl⟩
  have h3 : Nat.card (Σ f : S, {P // R f P}) = Nat.card (Σ P : Option F, {f : S // R f P}) :=
    Nat.card_congr ⟨fun x => ⟨x.2.1, x.1, x.2.2⟩, fun x => ⟨x.2.1, x.1, x.2.2⟩, fun x => rfl, fun x => rfl⟩
  rw [Nat.card_sigma, Nat.card_sigma] at h3
  simp only [h1, h2, Finset.sum_const, smul_eq_mul, Finset.card_univ, Fintype.card_option] at h3
  rw [← h3, census, Nat.card_eq_fintype_card, Nat.mul_comm]

end Keys

end Hycu
