import Mathlib.FieldTheory.Finite.Basic
import Verif.Lemmas.Mass
import Verif.Lemmas.CurveList

/-!
The sum of multiplicities times an invariant function over all enumerated polynomials of one degree.
-/

namespace Hycu

open Polynomial Finset
open scoped Classical

set_option linter.unusedSectionVars false

/-! ### Values of `multiplicity` -/

/-- The support of length `n` given by a predicate. -/
def suppOf (P : Nat → Bool) (n : Nat) : List Nat := (List.range n).filter P

theorem suppOf_rev_step {P : Nat → Bool} {n m : Nat} (hm : m < n) (h1 : P m = true)
    (h2 : ∀ i, m < i → i < n → P i = false) : (suppOf P n).reverse = m :: (suppOf P m).reverse := by
  induction n with
  | zero => omega
  | succ n ih =>
    unfold suppOf
    rw [List.range_succ, List.filter_append, List.reverse_append]
    by_cases hn : n = m
    · subst hn; simp [h1]
    · have := h2 n (by omega) (by omega)
      simp only [List.filter_cons, this, List.filter_nil, Bool.false_eq_true, if_false, List.reverse_nil,
        List.nil_append]
      exact ih (by omega) (fun i hi hi' => h2 i hi (by omega))

theorem suppOf_none {P : Nat → Bool} {n : Nat} (h : ∀ i, i < n → P i = false) : suppOf P n = [] := by
  unfold suppOf
  rw [List.filter_eq_nil_iff]
  intro i hi
  rw [h i (List.mem_range.1 hi)]
  simp

theorem suppOf_top {P : Nat → Bool} {d : Nat} (h : P d = true) :
    (suppOf P (d + 1)).reverse = d :: (suppOf P d).reverse :=
  suppOf_rev_step (by omega) h (fun i _ _ => by omega)

theorem suppOf_not {P : Nat → Bool} {n k i : Nat} (h : P i = false) : (suppOf P n).reverse[k]? ≠ some i := by
  intro hc
  have := List.mem_of_getElem? hc
  rw [List.mem_reverse, suppOf, List.mem_filter, h] at this
  simp at this

section
open CurveIterator
variable {p q d : Nat} {P : Nat → Bool}

theorem two_dvd_of {q : Nat} (ho : q % 2 = 1) : 2 ∣ q - 1 := by omega

theorem exact_half {q : Nat} (ho : q % 2 = 1) : 2 * (q * (q - 1) / 2) = q * (q - 1) :=
  Nat.mul_div_cancel' (Dvd.dvd.mul_left (two_dvd_of ho) _)

theorem divExact_ok {a b : Nat} (hb : 0 < b) (h : b ∣ a) : divExact a b = .ok (a / b) :=
  if_pos ⟨by omega, h⟩

theorem divExact_mul {q k : Nat} (ho : q % 2 = 1) (hq : 3 ≤ q) :
    ∃ M, divExact (q * (q - 1) / 2 * (q - 1)) (Nat.gcd (q - 1) k) = .ok M ∧ 0 < M ∧
      Nat.gcd k (q - 1) * (2 * M) = q * (q - 1) * (q - 1) := by
  have hγ : 0 < Nat.gcd (q - 1) k := Nat.gcd_pos_of_pos_left _ (by omega)
  have hdvd : Nat.gcd (q - 1) k ∣ q * (q - 1) / 2 * (q - 1) :=
    Dvd.dvd.mul_left (Nat.gcd_dvd_left _ _) _
  have hmul : Nat.gcd k (q - 1) * (2 * (q * (q - 1) / 2 * (q - 1) / Nat.gcd (q - 1) k)) = q * (q - 1) * (q - 1) := by
    rw [Nat.gcd_comm k, Nat.mul_left_comm, Nat.mul_div_cancel' hdvd, ← Nat.mul_assoc, exact_half ho]
  refine ⟨_, divExact_ok hγ hdvd, ?_, hmul⟩
  by_contra hM
  have : q * (q - 1) / 2 * (q - 1) / Nat.gcd (q - 1) k = 0 := Nat.eq_zero_of_not_pos hM
  rw [this] at hmul
  have : 0 < q * (q - 1) * (q - 1) := Nat.mul_pos (Nat.mul_pos (by omega) (by omega)) (by omega)
  omega

variable (hq : 3 ≤ q) (ho : q % 2 = 1) (hP : P d = true)
include hq ho hP

theorem half_pos : 0 < q * (q - 1) / 2 := by
  have h1 := exact_half ho
  have h2 : 0 < q * (q - 1) := Nat.mul_pos (by omega) (by omega)
  omega

theorem mult_three {m l : Nat} (hp : d < p) (hm : m < d) (h1 : P m = true)
    (h2 : ∀ i, m < i → i < d → P i = false) (hl : l < m) (h3 : P l = true)
    (h4 : ∀ i, l < i → i < m → P i = false) :
    ∃ M, CurveIterator.multiplicity p q (suppOf P (d + 1)) = .ok M ∧ 0 < M ∧
      Nat.gcd (m - l) (q - 1) * (2 * M) = q * (q - 1) * (q - 1) := by
  obtain ⟨M, e1, e2, e3⟩ := divExact_mul (k := m - l) ho hq
  refine ⟨M, ?_, e2, e3⟩
  have hrev : (suppOf P (d + 1)).reverse = d :: m :: l :: (suppOf P l).reverse := by
    rw [suppOf_top hP, suppOf_rev_step hm h1 h2, suppOf_rev_step hl h3 h4]
  unfold CurveIterator.multiplicity fromBack
  rw [hrev]
  simp only [List.getElem?_cons_zero, List.getElem?_cons_succ]
  rw [if_pos hp, u32sub_of_le (by omega), u32sub_of_le (by omega), e1]

theorem mult_two (hp : d < p) (h : ∀ i j, i < d → j < i → P i = true → P j = false) :
    ∃ M, CurveIterator.multiplicity p q (suppOf P (d + 1)) = .ok M ∧ 0 < M ∧ 2 * M = q * (q - 1) := by
  refine ⟨q * (q - 1) / 2, ?_, half_pos hq ho hP, exact_half ho⟩
  have hrev : (suppOf P (d + 1)).reverse[2]? = none := by
    rw [suppOf_top hP]
    by_cases hm : ∃ m, m < d ∧ P m = true
    · obtain ⟨m, hm, h1⟩ := hm
      rw [suppOf_rev_step hm h1 (fun i hi hi' => by
        by_contra hc
        have := h i m hi' hi (by simpa using hc)
        rw [h1] at this
        cases this), suppOf_none (fun i hi => h m i hm hi h1)]
      rfl
    · rw [suppOf_none (fun i hi => by
        by_contra hc
        exact hm ⟨i, hi, by simpa using hc⟩)]
      rfl
  have htop : (suppOf P (d + 1)).reverse[0]? = some d := by rw [suppOf_top hP]; rfl
  unfold CurveIterator.multiplicity fromBack
  rw [htop, hrev, u32sub_of_le (by omega)]
  simp only
  rw [if_pos hp]
  split
  · rename_i h1; cases h1
  · rfl

theorem mult_div_three (hp : p ≤ d) (hp0 : p ≠ 0) (hd : d % p = 0) (hd3 : 3 ≤ d) (h1 : P (d - 1) = true) (h2 : P (d - 2) = false)
    (h3 : P (d - 3) = true) :
    ∃ M, CurveIterator.multiplicity p q (suppOf P (d + 1)) = .ok M ∧ 0 < M ∧
      Nat.gcd 3 (q - 1) * (2 * M) = q * (q - 1) * (q - 1) := by
  obtain ⟨M, e1, e2, e3⟩ := divExact_mul (k := 3) ho hq
  refine ⟨M, ?_, e2, e3⟩
  have hrev : (suppOf P (d + 1)).reverse = d :: (d - 1) :: (d - 3) :: (suppOf P (d - 3)).reverse := by
    rw [suppOf_top hP, suppOf_rev_step (m := d - 1) (by omega) h1 (fun i _ _ => by omega),
      suppOf_rev_step (m := d - 3) (by omega) h3 (fun i _ _ => by
        have : i = d - 2 := by omega
        rw [this, h2])]
  unfold CurveIterator.multiplicity fromBack
  rw [hrev]
  simp only [List.getElem?_cons_zero, List.getElem?_cons_succ]
  rw [if_neg (by omega), if_neg hp0, if_pos hd, u32sub_of_le (by omega), u32sub_of_le (by omega),
    u32sub_of_le (by omega), if_pos rfl, if_pos rfl, e1]

theorem mult_div_two (hp : p ≤ d) (hp0 : p ≠ 0) (hd : d % p = 0) (hd3 : 3 ≤ d) (h1 : P (d - 1) = true)
    (h3 : P (d - 3) = false) :
    ∃ M, CurveIterator.multiplicity p q (suppOf P (d + 1)) = .ok M ∧ 0 < M ∧ 2 * M = q * (q - 1) := by
  refine ⟨q * (q - 1) / 2, ?_, half_pos hq ho hP, exact_half ho⟩
  have hrev : (suppOf P (d + 1)).reverse[1]? = some (d - 1) := by
    rw [suppOf_top hP, suppOf_rev_step (m := d - 1) (by omega) h1 (fun i _ _ => by omega)]
    rfl
  have htop : (suppOf P (d + 1)).reverse[0]? = some d := by rw [suppOf_top hP]; rfl
  unfold CurveIterator.multiplicity fromBack
  rw [htop]
  simp only
  rw [if_neg (by omega), if_neg hp0, if_pos hd, hrev, u32sub_of_le (by omega), u32sub_of_le (by omega),
    u32sub_of_le (by omega), if_pos rfl, if_neg (suppOf_not h3)]

theorem mult_square (hp : p ≤ d) (hp0 : p ≠ 0) (hd3 : 3 ≤ d) (h1 : P (d - 1) = false)
    (h2 : P (d - 2) = true) :
    ∃ M, CurveIterator.multiplicity p q (suppOf P (d + 1)) = .ok M ∧ 0 < M ∧
      2 * (2 * M) = (if d % p = 0 then 1 else q) * ((q - 1) * (q - 1)) := by
  have hrev : (suppOf P (d + 1)).reverse[1]? = some (d - 2) := by
    rw [suppOf_top hP, suppOf_rev_step (m := d - 2) (by omega) h2 (fun i _ _ => by
      have : i = d - 1 := by omega
      rw [this, h1])]
    rfl
  have htop : (suppOf P (d + 1)).reverse[0]? = some d := by rw [suppOf_top hP]; rfl
  obtain ⟨k, hk⟩ := two_dvd_of ho
  have hk0 : 0 < k := by omega
  unfold CurveIterator.multiplicity fromBack
  rw [htop]
  simp only
  rw [if_neg (by omega), if_neg hp0, hrev, u32sub_of_le (show 1 ≤ q by omega), u32sub_of_le (show 1 ≤ d by omega),
    u32sub_of_le (show 2 ≤ d by omega), u32sub_of_le (show 3 ≤ d by omega)]
  by_cases hd : d % p = 0
  · rw [if_pos hd, if_pos hd, if_neg (by simp; omega), if_pos rfl]
    refine ⟨_, rfl, ?_, ?_⟩
    · rw [hk, show 2 * k * (2 * k) = k * k * 4 by ring, Nat.mul_div_cancel _ (by omega)]
      exact Nat.mul_pos hk0 hk0
    · rw [hk, show 2 * k * (2 * k) = k * k * 4 by ring, Nat.mul_div_cancel _ (by omega)]
      ring
  · rw [if_neg hd, if_neg hd, if_pos rfl]
    refine ⟨_, rfl, ?_, ?_⟩
    · rw [hk, show q * (2 * k) * (2 * k) = q * (k * k) * 4 by ring, Nat.mul_div_cancel _ (by omega)]
      exact Nat.mul_pos (by omega) (Nat.mul_pos hk0 hk0)
    · rw [hk, show q * (2 * k) * (2 * k) = q * (k * k) * 4 by ring, Nat.mul_div_cancel _ (by omega)]
      ring

theorem mult_rest (hp : p ≤ d) (hp0 : p ≠ 0) (hd3 : 3 ≤ d) (h1 : P (d - 1) = false)
    (h2 : P (d - 2) = false) :
    ∃ M, CurveIterator.multiplicity p q (suppOf P (d + 1)) = .ok M ∧ 0 < M ∧
      2 * M = (if d % p = 0 then 1 else q) * (q - 1) := by
  have htop : (suppOf P (d + 1)).reverse[0]? = some d := by rw [suppOf_top hP]; rfl
  unfold CurveIterator.multiplicity fromBack
  rw [htop]
  simp only
  rw [if_neg (by omega), if_neg hp0, u32sub_of_le (show 1 ≤ q by omega), u32sub_of_le (show 1 ≤ d by omega),
    u32sub_of_le (show 2 ≤ d by omega), u32sub_of_le (show 3 ≤ d by omega), if_neg (suppOf_not h1), if_neg (suppOf_not h2), if_neg (suppOf_not h2)]
  by_cases hd : d % p = 0
  · rw [if_pos hd, if_pos hd]
    exact ⟨_, rfl, by omega, by omega⟩
  · rw [if_neg hd, if_neg hd]
    exact ⟨_, rfl, half_pos hq ho hP, exact_half ho⟩

end
end Hycu
