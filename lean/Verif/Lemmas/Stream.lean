import Verif.Cpp.Stream
import Mathlib.Data.List.Basic

/-!
Reading back printed integers.
-/

namespace Hycu

theorem digitChar_cases {n : Nat} (h : n < 10) : (digitChar n).toNat = 48 + n := by
  have : n = 0 ∨ n = 1 ∨ n = 2 ∨ n = 3 ∨ n = 4 ∨ n = 5 ∨ n = 6 ∨ n = 7 ∨ n = 8 ∨ n = 9 := by omega
  rcases this with h | h | h | h | h | h | h | h | h | h <;> subst h <;> decide

theorem isDigit_digitChar {n : Nat} (h : n < 10) : isDigit (digitChar n) = true := by
  unfold isDigit
  rw [digitChar_cases h]
  simp
  omega

theorem isSpace_of_isDigit {c : Char} (h : isDigit c = true) : isSpace c = false := by
  by_contra hs
  simp only [isSpace, Bool.not_eq_false, Bool.or_eq_true, decide_eq_true_eq] at hs
  rcases hs with ((((rfl | rfl) | rfl) | rfl) | rfl) | rfl <;> exact absurd h (by decide)

theorem ne_of_isDigit {c : Char} (h : isDigit c = true) : ∀ d, isDigit d = false → c ≠ d := by
  rintro d hd rfl
  rw [h] at hd
  exact absurd hd (by simp)

theorem digitsVal_snoc (l : List Char) (c : Char) : digitsVal (l ++ [c]) = 10 * digitsVal l + (c.toNat - 48) := by
  simp [digitsVal, List.foldl_append]

theorem showAux_spec : ∀ fuel n, n < fuel → showAux fuel n ≠ [] ∧ (∀ c ∈ showAux fuel n, isDigit c = true) ∧
    digitsVal (showAux fuel n) = n
  | 0, _, h => absurd h (by omega)
  | fuel + 1, n, h => by
    unfold showAux
    split
    · rename_i hn
      refine ⟨by simp, ?_, ?_⟩
      · intro c hc
        rw [List.mem_singleton] at hc
        rw [hc]
        exact isDigit_digitChar hn
      · simp [digitsVal, digitChar_cases hn]
    · obtain ⟨h1, h2, h3⟩ := showAux_spec fuel (n / 10) (by omega)
      refine ⟨by simp, ?_, ?_⟩
      · intro c hc
        rw [List.mem_append, List.mem_singleton] at hc
        rcases hc with hc | rfl
        · exact h2 c hc
        · exact isDigit_digitChar (Nat.mod_lt _ (by omega))
      · rw [digitsVal_snoc, h3, digitChar_cases (Nat.mod_lt _ (by omega))]
        omega

theorem showNat_ne (n : Nat) : showNat n ≠ [] := (showAux_spec (n + 1) n (by omega)).1

theorem showNat_digit (n : Nat) : ∀ c ∈ showNat n, isDigit c = true := (showAux_spec (n + 1) n (by omega)).2.1

theorem showNat_val (n : Nat) : digitsVal (showNat n) = n := (showAux_spec (n + 1) n (by omega)).2.2

/-- The characters of a printed integer. -/
theorem showInt_char {z : Int} {c : Char} (h : c ∈ showInt z) : c = '-' ∨ isDigit c = true := by
  unfold showInt at h
  split at h
  · rcases List.mem_cons.1 h with h | h
    · exact Or.inl h
    · exact Or.inr (showNat_digit _ c h)
  · exact Or.inr (showNat_digit _ c h)

theorem showInt_ne (z : Int) : showInt z ≠ [] := by
  unfold showInt
  split
  · simp
  · exact showNat_ne _

theorem takeWhile_append_stop {α : Type} {p : α → Bool} {l r : List α} (hl : ∀ c ∈ l, p c = true)
    (hr : ∀ c ∈ r.head?, p c = false) : (l ++ r).takeWhile p = l ∧ (l ++ r).dropWhile p = r := by
  induction l with
  | nil =>
    cases r with
    | nil => simp
    | cons c r =>
      have := hr c (by simp)
      simp [this]
  | cons c l ih =>
    have h1 := hl c (by simp)
    have h2 := ih fun d hd => hl d (by simp [hd])
    simp [h1, h2.1, h2.2]

theorem showNat_head (n : Nat) : ∃ c l, showNat n = c :: l ∧ isDigit c = true := by
  cases h : showNat n with
  | nil => exact absurd h (showNat_ne n)
  | cons c l => exact ⟨c, l, rfl, showNat_digit n c (by rw [h]; simp)⟩

namespace IStream

/-- The characters after white space and a sign, for a printed integer. -/
theorem sign_showInt (z : Int) (t : List Char) :
    sign (showInt z ++ t) = (decide (z < 0), showNat z.natAbs ++ t) := by
  unfold showInt
  by_cases hz : z < 0
  · rw [if_pos hz]
    simp [sign, hz]
  · rw [if_neg hz]
    obtain ⟨c, l, h1, h2⟩ := showNat_head z.natAbs
    have e1 : c ≠ '-' := ne_of_isDigit h2 _ (by decide)
    have e2 : c ≠ '+' := ne_of_isDigit h2 _ (by decide)
    rw [h1, List.cons_append]
    unfold sign
    split
    · rename_i h; injection h with h _; exact absurd h e1
    · rename_i h; injection h with h _; exact absurd h e2
    · simp [hz]

theorem isSpace_showInt (z : Int) (t : List Char) : (showInt z ++ t).dropWhile isSpace = showInt z ++ t := by
  cases h : showInt z with
  | nil => exact absurd h (showInt_ne z)
  | cons c l =>
    have : isSpace c = false := by
      rcases showInt_char (z := z) (c := c) (by rw [h]; simp) with rfl | h
      · decide
      · exact isSpace_of_isDigit h
    simp [this]

/-- Reading a printed `int` that is preceded by white space and not followed by a digit. -/
theorem readInt_show {z : Int} (h1 : -2147483648 ≤ z) (h2 : z ≤ 2147483647) (sp t : List Char)
    (hsp : ∀ c ∈ sp, isSpace c = true) (ht : ∀ c ∈ t.head?, isDigit c = false) (v : Option Int) :
    (⟨sp ++ (showInt z ++ t), false, false⟩ : IStream).readInt v = (⟨t, t.isEmpty, false⟩, some z) := by
  have hd : (sp ++ (showInt z ++ t)).dropWhile isSpace = showInt z ++ t := by
    rw [List.dropWhile_append_of_pos hsp, isSpace_showInt]
  obtain ⟨e1, e2⟩ := takeWhile_append_stop (showNat_digit z.natAbs) ht
  unfold readInt
  simp only [good, Bool.not_false, Bool.and_self, Bool.not_true, Bool.false_eq_true, if_false, hd]
  cases hs : showInt z ++ t with
  | nil => exact absurd (List.append_eq_nil_iff.1 hs).1 (showInt_ne z)
  | cons c l =>
    simp only
    rw [← hs, sign_showInt]
    simp only [e1, e2]
    rw [if_neg (by simp [showNat_ne]), showNat_val]
    have hz : (if decide (z < 0) = true then -((z.natAbs : Nat) : Int) else ((z.natAbs : Nat) : Int)) = z := by
      split
      · rename_i h; simp at h; omega
      · rename_i h; simp at h; omega
    have hc : clamp z = z := by
      unfold clamp
      rw [if_neg (by omega), if_neg (by omega)]
    rw [hz, hc]
    simp

theorem showInt_ofNat (n : Nat) : showInt (n : Int) = showNat n := by
  unfold showInt
  rw [if_neg (by omega)]
  simp

/-- `getline` on a string that contains the delimiter. -/
theorem getline_delim {l t : List Char} {d : Char} (h : ∀ c ∈ l, c ≠ d) (old : List Char) :
    (⟨l ++ d :: t, false, false⟩ : IStream).getline d old = (⟨t, false, false⟩, l) := by
  obtain ⟨e1, e2⟩ := takeWhile_append_stop (p := fun c => decide (c ≠ d)) (l := l) (r := d :: t)
    (fun c hc => by simpa using h c hc) (by simp)
  unfold getline
  simp only [good, Bool.not_false, Bool.and_self, Bool.not_true, Bool.false_eq_true, if_false, e1, e2]

/-- `getline` on a string without the delimiter. -/
theorem getline_end {l : List Char} {d : Char} (h : ∀ c ∈ l, c ≠ d) (old : List Char) :
    (⟨l, false, false⟩ : IStream).getline d old = (⟨[], true, l.isEmpty⟩, l) := by
  obtain ⟨e1, e2⟩ := takeWhile_append_stop (p := fun c => decide (c ≠ d)) (l := l) (r := [])
    (fun c hc => by simpa using h c hc) (by simp)
  rw [List.append_nil] at e1 e2
  unfold getline
  simp only [good, Bool.not_false, Bool.and_self, Bool.not_true, Bool.false_eq_true, if_false, e2]

end IStream

theorem gmpDigits_show (n : Nat) : gmpDigits (showNat n) = some n := by
  obtain ⟨c, l, h1, h2⟩ := showNat_head n
  have hf : (showNat n).filter (fun c => !isSpace c) = showNat n :=
    List.filter_eq_self.2 fun c hc => by simp [isSpace_of_isDigit (showNat_digit n c hc)]
  unfold gmpDigits
  rw [h1]
  simp only
  rw [← h1, if_pos h2, hf, if_pos (List.all_eq_true.2 (showNat_digit n)), showNat_val]

/-- FLINT reads back what it printed. -/
theorem fmpzOfString_show (z : Int) : fmpzOfString (showInt z) = z := by
  unfold fmpzOfString
  have h0 : (showInt z).takeWhile (fun c => decide (c ≠ '\x00')) = showInt z := by
    have h := (takeWhile_append_stop (p := fun c => decide (c ≠ '\x00')) (l := showInt z) (r := []) (by
      intro c hc
      rcases showInt_char hc with rfl | h
      · decide
      · simpa using ne_of_isDigit h '\x00' (by decide)) (by simp)).1
    rwa [List.append_nil] at h
  have h1 : (showInt z).dropWhile isSpace = showInt z := by
    have := IStream.isSpace_showInt z []
    rwa [List.append_nil] at this
  rw [h0, h1]
  unfold showInt
  by_cases hz : z < 0
  · rw [if_pos hz]
    simp only [gmpDigits_show]
    omega
  · rw [if_neg hz]
    obtain ⟨c, l, h2, h3⟩ := showNat_head z.natAbs
    have e1 : c ≠ '-' := ne_of_isDigit h3 _ (by decide)
    have e2 := gmpDigits_show z.natAbs
    rw [h2] at e2 ⊢
    split
    · rename_i h; injection h with h _; exact absurd h e1
    · rw [e2]
      simp only
      omega

end Hycu
