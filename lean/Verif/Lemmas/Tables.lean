import Mathlib.Data.Nat.Digits.Lemmas
import Mathlib.Data.Fintype.EquivFin
import Mathlib.Data.List.Range
import Verif.Model.Tables
import Verif.Lemmas.Primitive

/-!
Lemmas on the table constructors.
-/

namespace Hycu

open Fintype

variable {F : Type} [Field F] [Fintype F] [DecidableEq F]

/-! ### Element table -/

omit [Fintype F] in
theorem fill_true (g : F) : ∀ (n m : Nat) (es : List F),
    (∀ j, m ≤ j → j < m + n → g ^ j ≠ 1) →
    FqElementTable.fill g 1 n (g ^ m) es =
      (true, g ^ (m + n), es ++ (List.range' m n).map (fun i => g ^ i))
  | 0, m, es, _ => by simp [FqElementTable.fill]
  | n + 1, m, es, h => by
    rw [FqElementTable.fill, if_neg (h m le_rfl (by omega)), ← pow_succ,
      fill_true g n (m + 1) _ (fun j h1 h2 => h j (by omega) (by omega))]
    simp [List.range'_succ, Nat.add_assoc, Nat.add_comm 1 n]

omit [Fintype F] in
theorem fill_false (g : F) : ∀ (n m : Nat) (es : List F),
    (∃ j, m ≤ j ∧ j < m + n ∧ g ^ j = 1) →
    ∃ es', FqElementTable.fill g 1 n (g ^ m) es = (false, 1, es')
  | 0, m, es, ⟨j, h1, h2, _⟩ => by omega
  | n + 1, m, es, ⟨j, h1, h2, h3⟩ => by
    rw [FqElementTable.fill]
    by_cases hm : g ^ m = 1
    · exact ⟨es, by rw [if_pos hm, hm]⟩
    · rw [if_neg hm, ← pow_succ]
      refine fill_false g n (m + 1) _ ⟨j, ?_, by omega, h3⟩
      rcases Nat.lt_or_eq_of_le h1 with h | h
      · omega
      · exact absurd (h ▸ h3) hm

theorem fill_primitive {g : F} (h : Primitive g) :
    FqElementTable.fill g 1 (card F - 1 - 1) (1 * g) [1] =
      (true, g ^ (card F - 1), (List.range (card F - 1)).map (fun i => g ^ i)) := by
  have hq := two_le_card (F := F)
  have h1 := fill_true g (card F - 1 - 1) 1 [1] (fun j h1 h2 he => by
    have := h.pow_inj (i := j) (j := 0) (by omega) (by omega) (by simpa using he)
    omega)
  rw [pow_one] at h1
  rw [one_mul, h1]
  obtain ⟨k, hk⟩ : ∃ k, card F - 1 = k + 1 := ⟨card F - 2, by omega⟩
  rw [hk, List.range_eq_range', List.range'_succ]
  simp [Nat.add_comm 1 k]

theorem fill_not_primitive {g : F} (h0 : g ≠ 0) (h : ¬ Primitive g) :
    ∃ es, FqElementTable.fill g 1 (card F - 1 - 1) (1 * g) [1] = (false, 1, es) := by
  have h1 := orderOf_pos' h0
  have h2 := orderOf_le h0
  have h3 : orderOf g ≠ card F - 1 := fun e => h ((primitive_iff_orderOf h0).2 e)
  have := fill_false g (card F - 1 - 1) 1 [1] ⟨orderOf g, by omega, by omega, pow_orderOf_eq_one g⟩
  rw [pow_one] at this
  rwa [one_mul]

theorem search_spec (cand : Nat → F) (k0 : Nat) (hp : Primitive (cand k0)) :
    ∀ (d k fuel : Nat), k + d = k0 → d < fuel → (∀ j, k ≤ j → j < k0 → cand j ≠ 0 ∧ ¬ Primitive (cand j)) →
      FqElementTable.search cand (card F - 1) fuel k 1 =
        .ok ((List.range (card F - 1)).map (fun i => cand k0 ^ i))
  | 0, k, fuel + 1, hk, _, _ => by
    obtain rfl : k = k0 := by omega
    rw [FqElementTable.search, fill_primitive hp]
  | d + 1, k, fuel + 1, hk, hf, hj => by
    obtain ⟨es, he⟩ := fill_not_primitive (hj k le_rfl (by omega)).1 (hj k le_rfl (by omega)).2
    rw [FqElementTable.search, he]
    exact search_spec cand k0 hp d (k + 1) fuel (by omega) (by omega) (fun j h1 h2 => hj j (by omega) h2)

theorem search_diverge (cand : Nat → F) (h : ∀ j, cand j ≠ 0 ∧ ¬ Primitive (cand j)) :
    ∀ (fuel k : Nat), FqElementTable.search cand (card F - 1) fuel k 1 = .diverge
  | 0, _ => rfl
  | fuel + 1, k => by
    obtain ⟨es, he⟩ := fill_not_primitive (h k).1 (h k).2
    rw [FqElementTable.search, he]
    exact search_diverge cand h fuel (k + 1)

/-! ### Coefficient sums -/

namespace FqRep

variable {p r : Nat} (rep : FqRep F p r)

include rep in
omit [DecidableEq F] in
theorem two_le : 2 ≤ p := rep.prime.two_le

omit [DecidableEq F] in
theorem coeff_zero {i : Nat} (hi : i < r) : rep.coeff 0 i = 0 := by
  have h := rep.coeff_add 0 0 i hi
  have h2 := rep.coeff_lt 0 i
  rw [add_zero] at h
  rcases lt_or_ge (rep.coeff 0 i + rep.coeff 0 i) p with h1 | h1
  · rw [Nat.mod_eq_of_lt h1] at h; omega
  · rw [Nat.mod_eq_sub_mod h1, Nat.mod_eq_of_lt (by omega)] at h; omega

/-- The digits of an element. -/
def digits (a : F) : List Nat := (List.range r).map (rep.coeff a)

omit [DecidableEq F] in
theorem digits_length (a : F) : (rep.digits a).length = r := by simp [digits]

omit [DecidableEq F] in
theorem digits_lt (a : F) : ∀ d ∈ rep.digits a, d < p := by
  intro d hd
  obtain ⟨i, _, rfl⟩ := List.mem_map.1 hd
  exact rep.coeff_lt a i

end FqRep

theorem horner_u32 {p : Nat} (hp : 2 ≤ p) : ∀ (D : List Nat), (∀ d ∈ D, d < p) →
    p ^ D.length ≤ 4294967296 →
    D.foldr (fun d s => u32 (u32 (s * p) + d)) 0 = Nat.ofDigits p D
  | [], _, _ => by simp
  | d :: D, hd, hl => by
    rw [List.length_cons, pow_succ] at hl
    have hpos : 0 < p ^ D.length := Nat.pow_pos (by omega)
    have ih := horner_u32 hp D (fun x hx => hd x (List.mem_cons_of_mem _ hx))
      (le_trans (Nat.le_mul_of_pos_right _ (by omega)) hl)
    have hlt : Nat.ofDigits p D < p ^ D.length :=
      Nat.ofDigits_lt_base_pow_length (by omega) (fun x hx => hd x (List.mem_cons_of_mem _ hx))
    have hd' := hd d (List.mem_cons_self)
    have h1 : Nat.ofDigits p D * p + d < p ^ D.length * p := by nlinarith
    rw [List.foldr_cons, ih, u32_of_lt (n := Nat.ofDigits p D * p) (by omega), u32_of_lt (by omega), Nat.ofDigits_cons]
    simp [Nat.mul_comm, Nat.add_comm]

namespace FqRep

variable {p r : Nat} (rep : FqRep F p r)

omit [DecidableEq F] in
theorem coeffSum_eq (hq : card F ≤ 4294967296) (a : F) :
    ReductionTable.coeffSum rep.coeff p r a = Nat.ofDigits p (rep.digits a) := by
  rw [← horner_u32 rep.two_le (rep.digits a) (rep.digits_lt a)
    (by rw [rep.digits_length, ← rep.card_eq]; exact hq)]
  unfold ReductionTable.coeffSum digits
  rw [List.foldl_reverse, List.foldr_map]

omit [DecidableEq F] in
theorem coeffSum_lt (hq : card F ≤ 4294967296) (a : F) :
    ReductionTable.coeffSum rep.coeff p r a < card F := by
  rw [rep.coeffSum_eq hq, rep.card_eq]
  have := Nat.ofDigits_lt_base_pow_length (b := p) (l := rep.digits a)
    (by have := rep.two_le; omega) (rep.digits_lt a)
  rwa [rep.digits_length] at this

omit [DecidableEq F] in
theorem coeffSum_inj (hq : card F ≤ 4294967296) {a b : F}
    (h : ReductionTable.coeffSum rep.coeff p r a = ReductionTable.coeffSum rep.coeff p r b) :
    a = b := by
  rw [rep.coeffSum_eq hq, rep.coeffSum_eq hq] at h
  have hd := Nat.ofDigits_inj_of_len_eq (b := p) (by have := rep.two_le; omega)
    (by rw [rep.digits_length, rep.digits_length]) (rep.digits_lt a) (rep.digits_lt b) h
  apply rep.coeff_ext
  intro i hi
  have := congrArg (fun l => l[i]?) hd
  simpa [digits, hi] using this

omit [DecidableEq F] in
theorem coeffSum_zero (hq : card F ≤ 4294967296) :
    ReductionTable.coeffSum rep.coeff p r 0 = 0 := by
  rw [rep.coeffSum_eq hq]
  have : rep.digits 0 = List.replicate r 0 := by
    apply List.ext_getElem
    · simp [digits]
    · intro i h1 h2
      simp only [digits, List.length_map, List.length_range] at h1
      simp [digits, rep.coeff_zero h1]
  rw [this]
  clear this
  induction r with
  | zero => simp
  | succ n ih => simp [List.replicate_succ, Nat.ofDigits_cons, Nat.ofDigits_replicate_zero]

/-- The successor used by the table: add one to the last base `p` digit. -/
def nxt (p s : Nat) : Nat := if s % p = p - 1 then s - (p - 1) else s + 1

omit [DecidableEq F] in
theorem coeffSum_add_one (hq : card F ≤ 4294967296) (a : F) :
    ReductionTable.coeffSum rep.coeff p r (a + 1) =
      nxt p (ReductionTable.coeffSum rep.coeff p r a) := by
  have h2 := rep.two_le
  rw [rep.coeffSum_eq hq, rep.coeffSum_eq hq]
  obtain ⟨k, rfl⟩ : ∃ k, r = k + 1 := ⟨r - 1, by have := rep.pos; omega⟩
  have htail : (List.range k).map (fun i => rep.coeff (a + 1) (i + 1)) =
      (List.range k).map (fun i => rep.coeff a (i + 1)) := by
    apply List.map_congr_left
    intro i hi
    have hi' := List.mem_range.1 hi
    rw [rep.coeff_add _ _ _ (by omega), rep.coeff_one _ (by omega), if_neg (by omega), Nat.add_zero,
      Nat.mod_eq_of_lt (rep.coeff_lt _ _)]
  have hdig : ∀ b : F, rep.digits b = rep.coeff b 0 :: (List.range k).map (fun i => rep.coeff b (i + 1)) := by
    intro b
    simp [digits, List.range_succ_eq_map, Function.comp_def]
  rw [hdig, hdig, htail, Nat.ofDigits_cons, Nat.ofDigits_cons, rep.coeff_add _ _ _ (by omega),
    rep.coeff_one _ (by omega), if_pos rfl]
  generalize hT : Nat.ofDigits p ((List.range k).map fun i => rep.coeff a (i + 1)) = T
  have hc := rep.coeff_lt a 0
  generalize rep.coeff a 0 = c at *
  have hmod : (c + p * T) % p = c := by rw [Nat.add_mul_mod_self_left, Nat.mod_eq_of_lt hc]
  unfold nxt
  rw [hmod]
  split
  · rename_i h
    rw [h, Nat.sub_add_cancel (by omega), Nat.mod_self]; omega
  · rw [Nat.mod_eq_of_lt (by omega)]; omega

omit [DecidableEq F] in
theorem coeffSum_surj (hq : card F ≤ 4294967296) {s : Nat} (hs : s < card F) :
    ∃ a, ReductionTable.coeffSum rep.coeff p r a = s := by
  have hinj : Function.Injective (fun a : F => (⟨_, rep.coeffSum_lt hq a⟩ : Fin (card F))) := by
    intro a b hab
    exact rep.coeffSum_inj hq (by simpa using hab)
  obtain ⟨a, ha⟩ := ((Fintype.bijective_iff_injective_and_card _).2 ⟨hinj, by simp⟩).2 ⟨s, hs⟩
  exact ⟨a, by simpa using ha⟩

end FqRep

/-! ### Search for the generator in the reduction table -/

section Powers
variable (sum : F → Nat) (hinj : ∀ a b, sum a = sum b → a = b) (h0 : sum 0 = 0)

/-- State of `gen_powers` after the powers `g^0 .. g^(ix-1)`. -/
def PowState (g : F) (ix : Nat) (m : OMap Nat Nat) : Prop :=
  OMap.Sorted m ∧ ∀ s v, m.find? s = some v ↔
    (s = 0 ∧ v = card F - 1) ∨ (v < ix ∧ s = sum (g ^ v))

include hinj h0 in
omit [DecidableEq F] in
theorem fillPowers_primitive {g : F} (hg : Primitive g) : ∀ (n ix : Nat) (m : OMap Nat Nat),
    ix + n ≤ card F - 1 → PowState sum g ix m →
    ∃ m', ReductionTable.fillPowers sum g n ix (g ^ ix) m = (true, m') ∧ PowState sum g (ix + n) m'
  | 0, ix, m, _, hm => ⟨m, rfl, by simpa using hm⟩
  | n + 1, ix, m, hle, hm => by
    have hnot : m.find? (sum (g ^ ix)) = none := by
      rcases hf : m.find? (sum (g ^ ix)) with _ | v
      · rfl
      · rcases (hm.2 _ _).1 hf with ⟨h1, _⟩ | ⟨h1, h2⟩
        · rw [← h0] at h1
          exact absurd (hinj _ _ h1) (pow_ne_zero _ hg.1)
        · have := hg.pow_inj (by omega) (by omega) (hinj _ _ h2)
          omega
    have hst : PowState sum g (ix + 1) (m.set (sum (g ^ ix)) ix) := by
      refine ⟨OMap.sorted_set hm.1 _ _, fun s v => ?_⟩
      rw [OMap.find?_set hm.1]
      split
      · rename_i he
        subst he
        constructor
        · intro h
          have h := (Option.some.inj h).symm
          subst h
          exact Or.inr ⟨by omega, rfl⟩
        · rintro (⟨h1, _⟩ | ⟨h1, h2⟩)
          · rw [← h0] at h1
            exact absurd (hinj _ _ h1) (pow_ne_zero _ hg.1)
          · rw [hg.pow_inj (by omega) (by omega) (hinj _ _ h2)]
      · rename_i he
        rw [hm.2]
        constructor
        · rintro (h | ⟨h1, h2⟩)
          · exact Or.inl h
          · exact Or.inr ⟨by omega, h2⟩
        · rintro (h | ⟨h1, h2⟩)
          · exact Or.inl h
          · refine Or.inr ⟨?_, h2⟩
            rcases Nat.lt_or_eq_of_le (Nat.le_of_lt_succ h1) with h | h
            · exact h
            · exact absurd (by rw [h2, h]) he
    obtain ⟨m', h1, h2⟩ := fillPowers_primitive hg n (ix + 1) _ (by omega) hst
    refine ⟨m', ?_, by rwa [Nat.add_assoc, Nat.add_comm 1 n] at h2⟩
    rw [ReductionTable.fillPowers, if_neg (by simp [OMap.contains, hnot]), ← pow_succ, h1]

omit [Fintype F] [DecidableEq F] in
theorem fillPowers_false (g : F) : ∀ (n ix : Nat) (m : OMap Nat Nat), OMap.Sorted m →
    (∃ o, ix ≤ o ∧ o < ix + n ∧ m.contains (sum (g ^ o)) = true) →
    ∃ m', ReductionTable.fillPowers sum g n ix (g ^ ix) m = (false, m')
  | 0, ix, m, _, ⟨o, h1, h2, _⟩ => by omega
  | n + 1, ix, m, hm, ⟨o, h1, h2, h3⟩ => by
    rw [ReductionTable.fillPowers]
    by_cases hc : m.contains (sum (g ^ ix)) = true
    · exact ⟨m, if_pos hc⟩
    · rw [if_neg hc, ← pow_succ]
      refine fillPowers_false g n (ix + 1) _ (OMap.sorted_set hm _ _) ⟨o, ?_, by omega, ?_⟩
      · rcases Nat.lt_or_eq_of_le h1 with h | h
        · omega
        · exact absurd (h ▸ h3) hc
      · unfold OMap.contains at h3 ⊢
        rw [OMap.find?_set hm]
        split
        · rfl
        · exact h3

omit [DecidableEq F] in
include hinj h0 in
theorem fillPowers_not_primitive (hq : 2 < card F) {g : F} (h : ¬ Primitive g) :
    ∃ m', ReductionTable.fillPowers sum g (card F - 1) 0 1 (OMap.set [] 0 (card F - 1)) =
      (false, m') := by
  obtain ⟨k, hk⟩ : ∃ k, card F - 1 = k + 1 := ⟨card F - 2, by omega⟩
  have hs : OMap.Sorted (OMap.set ([] : OMap Nat Nat) 0 (card F - 1)) :=
    OMap.sorted_set OMap.sorted_nil _ _
  have h1 : sum 1 ≠ 0 := fun e => one_ne_zero (hinj 1 0 (by rw [e, h0]))
  conv => enter [1, m']; rw [hk]
  rw [ReductionTable.fillPowers, if_neg, one_mul]
  · have hrej := fillPowers_false sum g k 1
      (OMap.set (OMap.set [] 0 (k + 1)) (sum 1) 0) (OMap.sorted_set (hk ▸ hs) _ _)
    rw [pow_one] at hrej
    apply hrej
    by_cases hg : g = 0
    · refine ⟨1, le_rfl, by omega, ?_⟩
      rw [hg, pow_one, h0]
      unfold OMap.contains
      rw [OMap.find?_set_of_ne (hk ▸ hs) h1.symm, OMap.find?_set_self OMap.sorted_nil]
      rfl
    · have h2 := orderOf_pos' hg
      have h3 := orderOf_le hg
      have h4 : orderOf g ≠ card F - 1 := fun e => h ((primitive_iff_orderOf hg).2 e)
      refine ⟨orderOf g, by omega, by omega, ?_⟩
      rw [pow_orderOf_eq_one]
      unfold OMap.contains
      rw [OMap.find?_set_self (hk ▸ hs)]
      rfl
  · unfold OMap.contains
    rw [OMap.find?_set_of_ne OMap.sorted_nil h1]
    simp [OMap.find?]

omit [DecidableEq F] in
include hinj h0 in
theorem searchPowers_spec (hq : 2 < card F) (cand : Nat → F) (k0 : Nat) (hp : Primitive (cand k0)) :
    ∀ (d k fuel : Nat), k + d = k0 → d < fuel → (∀ j, k ≤ j → j < k0 → ¬ Primitive (cand j)) →
      ∃ m, ReductionTable.searchPowers sum cand (card F - 1) fuel k = .ok m ∧
        OMap.Sorted m ∧ ∀ i, i < card F → m.find? (sum (eltOf (cand k0) (card F) i)) = some i
  | 0, k, fuel + 1, hk, _, _ => by
    obtain rfl : k = k0 := by omega
    have hinit : PowState sum (cand k) 0 (OMap.set [] 0 (card F - 1)) := by
      refine ⟨OMap.sorted_set OMap.sorted_nil _ _, fun s v => ?_⟩
      rw [OMap.find?_set OMap.sorted_nil]
      split
      · rename_i he; simp [he, eq_comm]
      · rename_i he; simp [he, OMap.find?]
    obtain ⟨m, h1, h2⟩ := fillPowers_primitive sum hinj h0 hp (card F - 1) 0 _ (by omega) hinit
    rw [pow_zero] at h1
    refine ⟨m, by rw [ReductionTable.searchPowers, h1], h2.1, fun i hi => ?_⟩
    rw [h2.2]
    unfold eltOf
    split
    · rename_i he; exact Or.inl ⟨h0, he⟩
    · exact Or.inr ⟨by omega, rfl⟩
  | d + 1, k, fuel + 1, hk, hf, hj => by
    obtain ⟨m, he⟩ := fillPowers_not_primitive sum hinj h0 hq (hj k le_rfl (by omega))
    rw [ReductionTable.searchPowers, he]
    exact searchPowers_spec hq cand k0 hp d (k + 1) fuel (by omega) (by omega)
      (fun j h1 h2 => hj j (by omega) h2)

omit [DecidableEq F] in
include hinj h0 in
theorem searchPowers_diverge (hq : 2 < card F) (cand : Nat → F) (h : ∀ j, ¬ Primitive (cand j)) :
    ∀ (fuel k : Nat), ReductionTable.searchPowers sum cand (card F - 1) fuel k = .diverge
  | 0, _ => rfl
  | fuel + 1, k => by
    obtain ⟨m, he⟩ := fillPowers_not_primitive sum hinj h0 hq (h k)
    rw [ReductionTable.searchPowers, he]
    exact searchPowers_diverge hq cand h fuel (k + 1)

end Powers

/-! ### Filling the incrementation table -/

theorem incPairs_eq {p Q : Nat} (hp : 2 ≤ p) (hQ : 0 < Q) :
    ReductionTable.incPairs p (p * Q) = (List.range (p * Q)).map (fun s => (s, FqRep.nxt p s)) := by
  have hdiv : (p * Q - 1 + (p - 1)) / p = Q := by
    have h1 : 0 < p * Q := Nat.mul_pos (by omega) hQ
    have h2 : p * Q - 1 + (p - 1) = p - 2 + p * Q := by omega
    rw [h2, Nat.add_mul_div_left _ _ (by omega), Nat.div_eq_of_lt (by omega)]
    omega
  unfold ReductionTable.incPairs
  rw [hdiv]
  clear hdiv hQ
  induction Q with
  | zero => simp
  | succ Q ih =>
    rw [List.range_succ, List.flatMap_append, ih, Nat.mul_succ, List.range_add, List.map_append]
    congr 1
    obtain ⟨t, rfl⟩ : ∃ t, p = t + 1 := ⟨p - 1, by omega⟩
    simp only [List.flatMap_cons, List.flatMap_nil, List.append_nil, List.map_map,
      Nat.add_sub_cancel, List.range_succ, List.map_append, List.map_cons, List.map_nil]
    have hmod : ∀ j, j < t + 1 → ((t + 1) * Q + j) % (t + 1) = j := by
      intro j hj
      rw [Nat.add_comm, Nat.add_mul_mod_self_left, Nat.mod_eq_of_lt hj]
    congr 1
    · apply List.map_congr_left
      intro j hj
      have hj' := List.mem_range.1 hj
      simp only [Function.comp, FqRep.nxt, Nat.mul_comm Q]
      rw [hmod j (by omega), if_neg (by omega)]
    · simp only [FqRep.nxt]
      rw [hmod t (by omega), if_pos (by omega), Nat.mul_comm Q]
      simp

theorem primePowerOf_lt {p r : Nat} (h : p ^ r < 4294967296) : primePowerOf p r = .ok (p ^ r) := if_pos h

theorem primePowerOf_ge {p r : Nat} (h : 4294967296 ≤ p ^ r) : primePowerOf p r = .ub := if_neg (by omega)

theorem primePowerOf_ok {p r q : Nat} (h : primePowerOf p r = .ok q) : p ^ r < 4294967296 ∧ q = p ^ r := by
  unfold primePowerOf at h
  split at h
  · exact ⟨by assumption, (Res.ok.inj h).symm⟩
  · cases h

/-- An index that has become negative ends the program. -/
theorem foldlM_setAtInt_abort (f h : Nat → Nat) : ∀ (l v : List Nat), (∃ s ∈ l, 2147483648 ≤ f s) →
    l.foldlM (fun v s => ReductionTable.setAtInt v (f s) (h s)) v = .abort
  | [], _, ⟨_, hs, _⟩ => absurd hs List.not_mem_nil
  | s :: l, v, ⟨t, ht, hf⟩ => by
    rw [List.foldlM_cons]
    by_cases h1 : f s < 2147483648
    · have htl : t ∈ l := by
        rcases List.mem_cons.1 ht with rfl | h2
        · omega
        · exact h2
      rw [ReductionTable.setAtInt, if_pos h1, ReductionTable.setAt]
      split
      · exact foldlM_setAtInt_abort f h l _ ⟨t, htl, hf⟩
      · rfl
    · rw [ReductionTable.setAtInt, if_neg h1]
      rfl

theorem foldlM_setAt (f h : Nat → Nat) (v : List Nat) (hv : v.length ≤ 2147483648) : ∀ n, (∀ s, s < n → f s < v.length) →
    (∀ s t, s < n → t < n → f s = f t → s = t) →
    ∃ v', (List.range n).foldlM (fun v s => ReductionTable.setAtInt v (f s) (h s)) v = .ok v' ∧
      v'.length = v.length ∧ ∀ s, s < n → v'[f s]? = some (h s)
  | 0, _, _ => ⟨v, rfl, rfl, by intro s hs; omega⟩
  | n + 1, hf, hi => by
    obtain ⟨v', h1, h2, h3⟩ := foldlM_setAt f h v hv n (fun s hs => hf s (by omega))
      (fun s t hs ht => hi s t (by omega) (by omega))
    refine ⟨v'.set (f n) (h n), ?_, by simp [h2], fun s hs => ?_⟩
    · rw [List.range_succ, List.foldlM_append, h1]
      have := hf n (by omega)
      have h4 : f n < 2147483648 := by omega
      simp [ReductionTable.setAtInt, ReductionTable.setAt, h2, this, h4]
    · rw [List.getElem?_set]
      rcases Nat.lt_or_eq_of_le (Nat.le_of_lt_succ hs) with hlt | rfl
      · have hne : f n ≠ f s := fun e => by have := hi n s (by omega) hs e; omega
        rw [if_neg hne, h3 s hlt]
      · rw [if_pos rfl, if_pos (by rw [h2]; exact hf s hs)]

omit [DecidableEq F] in
/-- What the search has found: the map from codes of elements to indices. -/
theorem searchPowers_codes {p r : Nat} (rep : FqRep F p r) (hq2 : 2 < card F)
    (hq : card F ≤ 4294967296) (cand : Nat → F) (k0 : Nat) (hp : Primitive (cand k0))
    (hj : ∀ j, j < k0 → ¬ Primitive (cand j)) {fuel : Nat} (hf : k0 < fuel) :
    ∃ m, ReductionTable.searchPowers (ReductionTable.coeffSum rep.coeff p r) cand (p ^ r - 1) fuel 0 = .ok m ∧
      (∀ i, i < card F → ReductionTable.lookup m (ReductionTable.coeffSum rep.coeff p r (eltOf (cand k0) (card F) i)) = i) ∧
      (∀ s, s < card F → ∃ i, i < card F ∧ ReductionTable.coeffSum rep.coeff p r (eltOf (cand k0) (card F) i) = s ∧
        ReductionTable.lookup m s = i) ∧
      ReductionTable.incPairs p (card F) = (List.range (card F)).map (fun s => (s, FqRep.nxt p s)) := by
  obtain ⟨m, h1, hs, hm⟩ := searchPowers_spec (ReductionTable.coeffSum rep.coeff p r)
    (fun a b h => rep.coeffSum_inj hq h) (rep.coeffSum_zero hq) hq2 cand k0 hp k0 0 fuel (by omega) hf
    (fun j _ h => hj j h)
  have hl : ∀ i, i < card F →
      ReductionTable.lookup m (ReductionTable.coeffSum rep.coeff p r (eltOf (cand k0) (card F) i)) = i := by
    intro i hi
    rw [ReductionTable.lookup, hm i hi]
  refine ⟨m, by rw [← rep.card_eq]; exact h1, hl, fun s hs => ?_, ?_⟩
  · obtain ⟨a, rfl⟩ := rep.coeffSum_surj hq hs
    obtain ⟨i, hi, rfl⟩ := hp.eltOf_surj a
    exact ⟨i, hi, rfl, hl i hi⟩
  · have hpq : card F = p * p ^ (r - 1) := by
      rw [rep.card_eq, ← pow_succ', Nat.sub_add_cancel rep.pos]
    rw [hpq]
    exact incPairs_eq rep.two_le (Nat.pow_pos (by have := rep.two_le; omega))

omit [DecidableEq F] in
theorem computeIncrementationTable_spec {p r : Nat} (rep : FqRep F p r) (hq2 : 2 < card F)
    (hq : card F ≤ 2147483648) (cand : Nat → F) (k0 : Nat) (hp : Primitive (cand k0))
    (hj : ∀ j, j < k0 → ¬ Primitive (cand j)) {fuel : Nat} (hf : k0 < fuel) :
    ∃ v, ReductionTable.computeIncrementationTable rep.coeff cand p r (p ^ r) fuel = .ok v ∧
      v.length = card F ∧ ∀ i, i < card F → ∃ j, j < card F ∧ v[i]? = some j ∧
        eltOf (cand k0) (card F) j = 1 + eltOf (cand k0) (card F) i := by
  have hq' : card F ≤ 4294967296 := by omega
  obtain ⟨m, h1, hm, hcode, hpairs⟩ := searchPowers_codes rep hq2 hq' cand k0 hp hj hf
  set sum := ReductionTable.coeffSum rep.coeff p r with hsum
  obtain ⟨v, hv1, hv2, hv3⟩ := foldlM_setAt (ReductionTable.lookup m)
    (fun s => ReductionTable.lookup m (FqRep.nxt p s)) ((List.replicate (card F) 0).set (card F - 1) 0)
    (by simpa using hq) (card F)
    (by
      intro s hs
      obtain ⟨i, h1, _, h3⟩ := hcode s hs
      simpa [h3] using h1)
    (by
      intro s t hs ht he
      obtain ⟨i, _, h2, h3⟩ := hcode s hs
      obtain ⟨j, _, h5, h6⟩ := hcode t ht
      rw [h3, h6] at he
      rw [← h2, ← h5, he])
  refine ⟨v, ?_, by simpa using hv2, fun i hi => ?_⟩
  · unfold ReductionTable.computeIncrementationTable
    rw [← hsum, h1, ← rep.card_eq]
    rw [hpairs, Res.bind_ok, ReductionTable.setAt, if_pos (by simp; omega), Res.bind_ok,
      List.foldlM_map]
    exact hv1
  · obtain ⟨j, hj1, hj2⟩ := hp.eltOf_surj (eltOf (cand k0) (card F) i + 1)
    refine ⟨j, hj1, ?_, by rw [hj2, add_comm]⟩
    have := hv3 (sum (eltOf (cand k0) (card F) i)) (rep.coeffSum_lt hq' _)
    rw [hm i hi] at this
    rw [this, ← rep.coeffSum_add_one hq', ← hsum, ← hj2, hm j hj1]

omit [DecidableEq F] in
/-- With more than `2^31` elements the index of zero does not fit. -/
theorem computeIncrementationTable_large {p r : Nat} (rep : FqRep F p r) (hq2 : 2147483648 < card F)
    (hq : card F ≤ 4294967296) (cand : Nat → F) (k0 : Nat) (hp : Primitive (cand k0))
    (hj : ∀ j, j < k0 → ¬ Primitive (cand j)) {fuel : Nat} (hf : k0 < fuel) :
    ReductionTable.computeIncrementationTable rep.coeff cand p r (p ^ r) fuel = .abort := by
  obtain ⟨m, h1, hm, hcode, hpairs⟩ := searchPowers_codes rep (by omega) hq cand k0 hp hj hf
  unfold ReductionTable.computeIncrementationTable
  rw [h1, ← rep.card_eq]
  rw [hpairs, Res.bind_ok, ReductionTable.setAt, if_pos (by simp; omega), Res.bind_ok, List.foldlM_map]
  refine foldlM_setAtInt_abort (ReductionTable.lookup m) (fun s => ReductionTable.lookup m (FqRep.nxt p s)) _ _
    ⟨ReductionTable.coeffSum rep.coeff p r (eltOf (cand k0) (card F) (card F - 1)),
      List.mem_range.2 (rep.coeffSum_lt hq _), ?_⟩
  rw [hm _ (by omega)]
  omega

omit [DecidableEq F] in
theorem exponentReductionTable_get {q i : Nat} (hi : i < 2 * (q - 1)) :
    (ReductionTable.computeExponentReductionTable q)[i]? = some (i % (q - 1)) := by
  have : ReductionTable.computeExponentReductionTable q = List.range (q - 1) ++ List.range (q - 1) := by
    simp [ReductionTable.computeExponentReductionTable, List.range_succ]
  rw [this, List.getElem?_append]
  simp only [List.length_range]
  split
  · rename_i h; simp [h, Nat.mod_eq_of_lt]
  · rename_i h
    rw [List.getElem?_range (by omega), Nat.mod_eq_sub_mod (by omega), Nat.mod_eq_of_lt (by omega)]

theorem exponentReductionTable_length (q : Nat) :
    (ReductionTable.computeExponentReductionTable q).length = 2 * (q - 1) := by
  simp [ReductionTable.computeExponentReductionTable, List.range_succ]; omega

end Hycu
