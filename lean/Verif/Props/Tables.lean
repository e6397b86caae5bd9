import Mathlib.Data.ZMod.Basic
import Mathlib.Algebra.Field.ZMod
import Verif.Lemmas.Tables
import Verif.Lemmas.RepExists
import Mathlib.FieldTheory.Finite.GaloisField

/-!
Properties C12–C15 and C48: the field element table and the reduction table.
-/

namespace Hycu

open Fintype

variable {F : Type} [Field F] [Fintype F] [DecidableEq F]

/-- C12: if no candidate before the first primitive one is zero, the constructor ends, index `i < q` holds
`g^i` (zero for `i = q - 1`), and every field element is at exactly one index.  The number of elements has to fit into
`unsigned int`. -/
theorem C12_element_table {p r : Nat} (hcard : card F = p ^ r) (hfit : card F < 4294967296) (cand : Nat → F) (k : Nat)
    (hk : FirstPrimitive cand k) (h0 : ∀ j, j < k → cand j ≠ 0) :
    ∃ t, Terminates (FqElementTable.make cand p r) t ∧
      t.prime = p ∧ t.primeExponent = r ∧ t.primePower = card F ∧ t.zeroIndex = card F - 1 ∧
      t.fqElements.length = card F ∧
      (∀ i, i < card F → t.at' i = .ok (if i = card F - 1 then 0 else cand k ^ i)) ∧
      (∀ x : F, ∃! i, i < card F ∧ t.at' i = .ok x) := by
  have hq := two_le_card (F := F)
  have hget : ∀ i, i < card F →
      rd ((List.range (card F - 1)).map (fun i => cand k ^ i) ++ [0]) i =
        .ok (if i = card F - 1 then 0 else cand k ^ i) := by
    intro i hi
    rw [rd_eq_ok, List.getElem?_append]
    by_cases h : i = card F - 1
    · simp [h]
    · rw [if_pos (by simp; omega), if_neg h, List.getElem?_map, List.getElem?_range (by omega)]
      rfl
  refine ⟨{ prime := p, primeExponent := r, primePower := p ^ r, primePowerPred := p ^ r - 1,
            fqElements := (List.range (card F - 1)).map (fun i => cand k ^ i) ++ [0] }, ?_, rfl, rfl,
    hcard.symm, ?_, ?_, hget, ?_⟩
  · refine ⟨k + 1, fun n hn => ?_⟩
    unfold FqElementTable.make
    rw [primePowerOf_lt (hcard ▸ hfit), Res.bind_ok]
    simp only
    rw [← hcard, search_spec cand k hk.1 k 0 n (by omega) (by omega)
      (fun j _ h => ⟨h0 j h, hk.2 j h⟩)]
    rfl
  · simp [FqElementTable.zeroIndex, hcard]
  · simp; omega
  · intro x
    obtain ⟨i, hi, hx⟩ := hk.1.eltOf_surj x
    refine ⟨i, ⟨hi, ?_⟩, ?_⟩
    · simp only [FqElementTable.at']
      rw [hget i hi, ← hx]; rfl
    · rintro j ⟨hj, hx2⟩
      simp only [FqElementTable.at'] at hx2
      rw [hget j hj] at hx2
      exact hk.1.eltOf_inj hj hi ((Res.ok.inj hx2).trans hx.symm)

/-- C12: a non-zero candidate is accepted (the search does not go on to the next one) iff it is primitive. -/
theorem C12_accepts_iff_primitive {p r : Nat} (hcard : card F = p ^ r) (hfit : card F < 4294967296) (cand : Nat → F)
    (h0 : cand 0 ≠ 0) :
    FqElementTable.make cand p r 1 ≠ .diverge ↔ Primitive (cand 0) := by
  unfold FqElementTable.make
  rw [primePowerOf_lt (hcard ▸ hfit), Res.bind_ok]
  simp only
  rw [← hcard]
  constructor
  · intro h
    by_contra hp
    obtain ⟨es, he⟩ := fill_not_primitive h0 hp
    apply h
    rw [FqElementTable.search, he]
    rfl
  · intro hp
    rw [search_spec cand 0 hp 0 0 1 rfl (by omega) (by intro j _ h; omega)]
    simp

/-- C12: without zero and primitive candidates the constructor never ends. -/
theorem C12_no_primitive_no_end {p r : Nat} (hcard : card F = p ^ r) (hfit : card F < 4294967296) (cand : Nat → F)
    (h : ∀ j, cand j ≠ 0 ∧ ¬ Primitive (cand j)) (fuel : Nat) :
    FqElementTable.make cand p r fuel = .diverge := by
  unfold FqElementTable.make
  rw [primePowerOf_lt (hcard ▸ hfit), Res.bind_ok]
  simp only
  rw [← hcard, search_diverge cand h]
  rfl

omit [Fintype F] in
/-- C12: a number of elements that does not fit is undefined behaviour. -/
theorem C12_too_large {p r : Nat} (hbig : 4294967296 ≤ p ^ r) (cand : Nat → F) (fuel : Nat) :
    FqElementTable.make cand p r fuel = .ub := by
  unfold FqElementTable.make
  rw [primePowerOf_ge hbig]
  rfl

omit [DecidableEq F] [Fintype F] in
/-- C13: the exponent reduction table has `2(q-1)` entries, entry `i` is `i mod (q-1)`. -/
theorem C13_exponent_reduction {p r : Nat} (coeff : F → Nat → Nat) (cand : Nat → F) (ocl : Bool) (fuel : Nat)
    {t : ReductionTable} (h : ReductionTable.make coeff cand p r ocl fuel = .ok t) :
    t.exponentReductionTable.length = 2 * (p ^ r - 1) ∧
      ∀ i, i < 2 * (p ^ r - 1) → t.exponentReductionTable[i]? = some (i % (p ^ r - 1)) := by
  unfold ReductionTable.make at h
  obtain ⟨q, hq, h⟩ := Res.bind_eq_ok.1 h
  obtain ⟨_, rfl⟩ := primePowerOf_ok hq
  obtain ⟨v, _, h⟩ := Res.bind_eq_ok.1 h
  obtain rfl := Res.ok.inj h
  exact ⟨exponentReductionTable_length _, fun i hi => exponentReductionTable_get hi⟩

omit [DecidableEq F] in
/-- C14: the reduction table constructor ends as soon as a candidate is primitive, and the incrementation
table is the Zech logarithm of the first primitive candidate `g`: entry `i` is the index of `1 + g^i`, with
index `q - 1` for zero.  All indices have to fit into `int32_t`. -/
theorem C14_zech {p r : Nat} (rep : FqRep F p r) (hq2 : 2 < card F) (hq : card F ≤ 2147483648)
    (cand : Nat → F) (k : Nat) (hk : FirstPrimitive cand k) (ocl : Bool) :
    ∃ t, Terminates (ReductionTable.make rep.coeff cand p r ocl) t ∧
      t.prime = p ∧ t.primeExponent = r ∧ t.primePower = card F ∧ t.primePowerPred = card F - 1 ∧
      t.opencl = ocl ∧ t.incrementationTable.length = card F ∧
      ∀ i, i < card F → ∃ j, j < card F ∧ t.incrementationTable[i]? = some j ∧
        eltOf (cand k) (card F) j = 1 + eltOf (cand k) (card F) i := by
  obtain ⟨v, h1, h2, h3⟩ := computeIncrementationTable_spec rep hq2 hq cand k hk.1 hk.2
    (fuel := k + 1) (by omega)
  refine ⟨{ prime := p, primeExponent := r, primePower := p ^ r, primePowerPred := p ^ r - 1,
            exponentReductionTable := ReductionTable.computeExponentReductionTable (p ^ r),
            incrementationTable := v, opencl := ocl }, ⟨k + 1, fun n hn => ?_⟩, rfl, rfl,
    rep.card_eq.symm, by simp [rep.card_eq], rfl, h2, h3⟩
  obtain ⟨v', h1', h2', h3'⟩ := computeIncrementationTable_spec rep hq2 hq cand k hk.1 hk.2
    (fuel := n) (by omega)
  have hv : v' = v := by
    apply List.ext_getElem?
    intro i
    by_cases hi : i < card F
    · obtain ⟨j, hj1, hj2, hj3⟩ := h3 i hi
      obtain ⟨j', hj1', hj2', hj3'⟩ := h3' i hi
      rw [hj2, hj2', hk.1.eltOf_inj hj1' hj1 (hj3'.trans hj3.symm)]
    · rw [List.getElem?_eq_none (by omega), List.getElem?_eq_none (by omega)]
  unfold ReductionTable.make
  rw [primePowerOf_lt (by rw [← rep.card_eq]; omega), Res.bind_ok, h1', hv]
  rfl

omit [DecidableEq F] in
/-- C14: with more than `2^31` elements no table is made.  If the number of elements does not fit into `unsigned int`, the
behaviour is undefined; otherwise the constructor throws, because an index has become negative. -/
theorem C14_too_large {p r : Nat} (rep : FqRep F p r) (hbig : 2147483648 < card F) (cand : Nat → F) (ocl : Bool) (fuel : Nat) :
    (4294967296 ≤ card F → ReductionTable.make rep.coeff cand p r ocl fuel = .ub) ∧
    (card F < 4294967296 → ∀ k, FirstPrimitive cand k → k < fuel →
      ReductionTable.make rep.coeff cand p r ocl fuel = .abort) := by
  refine ⟨fun h => ?_, fun h k hk hf => ?_⟩
  · unfold ReductionTable.make
    rw [primePowerOf_ge (rep.card_eq ▸ h)]
    rfl
  · unfold ReductionTable.make
    rw [primePowerOf_lt (rep.card_eq ▸ h), Res.bind_ok,
      computeIncrementationTable_large rep hbig (by omega) cand k hk.1 hk.2 hf]
    rfl

omit [DecidableEq F] in
/-- C14: zero and other non-primitive candidates are never accepted by the reduction table. -/
theorem C14_no_primitive_no_end {p r : Nat} (rep : FqRep F p r) (hq2 : 2 < card F)
    (hq : card F < 4294967296) (cand : Nat → F) (h : ∀ j, ¬ Primitive (cand j)) (ocl : Bool) (fuel : Nat) :
    ReductionTable.make rep.coeff cand p r ocl fuel = .diverge := by
  have hq' : card F ≤ 4294967296 := by omega
  unfold ReductionTable.make ReductionTable.computeIncrementationTable
  rw [primePowerOf_lt (rep.card_eq ▸ hq), Res.bind_ok, ← rep.card_eq,
    searchPowers_diverge _ (fun a b h => rep.coeffSum_inj hq' h) (rep.coeffSum_zero hq') hq2 cand h]
  rfl

omit [DecidableEq F] in
/-- C15: every non-zero element is `g^e` times an `n`-th power for exactly one listed `e`. -/
theorem C15_coset_representatives {g : F} (hg : Primitive g) (t : FqElementTable F)
    (ht : t.primePowerPred = card F - 1) (n : Nat) (x : F) (hx : x ≠ 0) :
    (t.powerCosetRepresentatives n).Nodup ∧
    ∃! e, e ∈ t.powerCosetRepresentatives n ∧ ∃ y : F, y ≠ 0 ∧ x = g ^ e * y ^ n := by
  have hq := two_le_card (F := F)
  obtain ⟨a, rfl⟩ := hg.2 x hx
  unfold FqElementTable.powerCosetRepresentatives
  rw [ht]
  set N := card F - 1 with hN
  set d := Nat.gcd n N with hd
  have hdpos : 0 < d := Nat.gcd_pos_of_pos_right _ (by omega)
  refine ⟨List.nodup_range, a % d, ⟨List.mem_range.2 (Nat.mod_lt _ hdpos), ?_⟩, ?_⟩
  · -- a - a % d = d * m, d = n * u + N * v
    have hm : (a : Int) = (a % d : Nat) + d * (a / d : Nat) := by
      exact_mod_cast (Nat.mod_add_div a d).symm
    have hb : (d : Int) = n * Nat.gcdA n N + N * Nat.gcdB n N := Nat.gcd_eq_gcd_ab n N
    refine ⟨g ^ (Nat.gcdA n N * (a / d : Nat)), zpow_ne_zero _ hg.1, ?_⟩
    have h1 : g ^ (N : Int) = 1 := by rw [zpow_natCast]; exact pow_card_pred hg.1
    rw [← zpow_natCast g a, ← zpow_natCast g (a % d), ← zpow_natCast (g ^ _) n, ← zpow_mul,
      ← zpow_add₀ hg.1]
    have h2 : (a : Int) = ((a % d : Nat) : Int) + Nat.gcdA n N * (a / d : Nat) * n +
        N * (Nat.gcdB n N * (a / d : Nat)) := by
      rw [hb] at hm
      linear_combination hm
    conv_lhs => rw [h2]
    rw [zpow_add₀ hg.1, zpow_mul g (N : Int), h1, one_zpow, mul_one]
  · rintro e ⟨he, y, hy, hxy⟩
    have he' := List.mem_range.1 he
    obtain ⟨b, rfl⟩ := hg.2 y hy
    rw [← pow_mul, ← pow_add, hg.pow_eq_iff, ← hN] at hxy
    have h1 : a % d = (e + b * n) % d := by
      have hdN : d ∣ N := Nat.gcd_dvd_right _ _
      rw [← Nat.mod_mod_of_dvd a hdN, hxy, Nat.mod_mod_of_dvd _ hdN]
    have h2 : (e + b * n) % d = e := by
      obtain ⟨c, hc⟩ := Nat.gcd_dvd_left n N
      rw [hc, ← hd, Nat.mul_comm d c, ← Nat.mul_assoc, Nat.add_mul_mod_self_right, Nat.mod_eq_of_lt he']
    omega

/-- C48: given the same candidates, none of them zero before the first primitive one, both tables use the
same generator: index `1 ≤ i < q-1` of the element table holds `g^i` and the incrementation table is the
Zech logarithm for the same `g`, so adding one to the element at index `i` gives the element at index
`inc[i]`. -/
theorem C48_same_generator {p r : Nat} (rep : FqRep F p r) (hq2 : 2 < card F) (hq : card F ≤ 2147483648)
    (cand : Nat → F) (k : Nat) (hk : FirstPrimitive cand k) (h0 : ∀ j, j < k → cand j ≠ 0) (ocl : Bool) :
    ∃ t rt, Terminates (FqElementTable.make cand p r) t ∧
      Terminates (ReductionTable.make rep.coeff cand p r ocl) rt ∧
      t.at' 1 = .ok (cand k) ∧
      ∀ i, i < card F → ∃ j x, rt.incrementationTable[i]? = some j ∧ t.at' i = .ok x ∧
        t.at' j = .ok (1 + x) := by
  obtain ⟨t, h1, _, _, _, _, _, h2, _⟩ := C12_element_table rep.card_eq (by omega) cand k hk h0
  obtain ⟨rt, h3, _, _, _, _, _, _, h4⟩ := C14_zech rep hq2 hq cand k hk ocl
  refine ⟨t, rt, h1, h3, ?_, fun i hi => ?_⟩
  · rw [h2 1 (by omega), if_neg (by omega), pow_one]
  · obtain ⟨j, hj1, hj2, hj3⟩ := h4 i hi
    exact ⟨j, eltOf (cand k) (card F) i, hj2, h2 i hi, by rw [h2 j hj1, ← hj3]; rfl⟩

omit [Fintype F] in
theorem fill_zero : ∀ (n : Nat) (es : List F),
    FqElementTable.fill (0 : F) 1 n 0 es = (true, 0, es ++ List.replicate n 0)
  | 0, es => by simp [FqElementTable.fill]
  | n + 1, es => by
    rw [FqElementTable.fill, if_neg zero_ne_one, mul_zero, fill_zero n]
    simp [List.replicate_succ]

/-- C48 (defect): if the first candidate is zero, the element table accepts it and lists `1,0,0,..,0`; the
reduction table never accepts zero (`C14_no_primitive_no_end`). -/
theorem C48_zero_candidate_accepted {p r : Nat} (hcard : card F = p ^ r) (hfit : card F < 4294967296) (hq2 : 2 < card F)
    (cand : Nat → F) (h : cand 0 = 0) (fuel : Nat) :
    ∃ t, FqElementTable.make cand p r (fuel + 1) = .ok t ∧
      t.fqElements = 1 :: List.replicate (card F - 1) 0 := by
  unfold FqElementTable.make
  rw [primePowerOf_lt (hcard ▸ hfit), Res.bind_ok]
  simp only
  rw [← hcard, FqElementTable.search, h, mul_zero, fill_zero]
  refine ⟨_, rfl, ?_⟩
  simp only
  obtain ⟨k, hk⟩ : ∃ k, card F - 1 = k + 2 := ⟨card F - 3, by omega⟩
  rw [hk]
  simp [List.replicate_succ']

/-! ### Non-trivial instances -/

omit [Fintype F] [DecidableEq F] in
theorem Primitive.of_bounded {g : F} (n : Nat) (h0 : g ≠ 0) (h : ∀ x : F, x ≠ 0 → ∃ i, i < n ∧ x = g ^ i) :
    Primitive g := ⟨h0, fun x hx => by obtain ⟨i, _, h⟩ := h x hx; exact ⟨i, h⟩⟩

instance : Fact (Nat.Prime 7) := ⟨by decide⟩

/-- 3 is primitive modulo 7, 2 is not. -/
theorem primitive_three_seven : Primitive (3 : ZMod 7) := Primitive.of_bounded 6 (by decide) (by decide)

theorem not_primitive_two_seven : ¬ Primitive (2 : ZMod 7) := by
  rintro ⟨_, h⟩
  obtain ⟨n, hn⟩ := h 3 (by decide)
  have h3 : ∀ n : Nat, (2 : ZMod 7) ^ n = 1 ∨ (2 : ZMod 7) ^ n = 2 ∨ (2 : ZMod 7) ^ n = 4 := by
    intro n
    induction n with
    | zero => left; rfl
    | succ n ih =>
      rw [pow_succ]
      rcases ih with h | h | h <;> rw [h] <;> decide
  rcases h3 n with h | h | h <;> rw [h] at hn <;> exact absurd hn (by decide)

/-- The hypotheses of C12 are met by the candidates 2, 3, .. over the field of 7 elements: 2 is rejected. -/
example : FirstPrimitive (fun k => if k = 0 then (2 : ZMod 7) else 3) 1 ∧
    ∀ j, j < 1 → (if j = 0 then (2 : ZMod 7) else 3) ≠ 0 := by
  refine ⟨⟨primitive_three_seven, ?_⟩, ?_⟩
  · intro j hj
    obtain rfl : j = 0 := by omega
    exact not_primitive_two_seven
  · intro j hj
    obtain rfl : j = 0 := by omega
    decide

example : ∃ t, FqElementTable.make (fun k => if k = 0 then (2 : ZMod 7) else 3) 7 1 2 = .ok t ∧
    t.fqElements = [1, 3, 2, 6, 4, 5, 0] := ⟨_, rfl, by decide⟩

/-- FLINT's presentation of the field of 7 elements. -/
def rep7 : FqRep (ZMod 7) 7 1 where
  prime := by decide
  pos := by omega
  card_eq := by decide
  coeff := fun a i => if i = 0 then a.val else 0
  coeff_lt := by
    intro a i
    split
    · exact ZMod.val_lt a
    · omega
  coeff_ext := by
    intro a b h
    have := h 0 (by omega)
    simpa using ZMod.val_injective 7 this
  coeff_add := by
    intro a b i hi
    obtain rfl : i = 0 := by omega
    simpa using ZMod.val_add a b
  coeff_one := by
    intro i hi
    obtain rfl : i = 0 := by omega
    rfl

/-- The Zech logarithm table for the generator 3 of the field of 7 elements, candidates 0, 2, 3: the first
two are rejected. -/
example : ∃ t, ReductionTable.make rep7.coeff
    (fun k => if k = 0 then (0 : ZMod 7) else if k = 1 then 2 else 3) 7 1 false 3 = .ok t ∧
    t.incrementationTable = [2, 4, 1, 6, 5, 3, 0] := ⟨_, rfl, by decide⟩

example : (FqElementTable.mk (F := ZMod 7) 7 1 7 6 []).powerCosetRepresentatives 4 = [0, 1] := by decide

/-- The presentation assumed of FLINT exists for every finite field. -/
example {F : Type} [Field F] [Fintype F] (p r : Nat) (hp : p.Prime) (hr : 0 < r)
    (h : card F = p ^ r) : Nonempty (FqRep F p r) := exists_fqRep hp hr h

/-- Hypotheses of `C12_too_large`, and of both parts of `C14_too_large`: the fields of `3^21` and `3^20` elements. -/
theorem too_large_exists (r : Nat) (hr : 0 < r) : ∃ (F : Type) (_ : Field F) (_ : Fintype F) (cand : Nat → F),
    card F = 3 ^ r ∧ Nonempty (FqRep F 3 r) ∧ FirstPrimitive cand 0 := by
  have : Fact (Nat.Prime 3) := ⟨by decide⟩
  let _ := Fintype.ofFinite (GaloisField 3 r)
  have h : card (GaloisField 3 r) = 3 ^ r := by
    rw [← Nat.card_eq_fintype_card]; exact GaloisField.card 3 r (by omega)
  obtain ⟨g, hg⟩ := exists_primitive (F := GaloisField 3 r)
  exact ⟨GaloisField 3 r, inferInstance, inferInstance, fun _ => g, h, exists_fqRep (by decide) hr h, hg,
    fun j hj => absurd hj (Nat.not_lt_zero j)⟩

example : ∃ (F : Type) (_ : Field F) (_ : Fintype F) (cand : Nat → F), 2147483648 < card F ∧ card F < 4294967296 ∧
    Nonempty (FqRep F 3 20) ∧ FirstPrimitive cand 0 := by
  obtain ⟨F, i, j, cand, h, h1, h2⟩ := too_large_exists 20 (by decide)
  exact ⟨F, i, j, cand, by rw [h]; decide, by rw [h]; decide, h1, h2⟩

example : 4294967296 ≤ 3 ^ 21 ∧ ∃ (F : Type) (_ : Field F) (_ : Fintype F), 4294967296 ≤ card F ∧
    Nonempty (FqRep F 3 21) := by
  obtain ⟨F, i, j, _, h, h1, _⟩ := too_large_exists 21 (by decide)
  exact ⟨by decide, F, i, j, by rw [h]; decide, h1⟩

end Hycu
