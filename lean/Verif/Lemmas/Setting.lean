import Verif.Spec.Setting
import Verif.Props.Tables
import Verif.Lemmas.CurveMisc

/-!
What the constructors guarantee, in the form used by the lemmas on counting.
-/

set_option linter.unusedSectionVars false

namespace Hycu

open Polynomial Fintype

variable {F K : Type} [Field F] [Fintype F] [DecidableEq F] [Field K] [Fintype K] [DecidableEq K]

theorem make_fuel_mono {cand : Nat → F} {p r m n : Nat} {t : FqElementTable F}
    (h : FqElementTable.make cand p r m = .ok t) (hmn : m ≤ n) : FqElementTable.make cand p r n = .ok t := by
  have hs : ∀ (m n : Nat) (k : Nat) (a : F) (es : List F), m ≤ n →
      FqElementTable.search cand (p ^ r - 1) m k a = .ok es →
      FqElementTable.search cand (p ^ r - 1) n k a = .ok es := by
    intro m
    induction m with
    | zero => intro n k a es _ h; simp [FqElementTable.search] at h
    | succ m ih =>
      intro n k a es hmn h
      obtain ⟨n', rfl⟩ : ∃ n', n = n' + 1 := ⟨n - 1, by omega⟩
      unfold FqElementTable.search at h ⊢
      split at h
      · exact h
      · exact ih n' _ _ _ (by omega) h
  unfold FqElementTable.make at h ⊢
  obtain ⟨q, hq, h⟩ := Res.bind_eq_ok.1 h
  obtain ⟨_, rfl⟩ := primePowerOf_ok hq
  obtain ⟨es, h1, h2⟩ := Res.bind_eq_ok.1 h
  rw [hq, Res.bind_ok]
  simp only at h1 ⊢
  rw [hs m n 0 1 es hmn h1]
  exact h2

theorem make_fuel_mono' {coeff : K → Nat → Nat} {cand : Nat → K} {p r m n : Nat} {ocl : Bool}
    {t : ReductionTable} (h : ReductionTable.make coeff cand p r ocl m = .ok t) (hmn : m ≤ n) :
    ReductionTable.make coeff cand p r ocl n = .ok t := by
  have hs : ∀ (m n : Nat) (k : Nat) (mp : OMap Nat Nat), m ≤ n →
      ReductionTable.searchPowers (ReductionTable.coeffSum coeff p r) cand (p ^ r - 1) m k = .ok mp →
      ReductionTable.searchPowers (ReductionTable.coeffSum coeff p r) cand (p ^ r - 1) n k = .ok mp := by
    intro m
    induction m with
    | zero => intro n k a _ h; simp [ReductionTable.searchPowers] at h
    | succ m ih =>
      intro n k a hmn h
      obtain ⟨n', rfl⟩ : ∃ n', n = n' + 1 := ⟨n - 1, by omega⟩
      unfold ReductionTable.searchPowers at h ⊢
      split at h
      · exact h
      · exact ih n' _ _ (by omega) h
  unfold ReductionTable.make ReductionTable.computeIncrementationTable at h ⊢
  obtain ⟨q, hq, h⟩ := Res.bind_eq_ok.1 h
  obtain ⟨_, rfl⟩ := primePowerOf_ok hq
  rw [hq, Res.bind_ok]
  obtain ⟨es, h1, h2⟩ := Res.bind_eq_ok.1 h
  obtain ⟨mp, h3, h4⟩ := Res.bind_eq_ok.1 h1
  rw [hs m n 0 mp hmn h3, Res.bind_ok, h4]
  exact h2

theorem BuiltFqTable.facts {p r : Nat} {g : F} {t : FqElementTable F} (h : BuiltFqTable p r g t) :
    p.Prime ∧ 0 < r ∧ card F = p ^ r ∧ Primitive g ∧ t.prime = p ∧ t.primeExponent = r ∧
      t.primePower = card F ∧ t.primePowerPred = card F - 1 ∧
      ∀ i, i < card F → t.at' i = .ok (eltOf g (card F) i) := by
  obtain ⟨rep⟩ := h.rep
  obtain ⟨cand, k, fuel, hk, h0, rfl, hm⟩ := h.built
  have hfit : card F < 4294967296 := by
    unfold FqElementTable.make at hm
    obtain ⟨q, hq, _⟩ := Res.bind_eq_ok.1 hm
    rw [rep.card_eq]
    exact (primePowerOf_ok hq).1
  obtain ⟨t', ⟨N, hN⟩, h1, h2, h3, h4, _, h5, _⟩ := C12_element_table rep.card_eq hfit cand k hk h0
  have := make_fuel_mono hm (Nat.le_max_left fuel N)
  rw [hN _ (Nat.le_max_right _ _)] at this
  obtain rfl := Res.ok.inj this
  exact ⟨rep.prime, rep.pos, rep.card_eq, hk.1, h1, h2, h3, h4, h5⟩

/-- A table can be made only if the indices fit. -/
theorem BuiltReductionTable.card_le {p e : Nat} {g : K} {t : ReductionTable} (h : BuiltReductionTable p e g t) :
    card K ≤ 2147483648 := by
  obtain ⟨rep, cand, k, fuel, ocl, hk, rfl, hm⟩ := h.built
  by_contra hbig
  push Not at hbig
  have h1 := make_fuel_mono' hm (Nat.le_max_left fuel (k + 1))
  have h2 := C14_too_large rep hbig cand ocl (max fuel (k + 1))
  rcases Nat.lt_or_ge (card K) 4294967296 with h3 | h3
  · rw [h2.2 h3 k hk (by omega)] at h1
    cases h1
  · rw [h2.1 h3] at h1
    cases h1

theorem BuiltReductionTable.facts {p e : Nat} {g : K} {t : ReductionTable} (h : BuiltReductionTable p e g t)
    (hq2 : 2 < card K) :
    p.Prime ∧ 0 < e ∧ card K = p ^ e ∧ t.prime = p ∧ t.primeExponent = e ∧ GoodReduction g t ∧
      t.primePower = card K := by
  have hq := h.card_le
  obtain ⟨rep, cand, k, fuel, ocl, hk, rfl, hm⟩ := h.built
  obtain ⟨t', ⟨N, hN⟩, h1, h2, h3, h4, h5, h6, h7⟩ := C14_zech rep hq2 hq cand k hk ocl
  have h8 := make_fuel_mono' hm (Nat.le_max_left fuel N)
  rw [hN _ (Nat.le_max_right _ _)] at h8
  obtain rfl := Res.ok.inj h8
  obtain ⟨h9, h10⟩ := C13_exponent_reduction _ _ _ _ hm
  rw [← rep.card_eq] at h9 h10
  exact ⟨rep.prime, rep.pos, rep.card_eq, h1, h2, ⟨h4, hk.1, h10, h7⟩, h3⟩

theorem BuiltReductionTable.prime {p e : Nat} {g : K} {t : ReductionTable}
    (h : BuiltReductionTable p e g t) : p.Prime ∧ 0 < e ∧ card K = p ^ e := by
  obtain ⟨rep, _⟩ := h.built
  exact ⟨rep.prime, rep.pos, rep.card_eq⟩

theorem odd_card_of {p e : Nat} (hp : p.Prime) (h2 : p ≠ 2) (h : card K = p ^ e) (_he : 0 < e) :
    card K % 2 = 1 ∧ 2 < card K := by
  have hodd : p % 2 = 1 := by
    rcases hp.eq_two_or_odd with h | h
    · exact absurd h h2
    · exact h
  have h1 : card K % 2 = 1 := by rw [h, Nat.pow_mod, hodd, Nat.one_pow]
  refine ⟨h1, ?_⟩
  have := two_le_card (F := K)
  omega

end Hycu
