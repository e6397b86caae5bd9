import Verif.Lemmas.MassLink
import Verif.Props.Count

/-!
Properties C08–C11: the curves enumerated by `CurveIterator`.

In all of them `table` is the table of the field `F` of `p^r ≤ 2^31` elements with generator `g`, `p` is odd,
`0 < genus < 2^30` and `0 < package`.  `Ls` are the positions of all packages, package by package.
-/

set_option linter.unusedSectionVars false

namespace Hycu

open Polynomial Fintype CurveIterator

variable {F : Type} [Field F] [Fintype F] [DecidableEq F]

/-- C08: the constructor succeeds, the iteration ends, and each visited position has `d+1` entries, where `d` is
`2*genus+1` or, unless `marked`, `2*genus+2`; each entry is the index of a field element, the leading one not that
of zero, so that the polynomial has degree `d`. -/
theorem C08_well_formed {p r : Nat} {g : F} {table : FqElementTable F} (ht : BuiltFqTable p r g table)
    (hp2 : p ≠ 2) (hq : card F ≤ 2147483648) (genus : Nat) (hg0 : 0 < genus) (hgen : genus < 1073741824)
    (marked : Bool) (package : Nat) (hpk : 0 < package) :
    ∃ it Ls, make table genus marked package = .ok it ∧ Terminates (fun n => allPositions n it) Ls ∧
      ∀ v ∈ Ls.flatten, ∃ d, (d = 2 * genus + 1 ∨ (marked = false ∧ d = 2 * genus + 2)) ∧
        v.length = d + 1 ∧ (∀ e ∈ v, e < card F) ∧ v[d]? ≠ some (card F - 1) ∧
        (polyOfList (v.map (eltOf g (card F)))).natDegree = d := by
  obtain ⟨it, boxes, Ls, a1, a2, a3, a4, a5, a6, a7, a8⟩ := visited_spec ht hp2 hq hg0 hgen marked hpk
  obtain ⟨hp, hr, hcard, hprim, h1, h2, h3, h4, _⟩ := ht.facts
  have h2c := two_le_card (F := F)
  refine ⟨it, Ls, a1, a5, fun v hv => ?_⟩
  obtain ⟨d, hd, hv⟩ := (a8 v).1 hv
  obtain ⟨x, hx, hlt⟩ := hv.top h2c
  refine ⟨d, (mem_degrees hgen).1 hd, ?_, hv.lt h2c, ?_, (mem_polys.1 (mem_fil.1 (hv.mem_enum hprim)).1).2⟩
  · obtain ⟨_, _, h, _⟩ := hv; exact h
  · rw [hx]
    intro h
    have := Option.some.inj h
    omega

/-- C09, the mass formula: let `φ` be any function on polynomials with `φ(c^2 f(bx+a)) = φ(f)`, and `ν` any
element that is not a square, so that `ν f` is the twist of `f`.  Then the sum of
`multiplicity(f) * (φ(f) + φ(ν f))` over all visited positions is the sum of `φ` over all polynomials of the degrees
requested.  The multiplicities are those that the store computes (src/store/store_data.hh l.51-55). -/
theorem C09_mass_formula {p r : Nat} {g : F} {table : FqElementTable F} (ht : BuiltFqTable p r g table)
    (hp2 : p ≠ 2) (hq : card F ≤ 2147483648) (genus : Nat) (hg0 : 0 < genus) (hgen : genus < 1073741824)
    (marked : Bool) (package : Nat) (hpk : 0 < package) :
    ∃ it Ls, make table genus marked package = .ok it ∧ Terminates (fun n => allPositions n it) Ls ∧
      ∃ mult : List Nat → Nat,
        (∀ v ∈ Ls.flatten, (Curve.make table v >>= fun c =>
          CurveIterator.multiplicity table.prime table.primePower c.rhsSupport) = .ok (mult v)) ∧
        ∀ (φ : F[X] → Nat), CurveInvariant φ → ∀ ν : F, ¬ IsSquare ν →
          (Ls.flatten.map fun v =>
            let f := polyOfList (v.map (eltOf g (card F)))
            mult v * (φ f + φ (C ν * f))).sum =
          ∑ f ∈ polysOfDegree F (2 * genus + 1), φ f +
            if marked then 0 else ∑ f ∈ polysOfDegree F (2 * genus + 2), φ f := by
  obtain ⟨it, boxes, Ls, a1, a2, a3, a4, a5, a6, a7, a8⟩ := visited_spec ht hp2 hq hg0 hgen marked hpk
  obtain ⟨hp, hr, hcard, hprim, h1, h2, h3, h4, _⟩ := ht.facts
  have hodd := odd_card_of hp hp2 hcard hr
  have hds : ∀ d ∈ degrees genus marked, 3 ≤ d := by
    intro d hd
    have := (mem_degrees hgen).1 hd
    omega
  refine ⟨it, Ls, a1, a5, fun v => (polyMult p (idxPoly g v).natDegree (idxPoly g v)).val, ?_, ?_⟩
  · intro v hv
    obtain ⟨d, hd, hv⟩ := (a8 v).1 hv
    obtain ⟨c, b1, b2, b3, b4, b5⟩ := hv.curve hprim (t := table) h4
    simp only
    rw [b1, Res.bind_ok, h1, h3, b5, b4]
    exact (polyMult_ok hprim (by omega) hodd.1 (hds d hd) hp.ne_zero (hv.mem_enum hprim)).1
  · intro φ hφ ν hν
    have hν0 : ν ≠ 0 := by rintro rfl; exact hν IsSquare.zero
    have hfull := fullInvariant_of hφ hodd.1 hν
    have hsum := sum_positions hprim (nodup_degrees hgen marked) a7 a8
      (fun f => 2 * ((polyMult p f.natDegree f).val * (φ f + φ (C ν * f))))
    have hdeg : ∀ d ∈ degrees genus marked,
        ∑ f ∈ enumPolys g p d, 2 * ((polyMult p f.natDegree f).val * (φ f + φ (C ν * f))) =
          2 * ∑ f ∈ polysOfDegree F d, φ f := by
      intro d hd
      rw [← sum_twist hν0 d, ← sum_enumPolys hp hcard hprim (by omega) hodd.1 (hds d hd) hfull]
      apply Finset.sum_congr rfl
      intro f hf
      rw [(mem_polys.1 (mem_fil.1 hf).1).2, mul_assoc]
    rw [List.map_congr_left hdeg, degrees_eq hgen] at hsum
    rw [List.sum_map_mul_left, List.sum_map_mul_left] at hsum
    have := Nat.eq_of_mul_eq_mul_left (by decide) hsum
    refine this.trans ?_
    cases marked <;> simp

/-- C09, every curve is met: each polynomial of one of the degrees is `c f(bx+a)` for a visited `f`. -/
theorem C09_every_curve {p r : Nat} {g : F} {table : FqElementTable F} (ht : BuiltFqTable p r g table)
    (hp2 : p ≠ 2) (hq : card F ≤ 2147483648) (genus : Nat) (hg0 : 0 < genus) (hgen : genus < 1073741824)
    (marked : Bool) (package : Nat) (hpk : 0 < package) :
    ∃ it Ls, make table genus marked package = .ok it ∧ Terminates (fun n => allPositions n it) Ls ∧
      ∀ h : F[X], h ≠ 0 → (h.natDegree = 2 * genus + 1 ∨ (marked = false ∧ h.natDegree = 2 * genus + 2)) →
        ∃ v ∈ Ls.flatten, ∃ a b c : F, b ≠ 0 ∧ c ≠ 0 ∧
          C c * (polyOfList (v.map (eltOf g (card F)))).comp (C b * X + C a) = h := by
  obtain ⟨it, Ls, a1, a2, mult, a3, a4⟩ := C09_mass_formula ht hp2 hq genus hg0 hgen marked package hpk
  obtain ⟨hp, hr, hcard, hprim, _⟩ := ht.facts
  have hodd := odd_card_of hp hp2 hcard hr
  refine ⟨it, Ls, a1, a2, fun h hh hd => ?_⟩
  classical
  have hcomp : ∀ (f : F[X]) (a b c a' b' c' : F),
      C c * (C c' * f.comp (C b' * X + C a')).comp (C b * X + C a) =
        C (c * c') * f.comp (C (b' * b) * X + C (b' * a + a')) := by
    intro f a b c a' b' c'
    rw [mul_comp, C_comp, comp_assoc, C_mul, mul_assoc]
    congr 3
    simp
    ring
  have hinv : ∀ (f : F[X]) (a b c : F), b ≠ 0 → c ≠ 0 →
      C (c⁻¹) * (C c * f.comp (C b * X + C a)).comp (C (b⁻¹) * X + C (-(b⁻¹ * a))) = f := by
    intro f a b c hb hc
    rw [hcomp, inv_mul_cancel₀ hc, mul_inv_cancel₀ hb]
    have : b * -(b⁻¹ * a) + a = 0 := by field_simp; ring
    rw [this]
    simp
  let φ : F[X] → Nat := fun f => if ∃ a b c : F, b ≠ 0 ∧ c ≠ 0 ∧ C (c ^ 2) * f.comp (C b * X + C a) = h then 1 else 0
  have hφ : CurveInvariant φ := by
    intro f a b c hb hc
    simp only [φ]
    refine if_congr ?_ rfl rfl
    constructor
    · rintro ⟨a', b', c', hb', hc', rfl⟩
      refine ⟨b * a' + a, b * b', c' * c, mul_ne_zero hb hb', mul_ne_zero hc' hc, ?_⟩
      rw [hcomp, mul_pow]
    · rintro ⟨a', b', c', hb', hc', rfl⟩
      refine ⟨b⁻¹ * a' + -(b⁻¹ * a), b⁻¹ * b', c' * c⁻¹, mul_ne_zero (inv_ne_zero hb) hb',
        mul_ne_zero hc' (inv_ne_zero hc), ?_⟩
      rw [mul_pow, ← hcomp, inv_pow, hinv f a b (c ^ 2) hb (pow_ne_zero _ hc)]
  obtain ⟨ν, hν⟩ : ∃ ν : F, ¬ IsSquare ν := by
    apply FiniteField.exists_nonsquare
    intro h
    rw [FiniteField.even_card_iff_char_two] at h
    omega
  have hone : φ h = 1 := by
    simp only [φ]
    rw [if_pos ⟨0, 1, 1, one_ne_zero, one_ne_zero, by simp⟩]
  have hpos : 0 < ∑ f ∈ polysOfDegree F (2 * genus + 1), φ f +
            if marked then 0 else ∑ f ∈ polysOfDegree F (2 * genus + 2), φ f := by
    rcases hd with hd | ⟨rfl, hd⟩
    · have : φ h ≤ ∑ f ∈ polysOfDegree F (2 * genus + 1), φ f :=
        Finset.single_le_sum (f := φ) (fun _ _ => Nat.zero_le _) (mem_polys.2 ⟨hh, hd⟩)
      omega
    · have : φ h ≤ ∑ f ∈ polysOfDegree F (2 * genus + 2), φ f :=
        Finset.single_le_sum (f := φ) (fun _ _ => Nat.zero_le _) (mem_polys.2 ⟨hh, hd⟩)
      simp only [Bool.false_eq_true, if_false]
      omega
  rw [← a4 φ hφ ν hν] at hpos
  obtain ⟨n, hn, hn0⟩ : ∃ n ∈ Ls.flatten.map fun v =>
            let f := polyOfList (v.map (eltOf g (card F)))
            mult v * (φ f + φ (C ν * f)), n ≠ 0 := by
    by_contra hc
    push Not at hc
    rw [List.sum_eq_zero hc] at hpos
    exact lt_irrefl _ hpos
  obtain ⟨v, hv, rfl⟩ := List.mem_map.1 hn
  refine ⟨v, hv, ?_⟩
  simp only at hn0
  by_cases hs : ∃ a b c : F, b ≠ 0 ∧ c ≠ 0 ∧
      C (c ^ 2) * (polyOfList (v.map (eltOf g (card F)))).comp (C b * X + C a) = h
  · obtain ⟨a, b, c, hb, hc, he⟩ := hs
    exact ⟨a, b, c ^ 2, hb, pow_ne_zero _ hc, he⟩
  by_cases hs' : ∃ a b c : F, b ≠ 0 ∧ c ≠ 0 ∧
      C (c ^ 2) * (C ν * polyOfList (v.map (eltOf g (card F)))).comp (C b * X + C a) = h
  · obtain ⟨a, b, c, hb, hc, he⟩ := hs'
    refine ⟨a, b, c ^ 2 * ν, hb, mul_ne_zero (pow_ne_zero _ hc) (by rintro rfl; exact hν IsSquare.zero), ?_⟩
    rw [← he, mul_comp, C_comp, ← mul_assoc, ← C_mul]
  · exfalso
    apply hn0
    simp only [φ]
    rw [if_neg hs, if_neg hs']
    simp

/-- C10: on every visited position all divisions in `multiplicity` are exact and the result is positive. -/
theorem C10_multiplicity {p r : Nat} {g : F} {table : FqElementTable F} (ht : BuiltFqTable p r g table)
    (hp2 : p ≠ 2) (hq : card F ≤ 2147483648) (genus : Nat) (hg0 : 0 < genus) (hgen : genus < 1073741824)
    (marked : Bool) (package : Nat) (hpk : 0 < package) :
    ∃ it Ls, make table genus marked package = .ok it ∧ Terminates (fun n => allPositions n it) Ls ∧
      ∀ v ∈ Ls.flatten, ∃ c m, Curve.make table v = .ok c ∧
        CurveIterator.multiplicity table.prime table.primePower c.rhsSupport = .ok m ∧ 0 < m := by
  obtain ⟨it, boxes, Ls, a1, a2, a3, a4, a5, a6, a7, a8⟩ := visited_spec ht hp2 hq hg0 hgen marked hpk
  obtain ⟨hp, hr, hcard, hprim, h1, h2, h3, h4, _⟩ := ht.facts
  have hodd := odd_card_of hp hp2 hcard hr
  refine ⟨it, Ls, a1, a5, fun v hv => ?_⟩
  obtain ⟨d, hd, hv⟩ := (a8 v).1 hv
  have := (mem_degrees hgen).1 hd
  obtain ⟨c, b1, b2, b3, b4, b5⟩ := hv.curve hprim (t := table) h4
  have hm := polyMult_ok hprim (by omega) hodd.1 (by omega) hp.ne_zero (hv.mem_enum hprim)
  refine ⟨c, _, b1, ?_, hm.2⟩
  rw [h1, h3, b5]
  exact hm.1

/-- C11: no two visited positions are equal, and no two packages are equal; they do not even overlap. -/
theorem C11_no_repetition {p r : Nat} {g : F} {table : FqElementTable F} (ht : BuiltFqTable p r g table)
    (hp2 : p ≠ 2) (hq : card F ≤ 2147483648) (genus : Nat) (hg0 : 0 < genus) (hgen : genus < 1073741824)
    (marked : Bool) (package : Nat) (hpk : 0 < package) :
    ∃ it boxes Ls, make table genus marked package = .ok it ∧
      Terminates (fun n => visits asBlock n it) boxes ∧ Terminates (fun n => allPositions n it) Ls ∧
      Ls.flatten.Nodup ∧ boxes.Nodup ∧ boxes.Pairwise (fun a b => ∀ v, ¬ (InBox a v ∧ InBox b v)) := by
  obtain ⟨it, boxes, Ls, a1, a2, a3, a4, a5, a6, a7, a8⟩ := visited_spec ht hp2 hq hg0 hgen marked hpk
  refine ⟨it, boxes, Ls, a1, a2, a5, a7, ?_, a3⟩
  refine List.Pairwise.imp_of_mem ?_ a3
  intro a b ha _ hab he
  obtain ⟨v, hv⟩ := a4 a ha
  exact hab v ⟨hv, he ▸ hv⟩

/-- What the constructor does outside the hypotheses of C08: it exits for `p = 2` and for genus 0. -/
theorem C08_exits (table : FqElementTable F) (genus : Nat) (marked : Bool) (package : Nat) :
    (table.prime = 2 ∨ genus = 0 → make table genus marked package = .abort) := by
  intro h
  unfold make
  by_cases h2 : table.prime = 2
  · rw [if_pos h2]
  · rw [if_neg h2, if_pos (h.resolve_left h2)]

/-! ### The hypotheses are met -/

example : ∃ table, BuiltFqTable 7 1 (3 : ZMod 7) table ∧ 7 ≠ 2 ∧ card (ZMod 7) ≤ 2147483648 := by
  obtain ⟨t, ht⟩ := exists_built (F := ZMod 7) (p := 7) (r := 1) (by decide) (by decide) (by decide) (by decide)
    primitive_three_seven
  exact ⟨t, ht, by decide, by decide⟩

/-- The number of distinct roots is an invariant function. -/
example : CurveInvariant (fun f : (ZMod 7)[X] => (Finset.univ.filter fun x => f.eval x = 0).card) := by
  intro f a b c hb hc
  refine Finset.card_bij (fun x _ => b * x + a) ?_ ?_ ?_
  · intro x hx
    simp only [Finset.mem_filter, Finset.mem_univ, true_and, eval_mul, eval_C, eval_comp, eval_add, eval_X,
      mul_eq_zero, pow_eq_zero_iff, ne_eq, OfNat.ofNat_ne_zero, not_false_eq_true, hc, false_or] at hx ⊢
    exact hx
  · intro x _ y _ h
    simpa [hb] using h
  · intro y hy
    refine ⟨b⁻¹ * (y - a), ?_, by field_simp; ring⟩
    simp only [Finset.mem_filter, Finset.mem_univ, true_and, eval_mul, eval_C, eval_comp, eval_add, eval_X] at hy ⊢
    have : b * (b⁻¹ * (y - a)) + a = y := by field_simp; ring
    rw [this, hy, mul_zero]

/-- Three is not a square modulo seven. -/
example : ¬ IsSquare (3 : ZMod 7) := by decide

/-- All of it, for the field of 3 elements, genus 1, marked point, packages of size 2: three divides the degree. -/
example : (do
    let t ← FqElementTable.make (fun _ => (2 : ZMod 3)) 3 1 1
    let it ← CurveIterator.make t 1 true 2
    let ls ← allPositions 20 it
    let ms ← ls.flatten.mapM fun v => do
      let c ← Curve.make t v
      CurveIterator.multiplicity t.prime t.primePower c.rhsSupport
    pure (ls.flatten, ms)) = .ok (
      [[0, 2, 0, 0], [0, 2, 1, 0], [2, 2, 0, 0], [2, 2, 1, 0], [0, 0, 2, 0], [1, 0, 2, 0], [0, 1, 2, 0],
        [1, 1, 2, 0], [0, 2, 2, 0], [1, 2, 2, 0], [2, 0, 2, 0], [2, 1, 2, 0], [2, 2, 2, 0]],
      [6, 6, 3, 3, 1, 1, 1, 1, 1, 1, 1, 1, 1]) := by decide

end Hycu
