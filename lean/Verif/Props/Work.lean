import Verif.Lemmas.WorkAll
import Verif.Lemmas.SquarefreeCount
import Verif.Props.CurveIterator

/-!
C66: how many curves are enumerated.
-/

set_option linter.unusedSectionVars false

namespace Hycu

open Polynomial Fintype CurveIterator

variable {F : Type} [Field F] [Fintype F] [DecidableEq F]

/-- C66: the number of enumerated curves is the given one. -/
theorem C66_curves {p r : Nat} {g : F} {table : FqElementTable F} (ht : BuiltFqTable p r g table)
    (hp2 : p ≠ 2) (hq : card F ≤ 2147483648) (genus : Nat) (hg0 : 0 < genus) (hgen : genus < 1073741824)
    (marked : Bool) (package : Nat) (hpk : 0 < package) :
    ∃ it Ls, make table genus marked package = .ok it ∧ Terminates (fun n => allPositions n it) Ls ∧
      Ls.flatten.length = curves (p ^ r) p genus marked := by
  obtain ⟨hp, hr, hcard, hprim, h1, h2, h3, h4, _⟩ := ht.facts
  have h2c := two_le_card (F := F)
  have hodd := odd_card_of hp hp2 hcard hr
  have hs : TableSize table (card F) := ⟨h3, h4, h2c, hq⟩
  obtain ⟨it, boxes, Ls, a1, a2, a3, a4, a5, a6, a7, a8⟩ := make_spec hs (by omega) (by rw [h1]; exact hp.ne_zero)
    (by rw [h1]; exact hp2) hg0 hgen marked hpk
  refine ⟨it, Ls, a1, a5, ?_⟩
  rw [allArgs_count table hs hodd.1 _ (nodup_degrees hgen marked) (by
    intro d hd
    have := (mem_degrees hgen).1 hd
    omega) _ a7 a8, degrees_eq hgen, h1, ← hcard]
  unfold curves
  cases marked <;> simp

/-- C66: this is at most `7 (q^(2g-1) + q^(2g))`, or `7 q^(2g-1)` with a marked point. -/
theorem C66_bound {q p genus : Nat} (hq : 3 ≤ q) (hg0 : 0 < genus) :
    curves q p genus true ≤ 7 * q ^ (2 * genus - 1) ∧
      curves q p genus false ≤ 7 * (q ^ (2 * genus - 1) + q ^ (2 * genus)) := by
  have h1 := curvesOfDegree_le (p := p) hq (d := 2 * genus + 1) (by omega)
  have h2 := curvesOfDegree_le (p := p) hq (d := 2 * genus + 2) (by omega)
  rw [show 2 * genus + 1 - 2 = 2 * genus - 1 by omega] at h1
  rw [show 2 * genus + 2 - 2 = 2 * genus by omega] at h2
  unfold curves
  simp
  omega

theorem Represents.filter {S : Finset F[X]} {d : Nat} (h : Represents S d) :
    Represents (S.filter fun f => f.natDegree = d) d := by
  intro f hf hd
  obtain ⟨f', h1, a, b, c, hb, hc, h2⟩ := h f hf hd
  refine ⟨f', Finset.mem_filter.2 ⟨h1, ?_⟩, a, b, c, hb, hc, h2⟩
  rw [← h2, natDegree_C_mul hc, natDegree_comp, natDegree_linear hb, mul_one] at hd
  exact hd

theorem Represents.le {S : Finset F[X]} {d : Nat} (hd : 3 ≤ d) (h : Represents S d) : card F ^ (d - 2) ≤ S.card := by
  obtain ⟨e, rfl⟩ : ∃ e, d = e + 2 := ⟨d - 2, by omega⟩
  rw [Nat.add_sub_cancel]
  have hex : ∀ x : Sqf F (e + 2), ∃ y : S × F × Fˣ, ∃ c : F, c ≠ 0 ∧ C c * y.1.1.comp (C (y.2.2 : F) * X + C y.2.1) = x.1 := by
    intro x
    obtain ⟨f, hf, a, b, c, hb, hc, h1⟩ := h x.1 x.2.2.2 x.2.2.1
    exact ⟨⟨⟨f, hf⟩, a, Units.mk0 b hb⟩, c, hc, h1⟩
  choose Φ c hc hΦ using hex
  have hinj : Function.Injective Φ := by
    intro x y hxy
    have h1 := x.2.1
    have h2 := y.2.1
    rw [Monic, ← hΦ x, leadingCoeff_mul, leadingCoeff_C] at h1
    rw [Monic, ← hΦ y, ← hxy, leadingCoeff_mul, leadingCoeff_C] at h2
    have h3 : c x = c y := by
      have h0 : leadingCoeff ((Φ x).1.1.comp (C ((Φ x).2.2 : F) * X + C (Φ x).2.1)) ≠ 0 := by
        intro h0
        rw [h0, mul_zero] at h1
        exact zero_ne_one h1
      exact mul_right_cancel₀ h0 (h1.trans h2.symm)
    apply Subtype.ext
    rw [← hΦ x, ← hΦ y, h3, hxy]
  have h1 := Nat.card_le_card_of_injective Φ hinj
  rw [Nat.card_prod, Nat.card_prod, Nat.card_eq_fintype_card (α := F), Nat.card_eq_fintype_card (α := Fˣ), Fintype.card_units,
    Nat.card_eq_fintype_card (α := S), Fintype.card_coe] at h1
  have h2 := card_sqf (F := F) e
  have h3 := two_le_card (F := F)
  have h4 : card F ^ (e + 2) = card F ^ (e + 1) * (card F - 1) + card F ^ (e + 1) := by
    rw [pow_succ (card F) (e + 1), ← Nat.mul_succ]
    congr 1
    omega
  have h5 : card F ^ e * (card F * (card F - 1)) ≤ S.card * (card F * (card F - 1)) := by
    have : card F ^ (e + 1) * (card F - 1) = card F ^ e * (card F * (card F - 1)) := by rw [pow_succ]; ring
    omega
  exact Nat.le_of_mul_le_mul_right h5 (Nat.mul_pos (by omega) (by omega))

/-- C66: any set of polynomials that represents all squarefree ones of the right degrees up to factors and substitutions has
at least a seventh of that many elements. -/
theorem C66_optimal {p r genus : Nat} {marked : Bool} (hc : card F = p ^ r) (hq : 3 ≤ card F) (hg0 : 0 < genus) (S : Finset F[X])
    (h1 : Represents S (2 * genus + 1)) (h2 : marked = false → Represents S (2 * genus + 2)) :
    curves (p ^ r) p genus marked ≤ 7 * S.card := by
  rw [← hc]
  have b1 := curvesOfDegree_le (p := p) hq (d := 2 * genus + 1) (by omega)
  have b2 := curvesOfDegree_le (p := p) hq (d := 2 * genus + 2) (by omega)
  have c1 := h1.filter.le (by omega)
  unfold curves
  cases marked with
  | true =>
    have := Finset.card_filter_le S fun f => f.natDegree = 2 * genus + 1
    simp only [if_true]
    omega
  | false =>
    have c2 := (h2 rfl).filter.le (by omega)
    have hd : Disjoint (S.filter fun f => f.natDegree = 2 * genus + 1) (S.filter fun f => f.natDegree = 2 * genus + 2) := by
      rw [Finset.disjoint_filter]
      intro f _ e1 e2
      omega
    have c3 := Finset.card_le_card (Finset.union_subset (Finset.filter_subset (fun f => f.natDegree = 2 * genus + 1) S)
      (Finset.filter_subset (fun f => f.natDegree = 2 * genus + 2) S))
    rw [Finset.card_union_of_disjoint hd] at c3
    simp only [Bool.false_eq_true, if_false]
    omega

namespace BlockIterator

/-- C66: packages are not many.  Each package is counted by one of the tuples, packages are at most of the given size, and up
to a package for each choice outside of the ranges their average size is at least a quarter of the given one. -/
theorem C66_packages (d : Descr) (package : Nat) (hv : d.Valid package) (L : Finset (List Nat)) (hL : ∀ v, v ∈ L ↔ d.Contains v) :
    ∃ it boxes, make d.length d.blocks package d.sets d.deps = .ok it ∧ Terminates (fun n => visits asBlock n it) boxes ∧
      boxes.length ≤ L.card ∧ L.card ≤ package * boxes.length ∧
      package * boxes.length ≤ 4 * L.card + package * (L.image d.others).card := by
  obtain ⟨it, steps, h1, hb⟩ := make_ok hv
  have hex : ∀ t, ∃ box, Raw d steps t → asBlock { it with position := t } = .ok box ∧
      boxSize box ≤ package ∧ ∀ u, InBox box u ↔ Pack d steps t u := by
    intro t
    by_cases ht : Raw d steps t
    · obtain ⟨v, box, a1, a2, a3, a4⟩ := asBlock_ok hv hb ht
      exact ⟨box, fun _ => ⟨a2, boxSize_le hv hb a3.length_eq a4, fun u => inBox_iff_pack hv ht a3 a4⟩⟩
    · exact ⟨[], fun h => absurd h ht⟩
  choose g hg using hex
  refine ⟨it, it.rawList.map g, h1, block_visits hv hb asBlock g (fun t ht => (hg t ht).1), ?_⟩
  rw [List.length_map]
  obtain ⟨b1, b2⟩ := hb.raw_le hv hL
  refine ⟨b1, ?_, ?_⟩
  · choose T hT hc using card_inBox
    have h2 : L ⊆ it.rawList.toFinset.biUnion fun t => T (g t) := by
      intro v hvL
      obtain ⟨t, ht, hp⟩ := (contains_iff hv hb).1 ((hL v).1 hvL)
      rw [Finset.mem_biUnion]
      exact ⟨t, List.mem_toFinset.2 ((hb.mem_rawList hv).2 ht), (hT _ _).2 (((hg t ht).2.2 v).2 hp)⟩
    have h3 := (Finset.card_le_card h2).trans (Finset.card_biUnion_le_card_mul _ _ package (by
      intro t ht
      rw [hc]
      exact (hg t ((hb.mem_rawList hv).1 (List.mem_toFinset.1 ht))).2.1))
    rw [List.toFinset_card_of_nodup (hb.nodup_rawList hv), Nat.mul_comm] at h3
    exact h3
  · by_cases hc : ∀ i j M, (i, j, M) ∈ d.deps → j ∉ d.blocks.map Prod.fst
    · have h2 := tuples_ge hv hc hL
      have h3 := Nat.mul_le_mul_left package b2
      rcases hb.few hv h1 with h4 | h4
      · rw [h4, mul_one] at h3
        omega
      · have h5 := Nat.mul_le_mul_left (L.image d.others).card h4
        calc _ ≤ _ := h3
          _ = (L.image d.others).card *
              ((d.blocks.map fun e => pieces (e.2.2 - e.2.1) (steps e.1)).prod * package) := by ring
          _ ≤ _ := h5
          _ = 4 * ((L.image d.others).card * (d.blocks.map fun e => e.2.2 - e.2.1).prod) := by ring
          _ ≤ 4 * L.card := Nat.mul_le_mul_left _ h2
          _ ≤ _ := Nat.le_add_right _ _
    · push Not at hc
      obtain ⟨i, j, M, hm, hj⟩ := hc
      have h2 : package = 1 := by
        rcases hv.dep_coupled i j M hm with ⟨S, hS, _⟩ | ⟨lo, hi, _, h2, _⟩
        · exact absurd (List.mem_map.2 ⟨_, hS, rfl⟩) (hv.disj_bs j hj)
        · exact h2
      rw [h2, one_mul]
      omega

end BlockIterator

namespace CurveIterator

/-- The packages of several enumerators. -/
theorem packages_of {package : Nat} (f : EnumeratorArgs → Nat) (args : List EnumeratorArgs)
    (hv : ∀ a ∈ args, a.toDescr.Valid package) (hf : ∀ a ∈ args, HasCount a (f a)) :
    ∃ es boxes, args.mapM (fun a => BlockIterator.make a.length a.blocks package a.sets a.deps) = .ok es ∧
      (∀ p, Terminates (fun n => visits asBlock n { prime := p, enumerators := es, ix := 0 }) boxes) ∧
      boxes.length ≤ (args.map f).sum ∧ (args.map f).sum ≤ package * boxes.length ∧
      package * boxes.length ≤ 4 * (args.map f).sum + package * (args.map outside).sum := by
  suffices h : ∃ es bss, args.mapM (fun a => BlockIterator.make a.length a.blocks package a.sets a.deps) = .ok es ∧
      List.Forall₂ (fun e bs => e.isEnd = false ∧
        Terminates (fun n => BlockIterator.visits BlockIterator.asBlock n e) bs) es bss ∧
      bss.flatten.length ≤ (args.map f).sum ∧ (args.map f).sum ≤ package * bss.flatten.length ∧
      package * bss.flatten.length ≤ 4 * (args.map f).sum + package * (args.map outside).sum by
    obtain ⟨es, bss, h1, h2, h3⟩ := h
    refine ⟨es, bss.flatten, h1, ?_, h3⟩
    intro p
    obtain ⟨N, hN⟩ := visits_all (p := p) es [] bss h2
    exact ⟨N, fun n hn => visits_mono hn (hN [] rfl)⟩
  induction args with
  | nil => exact ⟨[], [], rfl, .nil, by simp, by simp, by simp⟩
  | cons a args ih =>
    obtain ⟨es, bss, h1, h2, h3, h4, h5⟩ := ih (fun b hb => hv b (List.mem_cons_of_mem _ hb))
      fun b hb => hf b (List.mem_cons_of_mem _ hb)
    have hva := hv a List.mem_cons_self
    obtain ⟨T, hT, hTc⟩ := hf a List.mem_cons_self
    obtain ⟨it, steps, m1, hb⟩ := BlockIterator.make_ok hva
    obtain ⟨it', boxes, c1, c2, c3, c4, c5⟩ := BlockIterator.C66_packages a.toDescr package hva T hT
    rw [m1] at c1
    obtain rfl := Res.ok.inj c1
    rw [← outside_eq hT, hTc] at c5
    rw [hTc] at c3 c4
    refine ⟨it :: es, boxes :: bss, ?_, .cons ⟨hb.not_end, c2⟩ h2, ?_, ?_, ?_⟩
    · rw [List.mapM_cons, h1]
      have : BlockIterator.make a.length a.blocks package a.sets a.deps = .ok it := m1
      rw [this]
      rfl
    all_goals
      rw [List.flatten_cons, List.length_append]
      simp only [List.map_cons, List.sum_cons, Nat.mul_add]
      omega

end CurveIterator

/-- C66: packages of curves are not many. -/
theorem C66_curvePackages {p r : Nat} {g : F} {table : FqElementTable F} (ht : BuiltFqTable p r g table)
    (hp2 : p ≠ 2) (hq : card F ≤ 2147483648) (genus : Nat) (hg0 : 0 < genus) (hgen : genus < 1073741824)
    (marked : Bool) (package : Nat) (hpk : 0 < package) :
    ∃ it boxes, make table genus marked package = .ok it ∧ Terminates (fun n => visits asBlock n it) boxes ∧
      boxes.length ≤ curves (p ^ r) p genus marked ∧ curves (p ^ r) p genus marked ≤ package * boxes.length ∧
      package * boxes.length ≤ 4 * curves (p ^ r) p genus marked + package * choices (p ^ r) p genus marked := by
  obtain ⟨hp, hr, hcard, hprim, h1, h2, h3, h4, _⟩ := ht.facts
  have h2c := two_le_card (F := F)
  have hodd := odd_card_of hp hp2 hcard hr
  have hs : TableSize table (card F) := ⟨h3, h4, h2c, hq⟩
  have hds : ∀ d ∈ degrees genus marked, 3 ≤ d := by
    intro d hd
    have := (mem_degrees hgen).1 hd
    omega
  obtain ⟨f, e1, e2⟩ := allArgs_measure table hs hodd.1 _ hds
  obtain ⟨es, boxes, b1, b2, b3, b4, b5⟩ := packages_of (package := package) f _ (by
    intro a ha
    obtain ⟨d, hd, ha⟩ := List.mem_flatMap.1 ha
    obtain ⟨A, _, hA⟩ := enumeratorArgs_kind hs (hds d hd) a ha
    exact hA.valid package hpk) e1
  have e3 := allArgs_outside table hs _ hds
  have e4 : ((degrees genus marked).map fun d => curvesOfDegree (card F) table.prime d).sum =
      curves (p ^ r) p genus marked := by
    rw [degrees_eq hgen, h1, ← hcard]
    unfold curves
    cases marked <;> simp
  have e5 : ((degrees genus marked).map fun d => choicesOfDegree (card F) table.prime d).sum =
      choices (p ^ r) p genus marked := by
    rw [degrees_eq hgen, h1, ← hcard]
    unfold choices
    cases marked <;> simp
  rw [e2, e4] at b3 b4 b5
  rw [e5] at e3
  refine ⟨_, boxes, ?_, b2 table.prime, b3, b4, b5.trans (Nat.add_le_add_left (Nat.mul_le_mul_left _ e3) _)⟩
  unfold make
  rw [if_neg (by rw [h1]; exact hp2), if_neg (by omega), if_neg (by rw [h1]; exact hp.ne_zero)]
  show (_ >>= _) = _
  rw [b1]
  rfl

/-- C66: the number of choices is bounded in terms of the degree. -/
theorem C66_choices {q p d : Nat} (hd : 3 ≤ d) : choicesOfDegree q p d ≤ d ^ 3 ∧ (p ≤ d → choicesOfDegree q p d ≤ 7) := by
  have h3 : Nat.gcd 3 (q - 1) ≤ 3 := Nat.gcd_le_left _ (by omega)
  have h27 : 3 ^ 3 ≤ d ^ 3 := Nat.pow_le_pow_left hd 3
  unfold choicesOfDegree
  split_ifs with h1 h2
  · refine ⟨?_, fun h => by omega⟩
    have h4 : ∀ m ∈ Finset.range (d - 1), (1 + ∑ l ∈ Finset.range m, Nat.gcd (m - l) (q - 1)) ≤ 1 + d * d := by
      intro m hm
      have hm := Finset.mem_range.1 hm
      have h5 : ∀ l ∈ Finset.range m, Nat.gcd (m - l) (q - 1) ≤ d := by
        intro l hl
        have hl := Finset.mem_range.1 hl
        exact (Nat.gcd_le_left _ (by omega)).trans (by omega)
      have h6 := Finset.sum_le_card_nsmul _ _ _ h5
      rw [Finset.card_range, smul_eq_mul] at h6
      have := Nat.mul_le_mul_right d (show m ≤ d by omega)
      omega
    have h7 := Finset.sum_le_card_nsmul _ _ _ h4
    rw [Finset.card_range, smul_eq_mul] at h7
    obtain ⟨e, rfl⟩ : ∃ e, d = e + 3 := ⟨d - 3, by omega⟩
    rw [show e + 3 - 1 = e + 2 by omega] at h7 ⊢
    nlinarith
  · omega
  · omega

/-! ### The hypotheses are met -/

/-- The number in the example in `Props/CurveIterator.lean`; and for the field of 7 elements and genus 2. -/
example : curves 3 3 1 true = 13 ∧ curves 7 7 2 true = 481 ∧ curves 7 7 2 false = 3752 ∧ choices 7 7 2 false = 39 := by decide

/-- 3 divides the degree, and does not. -/
example : curvesOfDegree 9 3 3 = 43 ∧ curvesOfDegree 9 3 4 = 243 := by decide

example : ∃ table, BuiltFqTable 7 1 (3 : ZMod 7) table ∧ 7 ≠ 2 ∧ card (ZMod 7) ≤ 2147483648 ∧ 3 ≤ card (ZMod 7) ∧
    card (ZMod 7) = 7 ^ 1 := by
  obtain ⟨t, ht⟩ := exists_built (F := ZMod 7) (p := 7) (r := 1) (by decide) (by decide) (by decide) (by decide)
    primitive_three_seven
  exact ⟨t, ht, by decide, by decide, by decide, by decide⟩

/-- The set of all polynomials of bounded degree represents. -/
example : ∃ S : Finset (ZMod 7)[X], Represents S (2 * 1 + 1) ∧ Represents S (2 * 1 + 2) := by
  refine ⟨(Finset.univ : Finset (Fin 5 → ZMod 7)).image fun c => ∑ i : Fin 5, C (c i) * X ^ (i : ℕ), ?_⟩
  have key : ∀ d, d < 5 → Represents ((Finset.univ : Finset (Fin 5 → ZMod 7)).image fun c =>
      ∑ i : Fin 5, C (c i) * X ^ (i : ℕ)) d := by
    intro d hd h _ hdeg
    refine ⟨h, Finset.mem_image.2 ⟨fun i => h.coeff i, Finset.mem_univ _, ?_⟩, 0, 1, 1, one_ne_zero, one_ne_zero, by simp⟩
    rw [Fin.sum_univ_eq_sum_range (fun i => C (h.coeff i) * X ^ i) 5, ← h.as_sum_range_C_mul_X_pow' (by omega)]
  exact ⟨key 3 (by omega), key 4 (by omega)⟩

/-- The tuples of a description with 12 packages of size at most 3, see `Props/Block.lean`. -/
example : exampleDescr.Valid 3 ∧ ∃ L : Finset (List Nat), ∀ v, v ∈ L ↔ exampleDescr.Contains v := by
  refine ⟨exampleDescr_valid, ?_⟩
  obtain ⟨it, boxes, _, _, _, _, h4⟩ := C03_packages_partition _ _ exampleDescr_valid
  choose T hT _ using BlockIterator.card_inBox
  exact ⟨boxes.toFinset.biUnion T, fun v => by rw [Finset.mem_biUnion, h4]; simp [hT]⟩

end Hycu
