import Verif.Lemmas.Ramification

/-!
The ramification type from a factorisation, and the main result about `ramification_type`.
-/

namespace Hycu

open Polynomial UniqueFactorizationMonoid Fintype

set_option linter.unusedSectionVars false

section Factor
variable {F : Type} [Field F]

theorem factorDegreeList_map {α β : Type} (φ : α → β) (l : List (List α × Nat)) :
    Curve.factorDegreeList (l.map fun pe => (pe.1.map φ, pe.2)) = Curve.factorDegreeList l := by
  unfold Curve.factorDegreeList
  rw [List.flatMap_map]
  simp

/-- The degrees of the factors of any factorisation. -/
theorem factorDegreeList_eq {f : F[X]} {l : List (List F × Nat)} (h : IsFactorisation f l) :
    (Curve.factorDegreeList l : Multiset Nat) = factorDegrees f := by
  obtain ⟨a, ha, hf⟩ := h.lead
  have hf0 : f ≠ 0 := by
    rw [hf]
    refine mul_ne_zero (by simpa using ha) (List.prod_ne_zero ?_)
    intro h0
    obtain ⟨pe, hpe, h0⟩ := List.mem_map.1 h0
    exact pow_ne_zero _ (h.irreducible pe hpe).ne_zero h0
  let L : List F[X] := l.flatMap fun pe => List.replicate pe.2 (polyOfList pe.1)
  have hprod : (L : Multiset F[X]).prod = (l.map fun pe => polyOfList pe.1 ^ pe.2).prod := by
    rw [Multiset.prod_coe]
    show (l.flatMap fun pe => List.replicate pe.2 (polyOfList pe.1)).prod = _
    generalize l = l
    induction l with
    | nil => rfl
    | cons pe l ih => rw [List.flatMap_cons, List.prod_append, List.prod_replicate, ih]; rfl
  have hirr : ∀ x ∈ (L : Multiset F[X]), Irreducible x := by
    intro x hx
    obtain ⟨pe, hpe, hx⟩ := List.mem_flatMap.1 (Multiset.mem_coe.1 hx)
    rw [List.eq_of_mem_replicate hx]
    exact h.irreducible pe hpe
  have hass : Associated (factors f).prod (L : Multiset F[X]).prod := by
    refine (factors_prod hf0).trans ?_
    rw [hprod]
    rw [hf]
    refine ⟨((isUnit_C.2 (isUnit_iff_ne_zero.2 ha)).unit⁻¹ : F[X]ˣ), ?_⟩
    rw [mul_comm, ← mul_assoc, IsUnit.val_inv_mul, one_mul]
  have hrel := factors_unique (fun x hx => irreducible_of_factor x hx) hirr hass
  have hdeg : (factors f).map natDegree = (L : Multiset F[X]).map natDegree := by
    rw [← Multiset.rel_eq, Multiset.rel_map]
    refine hrel.mono ?_
    intro a _ b _ hab
    exact natDegree_eq_of_degree_eq (degree_eq_degree_of_associated hab)
  rw [factorDegrees, hdeg, Multiset.map_coe]
  congr 1
  show _ = (l.flatMap fun pe => List.replicate pe.2 (polyOfList pe.1)).map natDegree
  rw [List.map_flatMap, Curve.factorDegreeList]
  have : ∀ pe ∈ l, List.replicate pe.2 (pe.1.length - 1) =
      List.map natDegree (List.replicate pe.2 (polyOfList pe.1)) := by
    intro pe hpe
    obtain ⟨b, hb, hb0⟩ := h.normal pe hpe
    rw [List.map_replicate, natDegree_polyOfList hb hb0]
  rw [List.flatMap_congr this]

end Factor

section Main
variable {F : Type} [Field F] [Fintype F] [DecidableEq F]

/-- An element of a prime field is the residue FLINT returns. -/
theorem coeff_cast {p : Nat} (rep : FqRep F p 1) (a : F) : ((rep.coeff a 0 : Nat) : F) = a := by
  have h0 : rep.coeff 0 0 = 0 := by
    have h := rep.coeff_add 0 0 0 (by decide)
    have h2 := rep.coeff_lt 0 0
    rw [add_zero] at h
    rcases Nat.lt_or_ge (rep.coeff 0 0 + rep.coeff 0 0) p with h3 | h3
    · rw [Nat.mod_eq_of_lt h3] at h; omega
    · rw [Nat.mod_eq_sub_mod h3, Nat.mod_eq_of_lt (by omega)] at h; omega
  have hn : ∀ n : Nat, rep.coeff (n : F) 0 = n % p := by
    intro n
    induction n with
    | zero => rw [Nat.cast_zero, h0, Nat.zero_mod]
    | succ n ih =>
      rw [Nat.cast_succ, rep.coeff_add _ _ _ (by decide), ih, rep.coeff_one _ (by decide), if_pos rfl,
        Nat.mod_add_mod]
  apply rep.coeff_ext
  intro i hi
  obtain rfl : i = 0 := by omega
  rw [hn, Nat.mod_eq_of_lt (rep.coeff_lt a 0)]

variable {p r : Nat} {gF : F} {table : FqElementTable F}

theorem rhsPolynomial_ok (hT : BuiltFqTable p r gF table) {c : Curve F} (hc : GoodCurve p r c)
    (ht : c.table = table) : c.rhsPolynomial = .ok (c.coeffs.map (eltOf gF (card F))) := by
  obtain ⟨_, _, _, _, _, _, _, _, h⟩ := hT.facts
  unfold Curve.rhsPolynomial
  apply mapM_ok
  intro e he
  rw [ht]
  exact h e (hc.valid e he)

theorem rhsNmodPolynomial_ok (hT : BuiltFqTable p r gF table) {rep : FqRep F p r} {fl : FlintPoly F}
    (hfl : FlintOk rep fl) {c : Curve F} (hc : GoodCurve p r c) (ht : c.table = table) (hr : r = 1) :
    ∃ l, c.rhsNmodPolynomial fl = .ok l ∧ l.map (Nat.cast : Nat → F) = c.coeffs.map (eltOf gF (card F)) := by
  obtain ⟨_, _, _, _, _, _, _, _, h⟩ := hT.facts
  refine ⟨c.coeffs.map fun e => rep.coeff (eltOf gF (card F) e) 0, ?_, ?_⟩
  · unfold Curve.rhsNmodPolynomial
    rw [hc.expo, if_neg (by simp [hr])]
    apply mapM_ok
    intro e he
    have h1 := h e (hc.valid e he)
    rw [FqElementTable.at', rd_eq_ok] at h1
    rw [rdAt, ht, h1, Res.bind_ok, hfl.coeff_eq]
    rfl
  · subst hr
    rw [List.map_map]
    apply List.map_congr_left
    intro e _
    exact coeff_cast rep _

theorem hasSquarefreeRhs_ok (hT : BuiltFqTable p r gF table) {rep : FqRep F p r} {fl : FlintPoly F}
    (hfl : FlintOk rep fl) {c : Curve F} (hc : GoodCurve p r c) (ht : c.table = table) :
    ∃ b, c.hasSquarefreeRhs fl = .ok b ∧ (b = true ↔ Squarefree (rhsPoly gF c)) := by
  unfold Curve.hasSquarefreeRhs
  by_cases hr : r = 1
  · obtain ⟨l, h1, h2⟩ := rhsNmodPolynomial_ok hT hfl hc ht hr
    rw [hc.expo, if_pos hr, h1]
    refine ⟨_, rfl, ?_⟩
    rw [hfl.nmod_squarefree hr, h2, rhsPoly]
  · rw [hc.expo, if_neg hr, rhsPolynomial_ok hT hc ht]
    exact ⟨_, rfl, hfl.fq_squarefree _⟩

theorem rhsFactorDegrees_ok (hT : BuiltFqTable p r gF table) {rep : FqRep F p r} {fl : FlintPoly F}
    (hfl : FlintOk rep fl) {c : Curve F} (hc : GoodCurve p r c) (ht : c.table = table)
    (h0 : rhsPoly gF c ≠ 0) :
    ∃ l, c.rhsFactorDegrees fl = .ok l ∧ (l : Multiset Nat) = factorDegrees (rhsPoly gF c) := by
  unfold Curve.rhsFactorDegrees
  by_cases hr : r = 1
  · obtain ⟨l, h1, h2⟩ := rhsNmodPolynomial_ok hT hfl hc ht hr
    rw [hc.expo, if_pos hr, h1]
    refine ⟨_, rfl, ?_⟩
    have := hfl.nmod_factor hr l (by rw [h2]; exact h0)
    rw [h2] at this
    rw [← factorDegreeList_map (Nat.cast : Nat → F)]
    exact factorDegreeList_eq this
  · rw [hc.expo, if_neg hr, rhsPolynomial_ok hT hc ht]
    exact ⟨_, rfl, factorDegreeList_eq (hfl.fq_factor _ h0)⟩

/-- `ramification_type` gives the ascending list of the degrees of the branch points. -/
theorem ramificationType_ok (hT : BuiltFqTable p r gF table) {rep : FqRep F p r} {fl : FlintPoly F}
    (hfl : FlintOk rep fl) {c : Curve F} (hc : GoodCurve p r c) (ht : c.table = table)
    (hsf : Squarefree (rhsPoly gF c)) (hd : c.coeffs.length ≤ 2147483648)
    (hdr : (c.coeffs.length - 1) * r < 4294967296)
    (hpts : ∀ k, 0 < k → k < c.coeffs.length - 1 → ∀ n, c.nmbPoints.find? (k * r) = some n →
      n.2 = ((branchDegrees (rhsPoly gF c)).filter (· ∣ k)).sum) :
    ∃ l, c.ramificationType fl = .ok l ∧ l.Pairwise (· ≤ ·) ∧
      (l : Multiset Nat) = branchDegrees (rhsPoly gF c) := by
  obtain ⟨_, _, _, hg, _⟩ := hT.facts
  have hpos := List.length_pos_iff.2 hc.ne
  have hdeg : c.degree = c.coeffs.length - 1 := degree_eq hc.ne hc.len
  have hnd : (rhsPoly gF c).natDegree = c.coeffs.length - 1 := natDegree_rhs hg hc
  have hM := branchDegrees_sum hsf.ne_zero
  have hG : halfDegree (rhsPoly gF c) = (c.coeffs.length - 1 + 1) / 2 := by rw [halfDegree, hnd]
  have hgen : u32 (2 * c.genus + 2) = 2 * halfDegree (rhsPoly gF c) := by
    rw [hG]
    unfold Curve.genus
    rw [hdeg]
    rcases Nat.eq_zero_or_pos (c.coeffs.length - 1) with h | h
    · rw [h]; decide
    · split
      · rw [u32sub_of_le (show 2 ≤ c.coeffs.length - 1 by omega), u32_of_lt (by omega)]; omega
      · rw [u32sub_of_le (show 1 ≤ c.coeffs.length - 1 by omega), u32_of_lt (by omega)]; omega
  have hinv : RamInv (branchDegrees (rhsPoly gF c)) (c.coeffs.length - 1) 1 0
      (Curve.lowerInit (c.coeffs.length - 1)) [] := by
    have h0 : ∀ (P : Nat → Prop) [DecidablePred P], (∀ m, P m → m = 0) →
        (branchDegrees (rhsPoly gF c)).filter P = 0 := by
      intro P _ hP
      rw [Multiset.filter_eq_nil]
      intro m hm h1
      have := branchDegrees_pos hm
      have := hP m h1
      omega
    refine ⟨by omega, ?_, (lowerInit_spec _).1, ?_, ?_, List.Pairwise.nil⟩
    · rw [h0 _ (by intro m hm; omega)]; rfl
    · intro g _ _
      rw [(lowerInit_spec _).2 g, h0 _ (by rintro m ⟨hm, _⟩; omega)]; rfl
    · rw [h0 _ (by intro m hm; omega)]; rfl
  obtain ⟨fx, sum, lower, rs, h1, h2, h3⟩ := ramificationLoop_spec c (branchDegrees (rhsPoly gF c))
    (by omega) hdeg hc.expo hdr hpts (c.coeffs.length - 1 - 1) 1 0 _ [] (by omega) hinv
  have hsum : sum ≤ 2 * halfDegree (rhsPoly gF c) := by
    rw [h3.sum_eq, ← hM]
    exact filter_sum_le _ _
  unfold Curve.ramificationType
  rw [hdeg, h1]
  simp only
  rw [hgen, u32sub_of_le hsum, u32_of_lt (by omega)]
  split
  · rename_i hlt
    rw [← hM] at hlt ⊢
    obtain ⟨h4, h5⟩ := ramInv_final h3 hlt
    exact ⟨_, rfl, h5, h4⟩
  · obtain ⟨ds, h4, h5⟩ := rhsFactorDegrees_ok hT hfl hc ht hsf.ne_zero
    rw [h4, Res.bind_ok]
    refine ⟨_, rfl, ?_, ?_⟩
    · refine (sortBy_sorted _ ?_ ?_ _).imp ?_
      · intro a b c h1 h2
        simp only [decide_eq_false_iff_not] at h1 h2 ⊢
        omega
      · intro a b h1
        simp only [decide_eq_false_iff_not, decide_eq_true_eq] at h1 ⊢
        omega
      · intro a b h
        simp only [decide_eq_false_iff_not] at h
        omega
    · rw [Multiset.coe_eq_coe.2 (sortBy_perm _ _), ← Multiset.coe_add, h5, branchDegrees, hnd,
        add_comm]
      congr 1
      split <;> rfl

end Main
end Hycu
