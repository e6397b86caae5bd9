import Verif.Lemmas.RamFactor

/-!
The assumptions on FLINT's polynomial routines can be met.
-/

namespace Hycu

open Polynomial UniqueFactorizationMonoid Fintype

set_option linter.unusedSectionVars false

variable {F : Type} [Field F] [Fintype F] [DecidableEq F]

/-- The coefficients of a polynomial. -/
noncomputable def listOfPoly (f : F[X]) : List F := (List.range (f.natDegree + 1)).map f.coeff

theorem polyOfList_listOfPoly (f : F[X]) : polyOfList (listOfPoly f) = f := by
  ext i
  rw [coeff_polyOfList, listOfPoly, List.getD_eq_getElem?_getD, List.getElem?_map]
  by_cases h : i < f.natDegree + 1
  · rw [List.getElem?_range h]; rfl
  · rw [List.getElem?_eq_none (by simpa using h), coeff_eq_zero_of_natDegree_lt (by omega)]
    rfl

theorem getLast_listOfPoly (f : F[X]) : (listOfPoly f).getLast? = some f.leadingCoeff := by
  rw [listOfPoly, List.range_succ, List.map_append, List.map_singleton, List.getLast?_append]
  rfl

/-- A factorisation. -/
noncomputable def factorList (f : F[X]) : List (List F × Nat) :=
  (factors f).toList.map fun h => (listOfPoly h, 1)

theorem factorList_ok {f : F[X]} (hf : f ≠ 0) : IsFactorisation f (factorList f) := by
  refine ⟨?_, ?_, ?_⟩
  · obtain ⟨u, hu⟩ := (factors_prod hf)
    obtain ⟨a, ha, hau⟩ := Polynomial.isUnit_iff.1 u.isUnit
    refine ⟨a, ha.ne_zero, ?_⟩
    rw [factorList, List.map_map]
    have : ((factors f).toList.map ((fun pe : List F × Nat => polyOfList pe.1 ^ pe.2) ∘ fun h => (listOfPoly h, 1)))
        = (factors f).toList := by
      conv_rhs => rw [← List.map_id (factors f).toList]
      apply List.map_congr_left
      intro h _
      simp [polyOfList_listOfPoly]
    rw [this, Multiset.prod_toList, hau, mul_comm, hu]
  · intro pe hpe
    obtain ⟨h, hh, rfl⟩ := List.mem_map.1 hpe
    simp only
    rw [polyOfList_listOfPoly]
    exact irreducible_of_factor h (Multiset.mem_toList.1 hh)
  · intro pe hpe
    obtain ⟨h, hh, rfl⟩ := List.mem_map.1 hpe
    exact ⟨_, getLast_listOfPoly h, leadingCoeff_ne_zero.2
      (irreducible_of_factor h (Multiset.mem_toList.1 hh)).ne_zero⟩

open scoped Classical in
/-- Routines as assumed exist for every presented field. -/
theorem exists_flint {p r : Nat} (rep : FqRep F p r) : ∃ fl : FlintPoly F, FlintOk rep fl := by
  refine ⟨.mk rep.coeff (fun cs => decide (Squarefree (polyOfList (cs.map (Nat.cast : Nat → F)))))
    (fun cs => decide (Squarefree (polyOfList cs)))
    (fun cs => (factorList (polyOfList (cs.map (Nat.cast : Nat → F)))).map fun pe =>
      (pe.1.map fun a => rep.coeff a 0, pe.2))
    (fun cs => factorList (polyOfList cs)), rfl, ?_, ?_, ?_, ?_⟩
  · intro cs; exact decide_eq_true_iff
  · intro cs h; exact factorList_ok h
  · intro _ cs; exact decide_eq_true_iff
  · rintro rfl cs h
    have : ∀ l : List (List F × Nat), (l.map fun pe => (pe.1.map fun a => rep.coeff a 0, pe.2)).map
        (fun pe => (pe.1.map (Nat.cast : Nat → F), pe.2)) = l := by
      intro l
      rw [List.map_map]
      conv_rhs => rw [← List.map_id l]
      apply List.map_congr_left
      intro pe _
      simp only [Function.comp, List.map_map, id]
      refine Prod.ext ?_ rfl
      simp only
      conv_rhs => rw [← List.map_id pe.1]
      apply List.map_congr_left
      intro a _
      exact coeff_cast rep a
    simp only
    rw [this]
    exact factorList_ok h

end Hycu
