import Verif.Props.CurveIterator
import Verif.Props.Store
import Verif.Spec.Census

/-!
The sum over the visited positions is the number of polynomials with a given key.
-/

set_option linter.unusedSectionVars false

namespace Hycu

open Polynomial Fintype CurveIterator

variable {F : Type} [Field F] [Fintype F] [DecidableEq F] {p r m : Nat} {gF : F} {table : FqElementTable F}
  {E : Nat → Extension F} {g : ∀ k, (E k).K} {rt : Nat → ReductionTable}

theorem IsKey.eq {f : F[X]} {k k' : Key} (h1 : IsKey E m f k) (h2 : IsKey E m f k') : k = k' :=
  h1.unique h2 rfl fun _ _ _ => rfl

/-- Being the key of a squarefree polynomial is invariant. -/
theorem IsKey.subst {f : F[X]} {k : Key} (hf : f ≠ 0) {a b c : F} (hb : b ≠ 0) (hc : c ≠ 0) :
    IsKey E m (C (c ^ 2) * f.comp (C b * X + C a)) k ↔ IsKey E m f k := by
  have hbr := branchDegrees_subst hf (a := a) hb hc
  have hpt : ∀ j, unramifiedPoints ((C (c ^ 2) * f.comp (C b * X + C a)).map (E j).ι) =
        unramifiedPoints (f.map (E j).ι) ∧
      ramifiedPoints ((C (c ^ 2) * f.comp (C b * X + C a)).map (E j).ι) = ramifiedPoints (f.map (E j).ι) := by
    intro j
    rw [map_subst]
    exact points_subst _ (by simpa using hb) (by simpa using hc)
  have hoff : ((List.range m).map fun j => ((card F ^ (j + 1) : Nat) : Int) + 1 -
      ((unramifiedPoints ((C (c ^ 2) * f.comp (C b * X + C a)).map (E (j + 1)).ι) +
        ramifiedPoints ((C (c ^ 2) * f.comp (C b * X + C a)).map (E (j + 1)).ι) : Nat) : Int)) =
      (List.range m).map fun j => ((card F ^ (j + 1) : Nat) : Int) + 1 -
      ((unramifiedPoints (f.map (E (j + 1)).ι) + ramifiedPoints (f.map (E (j + 1)).ι) : Nat) : Int) :=
    List.map_congr_left fun j _ => by rw [(hpt (j + 1)).1, (hpt (j + 1)).2]
  constructor
  · intro h
    exact ⟨h.ascending, h.ramification.trans hbr, h.offsets.trans hoff⟩
  · intro h
    exact ⟨h.ascending, h.ramification.trans hbr.symm, h.offsets.trans hoff.symm⟩

theorem squarefree_subst_iff {f : F[X]} {a b c : F} (hb : b ≠ 0) (hc : c ≠ 0) :
    Squarefree (C (c ^ 2) * f.comp (C b * X + C a)) ↔ Squarefree f := by
  refine ⟨fun h => ?_, fun h => squarefree_subst h hb hc⟩
  have h1 := squarefree_subst h (a := -(b⁻¹ * a)) (inv_ne_zero hb) (inv_ne_zero hc)
  have h2 : C (c⁻¹ ^ 2) * (C (c ^ 2) * f.comp (C b * X + C a)).comp (C b⁻¹ * X + C (-(b⁻¹ * a))) = f := by
    rw [mul_comp, C_comp, comp_assoc, ← mul_assoc, ← C_mul, ← mul_pow, inv_mul_cancel₀ hc, one_pow, C_1, one_mul]
    have h3 : (C b * X + C a).comp (C b⁻¹ * X + C (-(b⁻¹ * a))) = (X : F[X]) := by
      rw [add_comp, mul_comp, C_comp, C_comp, X_comp, mul_add, ← mul_assoc, ← C_mul, ← C_mul, mul_inv_cancel₀ hb,
        C_1, one_mul, add_assoc, ← C_add]
      have : b * -(b⁻¹ * a) + a = 0 := by field_simp; ring
      rw [this, C_0, add_zero]
    rw [h3, comp_X]
  rwa [h2] at h1

/-- The data of a polynomial that has the given key. -/
theorem census_invariant (k : Key) [∀ f : F[X], Decidable (Squarefree f ∧ IsKey E m f k)] :
    CurveInvariant (fun f : F[X] => if Squarefree f ∧ IsKey E m f k then 1 else 0) := by
  intro f a b c hb hc
  refine if_congr ?_ rfl rfl
  rw [squarefree_subst_iff hb hc]
  exact and_congr_right fun h => IsKey.subst h.ne_zero hb hc

/-- Offsets fit. -/
theorem IsKey.offsets_lt (hp2 : p ≠ 2) (hT : BuiltFqTable p r gF table)
    (hE : ∀ k, 0 < k → k ≤ m → BuiltExtension p r gF E g rt k) {f : F[X]} {k : Key} (hk : IsKey E m f k) :
    ∀ z ∈ k.offsets, -2147483648 < z ∧ z < 2147483648 := by
  obtain ⟨_, _, hF, _⟩ := hT.facts
  intro z hz
  rw [hk.offsets] at hz
  obtain ⟨j, hj, rfl⟩ := List.mem_map.1 hz
  have hj' := List.mem_range.1 hj
  obtain ⟨h8, h9, _, _, h10, _⟩ := (hE (j + 1) (by omega) (by omega)).facts hp2 hT
  have h11 := points_le h8.primK h9 (f.map (E (j + 1)).ι)
  have h12 := (hE (j + 1) (by omega) (by omega)).small
  have h13 : card (E (j + 1)).K = card F ^ (j + 1) := by rw [h10, hF, ← pow_mul, Nat.mul_comm r]
  omega

/-- The key of the twist. -/
theorem IsKey.twist (hp2 : p ≠ 2) (hT : BuiltFqTable p r gF table)
    (hE : ∀ k, 0 < k → k ≤ m → BuiltExtension p r gF E g rt k) {f : F[X]} (hf : f ≠ 0) {k : Key}
    (hk : IsKey E m f k) {ν : F} (hν : ¬ IsSquare ν) :
    ∃ k', k.twist = .ok k' ∧ IsKey E m (C ν * f) k' := by
  obtain ⟨hp, hr, hF, hg, h1, h2, _, h3, _⟩ := hT.facts
  have hν0 : ν ≠ 0 := by rintro rfl; exact hν ⟨0, by simp⟩
  have hchar : ringChar F ≠ 2 := by
    intro h
    have h5 := (FiniteField.even_card_iff_char_two).1 h
    obtain ⟨h6, _⟩ := odd_card_of hp hp2 hF hr
    omega
  refine ⟨_, twist_ok fun z hz => ?_, hk.ascending, ?_, ?_⟩
  · have := hk.offsets_lt hp2 hT hE z hz
    omega
  · exact hk.ramification.trans (branchDegrees_C_mul hf hν0).symm
  · show twistedOffsets k.offsets = _
    rw [hk.offsets, twistedOffsets]
    apply List.ext_getElem?
    intro j
    rw [List.getElem?_map, List.getElem?_mapIdx, List.getElem?_map]
    by_cases hj1 : j < m
    · rw [List.getElem?_range hj1]
      simp only [Option.map_some]
      obtain ⟨_, _, _, _, h10, _⟩ := (hE (j + 1) (by omega) (by omega)).facts hp2 hT
      have hcard : card (E (j + 1)).K = card F ^ (j + 1) := by rw [h10, hF, ← pow_mul, Nat.mul_comm r]
      obtain ⟨h11, h12⟩ := points_twist_extension (E (j + 1)).ι hchar hcard hν f
      split
      · rename_i hj0
        have := h12 (by omega)
        rw [hcard] at this
        congr 1
        omega
      · rename_i hj0
        rw [h11 (by omega)]
    · rw [List.getElem?_eq_none (by simpa using hj1)]
      rfl

/-- Keys can be written to files. -/
theorem IsKey.fits (hp2 : p ≠ 2) (hT : BuiltFqTable p r gF table)
    (hE : ∀ k, 0 < k → k ≤ m → BuiltExtension p r gF E g rt k) (hm : 0 < m) {f : F[X]} {k : Key}
    (hk : IsKey E m f k) (hf : f ≠ 0) (hd : 0 < f.natDegree) (hd2 : f.natDegree < 2147483647) : k.Fits := by
  have hsum : k.ramification.sum ≤ f.natDegree + 1 := by
    have h1 : k.ramification.sum = (branchDegrees f).sum := by rw [← hk.ramification, Multiset.sum_coe]
    rw [h1, branchDegrees, Multiset.sum_add, factorDegrees_sum hf]
    split <;> simp
  refine ⟨?_, ?_, ?_, ?_⟩
  · intro h
    have h1 := hk.ramification
    rw [h] at h1
    have h2 : (branchDegrees f).sum = 0 := by rw [← h1]; rfl
    rw [branchDegrees, Multiset.sum_add, factorDegrees_sum hf] at h2
    omega
  · intro h
    have := congrArg List.length (h.symm.trans hk.offsets)
    simp at this
    omega
  · intro x hx
    have := List.le_sum_of_mem hx
    omega
  · intro z hz
    have := hk.offsets_lt hp2 hT hE z hz
    omega

theorem IsKey.exists (E : Nat → Extension F) (m : Nat) (f : F[X]) : ∃ k, IsKey E m f k :=
  ⟨⟨(branchDegrees f).sort, _⟩, (branchDegrees f).pairwise_sort _, Multiset.sort_eq _ _, rfl⟩

/-- The number of polynomials as a sum. -/
theorem census_eq (E : Nat → Extension F) (m genus : Nat) (marked : Bool) (k : Key)
    [∀ f : F[X], Decidable (Squarefree f ∧ IsKey E m f k)] :
    census E m genus marked k =
      ∑ f ∈ polysOfDegree F (2 * genus + 1), (if Squarefree f ∧ IsKey E m f k then 1 else 0) +
        if marked then 0 else ∑ f ∈ polysOfDegree F (2 * genus + 2), if Squarefree f ∧ IsKey E m f k then 1 else 0 := by
  classical
  rw [← Finset.card_filter]
  cases marked with
  | true =>
    rw [if_pos rfl, Nat.add_zero]
    refine Nat.subtype_card _ fun f => ?_
    rw [Finset.mem_filter, mem_polys, Wanted]
    constructor
    · rintro ⟨⟨_, h2⟩, h3, h4⟩
      exact ⟨⟨h3, Or.inl h2⟩, h4⟩
    · rintro ⟨⟨h3, h2 | ⟨h, _⟩⟩, h4⟩
      · exact ⟨⟨h3.ne_zero, h2⟩, h3, h4⟩
      · cases h
  | false =>
    rw [if_neg (by decide), ← Finset.card_filter, ← Finset.card_union_of_disjoint]
    · refine Nat.subtype_card _ fun f => ?_
      rw [Finset.mem_union, Finset.mem_filter, Finset.mem_filter, mem_polys, mem_polys, Wanted]
      constructor
      · rintro (⟨⟨_, h2⟩, h3, h4⟩ | ⟨⟨_, h2⟩, h3, h4⟩)
        · exact ⟨⟨h3, Or.inl h2⟩, h4⟩
        · exact ⟨⟨h3, Or.inr ⟨rfl, h2⟩⟩, h4⟩
      · rintro ⟨⟨h3, h2 | ⟨_, h2⟩⟩, h4⟩
        · exact Or.inl ⟨⟨h3.ne_zero, h2⟩, h3, h4⟩
        · exact Or.inr ⟨⟨h3.ne_zero, h2⟩, h3, h4⟩
    · rw [Finset.disjoint_left]
      intro f h1 h2
      have h1 := (mem_polys.1 (Finset.mem_filter.1 h1).1).2
      have h2 := (mem_polys.1 (Finset.mem_filter.1 h2).1).2
      omega

end Hycu
