import Mathlib.Algebra.Polynomial.Eval.Irreducible
import Verif.Spec.Census
import Verif.Props.SingleMain

/-!
The numbers of polynomials do not depend on the choice of the fields.
-/

namespace Hycu

open Polynomial Fintype UniqueFactorizationMonoid

variable {F F' : Type} [Field F] [Field F']

/-- The degrees of the factors under an isomorphism of fields. -/
theorem factorDegrees_equiv (τ : F ≃+* F') {f : F[X]} (hf : f ≠ 0) :
    factorDegrees (f.map (τ : F →+* F')) = factorDegrees f := by
  let e : F[X] ≃+* F'[X] := mapEquiv τ
  have he : ∀ g : F[X], e g = g.map (τ : F →+* F') := fun _ => rfl
  have hf' : e f ≠ 0 := by simpa using hf
  have h1 : ∀ x ∈ (factors f).map e, Irreducible x := by
    intro x hx
    obtain ⟨y, hy, rfl⟩ := Multiset.mem_map.1 hx
    exact (MulEquiv.irreducible_iff e).2 (irreducible_of_factor y hy)
  have h2 : Associated ((factors f).map e).prod (factors (e f)).prod := by
    refine Associated.trans ?_ (factors_prod hf').symm
    have := (factors_prod hf).map e
    rwa [map_multiset_prod] at this
  have h3 := factors_unique h1 (fun x hx => irreducible_of_factor x hx) h2
  have h4 : ∀ s t : Multiset F'[X], Multiset.Rel Associated s t → s.map natDegree = t.map natDegree := by
    intro s t h
    induction h with
    | zero => rfl
    | cons h _ ih => rw [Multiset.map_cons, Multiset.map_cons, ih, natDegree_eq_of_degree_eq (degree_eq_degree_of_associated h)]
  have h5 := h4 _ _ h3
  unfold factorDegrees
  rw [← he, ← h5, Multiset.map_map]
  refine Multiset.map_congr rfl fun x _ => ?_
  show (x.map (τ : F →+* F')).natDegree = _
  exact natDegree_map _

theorem squarefree_equiv (τ : F ≃+* F') (f : F[X]) : Squarefree (f.map (τ : F →+* F')) ↔ Squarefree f := by
  let e : F[X] ≃+* F'[X] := mapEquiv τ
  have key : ∀ {R S : Type} [CommRing R] [CommRing S] (e : R ≃+* S) (x : R), Squarefree (e x) → Squarefree x := by
    intro R S _ _ e x h y hy
    have h1 := h (e y) (by rw [← map_mul]; exact map_dvd e hy)
    have := h1.map e.symm
    simpa using this
  constructor
  · exact key e f
  · intro h
    refine key e.symm (f.map (τ : F →+* F')) ?_
    have : e.symm (f.map (τ : F →+* F')) = f := e.symm_apply_apply f
    rwa [this]

variable [Fintype F] [Fintype F']

/-- Keys under an isomorphism of fields. -/
theorem isKey_equiv (τ : F ≃+* F') (hcard : card F = card F') {E : Nat → Extension F} {E' : Nat → Extension F'} {m : Nat}
    (hE : ∀ k, 0 < k → k ≤ m → card (E k).K = card (E' k).K) {f : F[X]} (hf : f ≠ 0) (k : Key) :
    IsKey E' m (f.map (τ : F →+* F')) k ↔ IsKey E m f k := by
  classical
  have hb : branchDegrees (f.map (τ : F →+* F')) = branchDegrees f := by
    unfold branchDegrees
    rw [factorDegrees_equiv τ hf, natDegree_map]
  have hp : ∀ j, j < m →
      (unramifiedPoints ((f.map (τ : F →+* F')).map (E' (j + 1)).ι) +
        ramifiedPoints ((f.map (τ : F →+* F')).map (E' (j + 1)).ι)) =
      (unramifiedPoints (f.map (E (j + 1)).ι) + ramifiedPoints (f.map (E (j + 1)).ι)) := by
    intro j hj
    obtain ⟨h1, h2⟩ := Single.points_same (hE (j + 1) (by omega) (by omega)) (E (j + 1)).ι
      ((E' (j + 1)).ι.comp (τ : F →+* F')) f
    rw [Polynomial.map_map, h1, h2]
  have ho : ((List.range m).map fun j => ((card F' ^ (j + 1) : Nat) : Int) + 1 -
        ((unramifiedPoints ((f.map (τ : F →+* F')).map (E' (j + 1)).ι) +
          ramifiedPoints ((f.map (τ : F →+* F')).map (E' (j + 1)).ι) : Nat) : Int)) =
      ((List.range m).map fun j => ((card F ^ (j + 1) : Nat) : Int) + 1 -
        ((unramifiedPoints (f.map (E (j + 1)).ι) + ramifiedPoints (f.map (E (j + 1)).ι) : Nat) : Int)) := by
    refine List.map_congr_left fun j hj => ?_
    rw [hp j (List.mem_range.1 hj), hcard]
  constructor
  · rintro ⟨h1, h2, h3⟩
    exact ⟨h1, h2.trans hb, h3.trans ho⟩
  · rintro ⟨h1, h2, h3⟩
    exact ⟨h1, h2.trans hb.symm, h3.trans ho.symm⟩

/-- The numbers of polynomials depend on the sizes of the fields only. -/
theorem census_congr_fields (hcard : card F = card F') {E : Nat → Extension F} {E' : Nat → Extension F'} {m : Nat}
    (hE : ∀ k, 0 < k → k ≤ m → card (E k).K = card (E' k).K) (genus : Nat) (marked : Bool) (k : Key) :
    census E m genus marked k = census E' m genus marked k := by
  let τ : F ≃+* F' := FiniteField.ringEquivOfCardEq hcard
  refine Nat.card_congr ((mapEquiv τ).toEquiv.subtypeEquiv fun f => ?_)
  show _ ↔ Wanted genus marked (f.map (τ : F →+* F')) ∧ IsKey E' m (f.map (τ : F →+* F')) k
  unfold Wanted
  rw [squarefree_equiv, natDegree_map]
  refine and_congr_right fun h => ?_
  rw [isKey_equiv τ hcard hE h.1.ne_zero]

end Hycu
