import Verif.Lemmas.SquarefreeCount
import Verif.Lemmas.Census
import Verif.Spec.Totals

/-!
The numbers of polynomials with given data add up to the number of all polynomials.
-/

namespace Hycu

open Polynomial Fintype

variable {F : Type} [Field F] [Fintype F]

theorem finite_sqf (n : Nat) : Finite {f : F[X] // Squarefree f ∧ f.natDegree = n} :=
  ((finite_polys F n).subset fun f (h : Squarefree f ∧ f.natDegree = n) => ⟨h.1.ne_zero, h.2⟩).to_subtype

theorem finite_wanted (genus : Nat) (marked : Bool) : Finite {f : F[X] // Wanted genus marked f} := by
  refine Set.Finite.to_subtype (((finite_polys F (2 * genus + 1)).union (finite_polys F (2 * genus + 2))).subset ?_)
  rintro f ⟨h1, h2 | ⟨_, h2⟩⟩
  · exact Or.inl ⟨h1.ne_zero, h2⟩
  · exact Or.inr ⟨h1.ne_zero, h2⟩

/-- The number of all polynomials that are asked for. -/
theorem card_wanted {genus : Nat} (hg : 0 < genus) (marked : Bool) :
    Nat.card {f : F[X] // Wanted genus marked f} = polynomials (card F) genus marked := by
  have h1 := card_squarefree (F := F) (2 * genus - 1)
  have h2 := card_squarefree (F := F) (2 * genus)
  rw [show 2 * genus - 1 + 2 = 2 * genus + 1 by omega, show 2 * genus - 1 + 1 = 2 * genus by omega] at h1
  cases marked with
  | true =>
    have he : {f : F[X] // Wanted genus true f} = {f : F[X] // Squarefree f ∧ f.natDegree = 2 * genus + 1} := by
      congr 1
      funext f
      simp [Wanted]
    rw [he, h1, polynomials, if_pos rfl]
    ring
  | false =>
    have := finite_sqf (F := F) (2 * genus + 1)
    have := finite_sqf (F := F) (2 * genus + 2)
    have he : Nat.card {f : F[X] // Wanted genus false f} =
        Nat.card ({f : F[X] // Squarefree f ∧ f.natDegree = 2 * genus + 1} ⊕
          {f : F[X] // Squarefree f ∧ f.natDegree = 2 * genus + 2}) := by
      classical
      refine Nat.card_congr ?_
      refine (Equiv.subtypeEquivRight fun f => ?_).trans
        (subtypeOrEquiv (fun f : F[X] => Squarefree f ∧ f.natDegree = 2 * genus + 1)
          (fun f => Squarefree f ∧ f.natDegree = 2 * genus + 2) ?_)
      · unfold Wanted
        tauto
      · rw [Pi.disjoint_iff]
        intro f
        rw [Prop.disjoint_iff]
        rintro ⟨⟨_, h3⟩, _, h4⟩
        omega
    rw [he, Nat.card_sum, h1, h2, polynomials, if_neg (by decide)]
    ring

/-- There are not more polynomials with given data. -/
theorem census_le (E : Nat → Extension F) (m : Nat) {genus : Nat} (hg : 0 < genus) (marked : Bool) (k : Key) :
    census E m genus marked k ≤ polynomials (card F) genus marked := by
  have := finite_wanted (F := F) genus marked
  rw [← card_wanted hg marked]
  exact Nat.card_le_card_of_injective (fun f : {f : F[X] // Wanted genus marked f ∧ IsKey E m f k} =>
    (⟨f.1, f.2.1⟩ : {f : F[X] // Wanted genus marked f})) fun _ _ h => Subtype.ext (congrArg (fun x => x.1) h)

/-- The sum of all numbers of polynomials. -/
theorem census_sum (E : Nat → Extension F) (m : Nat) {genus : Nat} (hg : 0 < genus) (marked : Bool) {t : StoreMap}
    (hs : OMap.Sorted t) (ht : ∀ k z, (k, z) ∈ t ↔ 0 < z ∧ z = (census E m genus marked k : Int)) :
    (t.map Prod.snd).sum = (polynomials (card F) genus marked : Int) := by
  classical
  have hfin := finite_wanted (F := F) genus marked
  have := Fintype.ofFinite {f : F[X] // Wanted genus marked f}
  have hnd : (t.map Prod.fst).Nodup := by
    refine (List.nodup_map_iff_inj_on ?_).2 ?_
    · refine hs.imp fun {a b} h => ?_
      rintro rfl
      exact absurd h (by simp [LawfulLess.irrefl])
    · rintro ⟨k, z⟩ h1 ⟨k', z'⟩ h2 (rfl : k = k')
      rw [OMap.key_unique hs h1 h2]
  let key : {f : F[X] // Wanted genus marked f} → Key := fun f => (IsKey.exists E m f.1).choose
  have hkey : ∀ f, IsKey E m f.1 (key f) := fun f => (IsKey.exists E m f.1).choose_spec
  have hfib : ∀ k, (Finset.univ.filter fun f => key f = k).card = census E m genus marked k := by
    intro k
    rw [census, ← Fintype.card_subtype, ← Nat.card_eq_fintype_card]
    refine Nat.card_congr ⟨fun f => ⟨f.1.1, f.1.2, by have := hkey f.1; rw [f.2] at this; exact this⟩, fun f => ⟨⟨f.1, f.2.1⟩, (hkey _).eq f.2.2⟩, fun _ => rfl,
      fun _ => rfl⟩
  have hmem : ∀ f : {f : F[X] // Wanted genus marked f}, key f ∈ (t.map Prod.fst).toFinset := by
    intro f
    rw [List.mem_toFinset, List.mem_map]
    refine ⟨(key f, _), (ht _ _).2 ⟨?_, rfl⟩, rfl⟩
    rw [← hfib]
    exact_mod_cast Finset.card_pos.2 ⟨f, by simp⟩
  have hsum : (t.map Prod.snd).sum = ∑ k ∈ (t.map Prod.fst).toFinset, (census E m genus marked k : Int) := by
    rw [List.sum_toFinset _ hnd, List.map_map]
    congr 1
    refine List.map_congr_left fun x hx => ?_
    exact ((ht x.1 x.2).1 hx).2
  rw [hsum, ← card_wanted hg marked, Nat.card_eq_fintype_card, ← Finset.card_univ,
    Finset.card_eq_sum_card_fiberwise (f := key) (t := (t.map Prod.fst).toFinset) fun f _ => hmem f]
  push_cast
  exact Finset.sum_congr rfl fun k _ => by rw [hfib]

end Hycu
