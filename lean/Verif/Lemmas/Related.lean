import Verif.Lemmas.Inversion
import Verif.Lemmas.StoreTally
import Verif.Spec.Related

/-!
Relations between tables of numbers of polynomials.
-/

namespace Hycu

open Polynomial Fintype

theorem sorted_nodup_keys {t : StoreMap} (hs : OMap.Sorted t) : (t.map Prod.fst).Nodup := by
  refine (List.nodup_map_iff_inj_on ?_).2 ?_
  · refine hs.imp fun {a b} h => ?_
    rintro rfl
    exact absurd h (by simp [LawfulLess.irrefl])
  · rintro ⟨k, z⟩ h1 ⟨k', z'⟩ h2 (rfl : k = k')
    rw [OMap.key_unique hs h1 h2]

/-- Ordered tables with the same entries are equal. -/
theorem sorted_table_ext {t t' : StoreMap} (hs : OMap.Sorted t) (hs' : OMap.Sorted t')
    (h : ∀ k z, (k, z) ∈ t ↔ (k, z) ∈ t') : t = t' := by
  have hnd : ∀ {t : StoreMap}, OMap.Sorted t → t.Nodup := fun hs => List.Nodup.of_map _ (sorted_nodup_keys hs)
  refine List.Perm.eq_of_pairwise (le := fun a b : Key × Int => CppLess.lt a.1 b.1 = true) ?_ hs hs'
    ((List.perm_ext_iff_of_nodup (hnd hs) (hnd hs')).2 fun x => h x.1 x.2)
  intro a b _ _ h1 h2
  have h3 := LawfulLess.trans _ _ _ h1 h2
  simp [LawfulLess.irrefl] at h3

section Census
variable {F : Type} [Field F] [Fintype F] {E : Nat → Extension F} {m genus : Nat} {marked : Bool} {t : StoreMap}

theorem total_census (hs : OMap.Sorted t) (ht : ∀ k z, (k, z) ∈ t ↔ 0 < z ∧ z = (census E m genus marked k : Int))
    (k : Key) : total t k = census E m genus marked k := by
  have h1 := Tally.self hs
  by_cases h0 : census E m genus marked k = 0
  · have : ∀ x ∈ t, x.1 ≠ k := by
      rintro ⟨k', z⟩ hx rfl
      have h2 := (ht _ _).1 hx
      rw [h0] at h2
      omega
    rw [total, List.filter_eq_nil_iff.2 (by simpa using fun k' z h => this (k', z) h), h0]
    rfl
  · have hm : (k, (census E m genus marked k : Int)) ∈ t := (ht _ _).2 ⟨by omega, rfl⟩
    exact ((h1.entry _ _).1 hm).2.symm

/-- Polynomials are counted by the values of a function of their keys. -/
theorem census_fiber (E : Nat → Extension F) (m genus : Nat) (marked : Bool) (hs : OMap.Sorted t)
    (ht : ∀ k z, (k, z) ∈ t ↔ 0 < z ∧ z = (census E m genus marked k : Int)) (φ : Key → Key) (l : Key) :
    total (t.map fun x => (φ x.1, x.2)) l =
      Nat.card {f : F[X] // Wanted genus marked f ∧ ∃ k, IsKey E m f k ∧ φ k = l} := by
  classical
  have hfin := finite_wanted (F := F) genus marked
  have := Fintype.ofFinite {f : F[X] // Wanted genus marked f}
  have hnd := sorted_nodup_keys hs
  let key : {f : F[X] // Wanted genus marked f} → Key := fun f => (IsKey.exists E m f.1).choose
  have hkey : ∀ f, IsKey E m f.1 (key f) := fun f => (IsKey.exists E m f.1).choose_spec
  have hfib : ∀ k, (Finset.univ.filter fun f => key f = k).card = census E m genus marked k := by
    intro k
    rw [census, ← Fintype.card_subtype, ← Nat.card_eq_fintype_card]
    refine Nat.card_congr ⟨fun f => ⟨f.1.1, f.1.2, by have := hkey f.1; rw [f.2] at this; exact this⟩,
      fun f => ⟨⟨f.1, f.2.1⟩, (hkey _).eq f.2.2⟩, fun _ => rfl, fun _ => rfl⟩
  have hall : Nat.card {f : F[X] // Wanted genus marked f ∧ ∃ k, IsKey E m f k ∧ φ k = l} =
      (Finset.univ.filter fun f => φ (key f) = l).card := by
    rw [← Fintype.card_subtype, ← Nat.card_eq_fintype_card]
    refine Nat.card_congr ⟨fun f => ⟨⟨f.1, f.2.1⟩, ?_⟩, fun f => ⟨f.1.1, f.1.2, key f.1, hkey f.1, f.2⟩,
      fun _ => rfl, fun _ => rfl⟩
    obtain ⟨k, h1, h2⟩ := f.2.2
    rw [(hkey _).eq h1]
    exact h2
  have hmem : ∀ f ∈ Finset.univ.filter (fun f => φ (key f) = l),
      key f ∈ ((t.map Prod.fst).filter fun k => φ k = l).toFinset := by
    intro f hf
    rw [List.mem_toFinset, List.mem_filter, List.mem_map]
    refine ⟨⟨(key f, _), (ht _ _).2 ⟨?_, rfl⟩, rfl⟩, by simpa using hf⟩
    rw [← hfib]
    exact_mod_cast Finset.card_pos.2 ⟨f, by simp⟩
  have hsum : total (t.map fun x => (φ x.1, x.2)) l =
      ∑ k ∈ ((t.map Prod.fst).filter fun k => φ k = l).toFinset, (census E m genus marked k : Int) := by
    rw [List.sum_toFinset _ (hnd.filter _), total, List.filter_map, List.filter_map, List.map_map, List.map_map]
    congr 1
    refine List.map_congr_left fun x hx => ?_
    exact ((ht x.1 x.2).1 (List.mem_of_mem_filter hx)).2
  rw [hsum, hall, Finset.card_eq_sum_card_fiberwise (f := key)
    (t := ((t.map Prod.fst).filter fun k => φ k = l).toFinset) hmem]
  push_cast
  refine Finset.sum_congr rfl fun k hk => ?_
  rw [← hfib, Finset.filter_filter]
  congr 2
  have hkl : φ k = l := by simpa using (List.mem_filter.1 (List.mem_toFinset.1 hk)).2
  refine Finset.filter_congr fun f _ => ?_
  constructor
  · intro h
    exact ⟨by rw [h]; exact hkl, h⟩
  · exact fun h => h.2

theorem IsKey.cut {f : F[X]} {k : Key} (hk : IsKey E m f k) {n : Nat} (hn : n ≤ m) : IsKey E n f (k.cut n) := by
  refine ⟨hk.ascending, hk.ramification, ?_⟩
  show k.offsets.take n = _
  rw [hk.offsets, ← List.map_take, List.take_range, Nat.min_eq_left hn]

/-- Counts over fewer extensions. -/
theorem census_cut (hs : OMap.Sorted t) (ht : ∀ k z, (k, z) ∈ t ↔ 0 < z ∧ z = (census E m genus marked k : Int))
    {n : Nat} (hn : n ≤ m) (l : Key) :
    total (t.map fun x => (x.1.cut n, x.2)) l = census E n genus marked l := by
  classical
  rw [census_fiber E m genus marked hs ht (Key.cut n) l, census]
  congr 1
  refine Nat.card_congr (Equiv.subtypeEquivRight fun f => and_congr_right fun _ => ?_)
  constructor
  · rintro ⟨k, h1, rfl⟩
    exact h1.cut hn
  · intro h
    obtain ⟨k, hk⟩ := IsKey.exists E m f
    exact ⟨k, hk, (hk.cut hn).eq h⟩

theorem census_cutTable (hs : OMap.Sorted t)
    (ht : ∀ k z, (k, z) ∈ t ↔ 0 < z ∧ z = (census E m genus marked k : Int)) {n : Nat} (hn : n ≤ m) {t' : StoreMap}
    (hs' : OMap.Sorted t') (ht' : ∀ k z, (k, z) ∈ t' ↔ 0 < z ∧ z = (census E n genus marked k : Int)) :
    CutTable n t t' := by
  refine ⟨hs', fun l z => ?_⟩
  rw [ht', census_cut hs ht hn]
  refine and_congr_left fun hz => ?_
  subst hz
  constructor
  · intro h
    by_contra hm
    have h0 : total (t.map fun x => (x.1.cut n, x.2)) l = 0 := by
      rw [total, List.filter_eq_nil_iff.2]
      · rfl
      · intro x hx h1
        exact hm (List.mem_map.2 ⟨x, hx, by simpa using h1⟩)
    rw [census_cut hs ht hn] at h0
    omega
  · intro h
    obtain ⟨_, hy, rfl⟩ := List.mem_map.1 h
    obtain ⟨⟨k, z⟩, hx, rfl⟩ := List.mem_map.1 hy
    have h1 := (ht k z).1 hx
    have h2 : 0 < census E m genus marked k := by omega
    obtain ⟨⟨f, hf, hk⟩⟩ := (Nat.card_pos_iff.1 h2).1
    have := finite_wanted (F := F) genus marked
    have hfin : Finite {f : F[X] // Wanted genus marked f ∧ IsKey E n f (k.cut n)} :=
      Finite.of_injective (fun f => (⟨f.1, f.2.1⟩ : {f : F[X] // Wanted genus marked f}))
        fun _ _ h => Subtype.ext (congrArg (fun x => x.1) h)
    have h3 : 0 < census E n genus marked (k.cut n) := Nat.card_pos_iff.2 ⟨⟨⟨f, hf, hk.cut hn⟩⟩, hfin⟩
    exact_mod_cast h3

theorem census_markedTable (hs : OMap.Sorted t)
    (ht : ∀ k z, (k, z) ∈ t ↔ 0 < z ∧ z = (census E m genus false k : Int)) {t' : StoreMap}
    (hs' : OMap.Sorted t') (ht' : ∀ k z, (k, z) ∈ t' ↔ 0 < z ∧ z = (census E m genus true k : Int)) :
    MarkedTable (card F) t t' := by
  intro k
  rw [total_census hs ht, total_census hs' ht']
  exact_mod_cast census_marked E m genus k

end Census

end Hycu
