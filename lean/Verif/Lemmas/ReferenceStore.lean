import Verif.Lemmas.CensusField
import Verif.Lemmas.FlintInput
import Verif.Lemmas.ReferenceCount

/-!
The map of the reference store: order of entries, and comparison with the store of the test.
-/

namespace Hycu
namespace Reference

open Polynomial Fintype

theorem lexLt_nat : ∀ a b : List Nat, lexLt a b = true ↔ a < b
  | [], [] => by simp [lexLt]
  | [], _ :: _ => by simp [lexLt]
  | _ :: _, [] => by simp [lexLt]
  | a :: l, b :: m => by
    rw [List.cons_lt_cons_iff, ← lexLt_nat l m]
    simp only [lexLt, CppLess.lt, Bool.or_eq_true, Bool.and_eq_true, Bool.not_eq_true', decide_eq_true_eq,
      decide_eq_false_iff_not]
    constructor
    · rintro (h | ⟨h1, h2⟩)
      · exact .inl h
      · by_cases h : a < b
        · exact .inl h
        · exact .inr ⟨by omega, h2⟩
    · rintro (h | ⟨rfl, h2⟩)
      · exact .inl h
      · exact .inr ⟨by omega, h2⟩

theorem lexLt_int : ∀ a b : List Int, lexLt a b = true ↔ a < b
  | [], [] => by simp [lexLt]
  | [], _ :: _ => by simp [lexLt]
  | _ :: _, [] => by simp [lexLt]
  | a :: l, b :: m => by
    rw [List.cons_lt_cons_iff, ← lexLt_int l m]
    simp only [lexLt, CppLess.lt, Bool.or_eq_true, Bool.and_eq_true, Bool.not_eq_true', decide_eq_true_eq,
      decide_eq_false_iff_not]
    constructor
    · rintro (h | ⟨h1, h2⟩)
      · exact .inl h
      · by_cases h : a < b
        · exact .inl h
        · exact .inr ⟨by omega, h2⟩
    · rintro (h | ⟨rfl, h2⟩)
      · exact .inl h
      · exact .inr ⟨by omega, h2⟩

/-- An entry of the dictionary as one of the map. -/
def entry (e : (List Nat × List Int) × Nat) : Key × Int := (⟨e.1.1, e.1.2⟩, (e.2 : Int))

theorem itemLe_iff (a b : (List Nat × List Int) × Nat) : itemLe a b = true ↔
    CppLess.lt (entry a).1 (entry b).1 = true ∨ (a.1 = b.1 ∧ a.2 ≤ b.2) := by
  obtain ⟨⟨r, o⟩, n⟩ := a
  obtain ⟨⟨r', o'⟩, n'⟩ := b
  show _ ↔ Key.less ⟨r, o⟩ ⟨r', o'⟩ = true ∨ _
  unfold Key.less itemLe
  simp only [CppLess.lt, Bool.or_eq_true, Bool.and_eq_true, decide_eq_true_eq, Prod.mk.injEq]
  by_cases h1 : r < r'
  · rw [if_pos ((lexLt_nat _ _).2 h1)]
    simp [h1]
  · rw [if_neg (fun h => h1 ((lexLt_nat _ _).1 h))]
    by_cases h2 : r = r'
    · subst h2
      by_cases h3 : o < o'
      · rw [if_pos rfl, if_pos ((lexLt_int _ _).2 h3)]
        simp [h3]
      · rw [if_pos rfl, if_neg (fun h => h3 ((lexLt_int _ _).1 h))]
        simp [h3]
    · rw [if_neg h2]
      simp [h1, h2]

theorem entry_fst_inj {a b : (List Nat × List Int) × Nat} (h : (entry a).1 = (entry b).1) : a.1 = b.1 :=
  Prod.ext (congrArg Key.ramification h) (congrArg Key.offsets h)

theorem itemLe_trans (a b c : (List Nat × List Int) × Nat) (h1 : itemLe a b = true) (h2 : itemLe b c = true) :
    itemLe a c = true := by
  rw [itemLe_iff] at *
  rcases h1 with h1 | ⟨h1, h1'⟩ <;> rcases h2 with h2 | ⟨h2, h2'⟩
  · exact .inl (LawfulLess.trans _ _ _ h1 h2)
  · left
    unfold entry at h1 ⊢
    rwa [← h2]
  · left
    unfold entry at h2 ⊢
    rwa [h1]
  · exact .inr ⟨h1.trans h2, h1'.trans h2'⟩

theorem itemLe_total (a b : (List Nat × List Int) × Nat) : (itemLe a b || itemLe b a) = true := by
  rw [Bool.or_eq_true, itemLe_iff, itemLe_iff]
  by_cases h1 : CppLess.lt (entry a).1 (entry b).1 = true
  · exact .inl (.inl h1)
  · by_cases h2 : CppLess.lt (entry b).1 (entry a).1 = true
    · exact .inr (.inl h2)
    · have := entry_fst_inj (LawfulLess.total _ _ (by simpa using h1) (by simpa using h2))
      rcases Nat.le_total a.2 b.2 with h | h
      · exact .inl (.inr ⟨this, h⟩)
      · exact .inr (.inr ⟨this.symm, h⟩)

variable {p : Nat} [Fact p.Prime] {E : Nat → Extension (ZMod p)}

/-- The entries as they are written are in the order of the map. -/
theorem items_sorted (S : Sage p E) (genus : Nat) : OMap.Sorted ((items S genus).map entry) := by
  have h1 := List.pairwise_mergeSort itemLe_trans itemLe_total (countCurves S genus)
  have h2 : ((items S genus).map Prod.fst).Nodup :=
    ((List.mergeSort_perm _ itemLe).map Prod.fst).nodup_iff.2 (counts_curves S genus).nodup
  unfold OMap.Sorted
  rw [List.pairwise_map]
  rw [List.Nodup, List.pairwise_map] at h2
  refine (List.Pairwise.and h1 h2).imp ?_
  rintro a b ⟨h3, h4⟩
  rcases (itemLe_iff a b).1 h3 with h | ⟨h, _⟩
  · exact h
  · exact absurd h h4

theorem set_last {m : StoreMap} {k : Key} {z : Int} (h : ∀ e ∈ m, CppLess.lt e.1 k = true) :
    OMap.set m k z = m ++ [(k, z)] := by
  induction m with
  | nil => rfl
  | cons e m ih =>
    obtain ⟨k', z'⟩ := e
    unfold OMap.set
    rw [if_pos (h (k', z') List.mem_cons_self), ih fun e he => h e (List.mem_cons_of_mem _ he)]
    rfl

theorem foldl_set (l : Dict) : ∀ {m : StoreMap}, OMap.Sorted (m ++ l.map entry) →
    l.foldl (fun m e => OMap.set m ⟨e.1.1, e.1.2⟩ (e.2 : Int)) m = m ++ l.map entry := by
  induction l with
  | nil => intro m _; simp
  | cons e l ih =>
    intro m h
    have h1 : OMap.set m ⟨e.1.1, e.1.2⟩ (e.2 : Int) = m ++ [entry e] := by
      refine set_last fun e' he' => ?_
      unfold OMap.Sorted at h
      rw [List.pairwise_append] at h
      exact h.2.2 e' he' (entry e) (by simp)
    rw [List.foldl_cons, h1, ih (by simpa using h)]
    simp

/-- The map has the entries in the order in which they are written. -/
theorem store_eq (S : Sage p E) (genus : Nat) : store S genus = (items S genus).map entry := by
  have := foldl_set (items S genus) (m := []) (by simpa using items_sorted S genus)
  rwa [List.nil_append] at this

theorem mem_store {S : Sage p E} {genus : Nat} (h : S.Ok genus) (hp2 : p ≠ 2) (k : Key) (z : Int) :
    (k, z) ∈ store S genus ↔ 0 < z ∧ z = census E genus genus false k := by
  rw [store_eq, List.mem_map]
  constructor
  · rintro ⟨⟨⟨r, o⟩, n⟩, hm, he⟩
    have := (mem_countCurves h hp2 (r, o) n).1 ((List.mergeSort_perm _ itemLe).mem_iff.1 hm)
    cases he
    simp only at this ⊢
    omega
  · rintro ⟨h1, rfl⟩
    refine ⟨((k.ramification, k.offsets), census E genus genus false k), (List.mergeSort_perm _ itemLe).mem_iff.2 ?_, rfl⟩
    exact (mem_countCurves h hp2 _ _).2 ⟨by omega, rfl⟩

theorem sorted_ext {m n : StoreMap} (hm : OMap.Sorted m) (hn : OMap.Sorted n) (h : ∀ k z, (k, z) ∈ m ↔ (k, z) ∈ n) :
    m = n := by
  refine OMap.ext_find? hm hn fun k => ?_
  cases h1 : OMap.find? m k with
  | some z => exact ((OMap.find?_eq_some hn).2 ((h k z).1 ((OMap.find?_eq_some hm).1 h1))).symm
  | none =>
    symm
    rw [OMap.find?_eq_none hn]
    intro z hz
    exact (OMap.find?_eq_none hm).1 h1 z ((h k z).2 hz)

/-- The numbers for a configuration are those of the script. -/
theorem count_eq {w : Flint} {c : ConfigNode} (s : w.Setting c) {genus : Nat} (hp : c.prime = p) (hr : c.primeExponent = 1)
    (hg : c.genus = genus) (hm : c.countExponent = genus) (hmk : c.withMarkedPoint = false)
    {S : Sage p E} (h : S.Ok genus) (k : Key) : s.count k = census E genus genus false k := by
  let _ := s.field
  let _ := s.fintype
  let _ := s.decEq
  obtain ⟨_, _, hcard, _⟩ := s.built.facts
  unfold Flint.Setting.count
  rw [hg, hm, hmk]
  refine census_congr_fields (hcard.trans ?_) (fun j h0 hj => ?_) genus false k
  · rw [ZMod.card, hp, hr, pow_one]
  · obtain ⟨_, _, h2⟩ := (s.builtExt j h0 (by omega)).built.prime
    rw [h2, h.card_eq j h0 hj, hp, hr, mul_one]

end Reference
end Hycu
