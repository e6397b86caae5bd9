import Verif.Lemmas.WorkCount

/-!
How many packages `CurveIterator` has.
-/

namespace Hycu
namespace CurveIterator

/-- The number of choices outside of the ranges. -/
noncomputable def outside (a : EnumeratorArgs) : Nat :=
  open Classical in
  if h : ∃ T : Finset (List Nat), ∀ v, v ∈ T ↔ a.toDescr.Contains v then (h.choose.image a.toDescr.others).card else 0

theorem outside_eq {a : EnumeratorArgs} {T : Finset (List Nat)} (hT : ∀ v, v ∈ T ↔ a.toDescr.Contains v) :
    outside a = (T.image a.toDescr.others).card := by
  have h : ∃ T : Finset (List Nat), ∀ v, v ∈ T ↔ a.toDescr.Contains v := ⟨T, hT⟩
  unfold outside
  rw [dif_pos h]
  have : h.choose = T := by
    ext v
    rw [h.choose_spec v, hT]
  rw [this]

theorem ArgsOk.outside_le {a : EnumeratorArgs} {d : Nat} {A : Nat → Nat → Prop} (h : ArgsOk a d A) (G : Nat → Nat)
    (hG : ∀ i, i < d + 1 → 1 ≤ G i)
    (hA : ∀ i, i < d + 1 → i ∉ a.blocks.map Prod.fst → ∃ S : Finset Nat, S.card ≤ G i ∧ ∀ x, A i x → x ∈ S) :
    outside a ≤ ∏ i ∈ Finset.range (d + 1), G i := by
  by_cases hT : ∃ T : Finset (List Nat), ∀ v, v ∈ T ↔ a.toDescr.Contains v
  · obtain ⟨T, hT⟩ := hT
    rw [outside_eq hT]
    have hex : ∀ i, ∃ S : Finset Nat, i < d + 1 → S.card ≤ G i ∧ ∀ x, A i x →
        (if i ∈ a.blocks.map Prod.fst then 0 else x) ∈ S := by
      intro i
      by_cases hi : i < d + 1
      · by_cases hb : i ∈ a.blocks.map Prod.fst
        · exact ⟨{0}, fun _ => ⟨by simpa using hG i hi, fun x _ => by simp [hb]⟩⟩
        · obtain ⟨S, h1, h2⟩ := hA i hi hb
          exact ⟨S, fun _ => ⟨h1, fun x hx => by simpa [hb] using h2 x hx⟩⟩
      · exact ⟨∅, fun h => absurd h hi⟩
    choose S hS using hex
    have h1 : T.image a.toDescr.others ⊆ listsOf (d + 1) S := by
      intro w hw
      obtain ⟨v, hv, rfl⟩ := Finset.mem_image.1 hw
      obtain ⟨h2, h3⟩ := (h.contains v).1 ((hT v).1 hv)
      rw [mem_listsOf]
      refine ⟨by unfold Descr.others; rw [List.length_mapIdx, h2], ?_⟩
      intro i x hx
      rw [BlockIterator.others_get] at hx
      cases hvi : v[i]? with
      | none => rw [hvi] at hx; cases hx
      | some y =>
        have hi : i < d + 1 := by rw [← h2]; exact (List.getElem?_eq_some_iff.1 hvi).1
        rw [hvi, Option.map_some] at hx
        rw [← Option.some.inj hx]
        exact (hS i hi).2 y (h3 i y hvi)
    refine (Finset.card_le_card h1).trans ?_
    rw [card_listsOf]
    exact Finset.prod_le_prod' fun i hi => (hS i (Finset.mem_range.1 hi)).1
  · unfold outside
    rw [dif_neg hT]
    exact Nat.zero_le _

theorem prod_one_at {n k g : Nat} (hg : 1 ≤ g) : ∏ i ∈ Finset.range n, (if i = k then g else 1) ≤ g := by
  rw [Finset.prod_ite_eq']
  split_ifs <;> omega

theorem mem_keys {β : Type} {m : OMap Nat β} {i : Nat} {v : β} (hs : OMap.Sorted m) (h : m.find? i = some v) :
    i ∈ m.map Prod.fst := List.mem_map.2 ⟨_, (OMap.find?_eq_some hs).1 h, rfl⟩

section
variable {F : Type} (t : FqElementTable F) {q d : Nat}

theorem squareCase_outside (h : TableSize t q) (hd : 3 ≤ d) : outside (squareCase t d) ≤ 3 := by
  refine ((squareCase_ok t h hd).outside_le (fun i => if i = d - 2 then 3 else 1) ?_ ?_).trans (prod_one_at (by omega))
  · intro i _
    split_ifs <;> omega
  · intro i hi hb
    by_cases h1 : i < d - 2
    · refine absurd (mem_keys (v := t.blockComplete) (sorted_setAll _ _ OMap.sorted_nil) ?_) hb
      rw [find?_setAll _ _ _ OMap.sorted_nil, if_pos (mem_down.2 ⟨Nat.zero_le _, h1⟩)]
    have h2 : Nat.gcd 2 (q - 1) ≤ 2 := Nat.gcd_le_left _ (by omega)
    unfold squareA
    by_cases h3 : i = d
    · exact ⟨{0}, by rw [Finset.card_singleton, if_neg (by omega)], fun x hx => by simpa [h3] using hx⟩
    · by_cases h4 : i = d - 1
      · exact ⟨{q - 1}, by rw [Finset.card_singleton, if_neg (by omega)], fun x hx => by
          rw [if_neg h3, if_pos h4] at hx
          exact Finset.mem_singleton.2 hx⟩
      · refine ⟨insert (q - 1) (Finset.range 2), ?_, ?_⟩
        · rw [if_pos (by omega)]
          exact (Finset.card_insert_le _ _).trans (by rw [Finset.card_range])
        · intro x hx
          rw [if_neg h3, if_neg h4, if_pos (by omega)] at hx
          rw [Finset.mem_insert, Finset.mem_range]
          omega

theorem divCase_outside (h : TableSize t q) (hd : 3 ≤ d) :
    outside (divCaseNonZero t d) ≤ Nat.gcd 3 (q - 1) + 1 := by
  refine ((divCase_ok t h hd).outside_le (fun i => if i = d - 3 then Nat.gcd 3 (q - 1) + 1 else 1) ?_ ?_).trans
    (prod_one_at (by omega))
  · intro i _
    split_ifs <;> omega
  · intro i hi hb
    have hs0 : OMap.Sorted (OMap.set [] (d - 1) t.blockNonZero) := OMap.sorted_set OMap.sorted_nil _ _
    by_cases h1 : i < d - 3
    · refine absurd (mem_keys (v := t.blockComplete) (sorted_setAll _ _ hs0) ?_) hb
      rw [find?_setAll _ _ _ hs0, if_pos (mem_down.2 ⟨Nat.zero_le _, h1⟩)]
    by_cases h2 : i = d - 1
    · refine absurd (mem_keys (v := t.blockNonZero) (sorted_setAll _ _ hs0) ?_) hb
      rw [find?_setAll _ _ _ hs0, if_neg (by rw [mem_down]; omega), h2, OMap.find?_set_self OMap.sorted_nil]
    unfold divA
    by_cases h3 : i = d
    · exact ⟨{0}, by rw [Finset.card_singleton, if_neg (by omega)], fun x hx => by simpa [h3] using hx⟩
    · by_cases h4 : i = d - 2
      · refine ⟨{q - 1}, by rw [Finset.card_singleton, if_neg (by omega)], fun x hx => ?_⟩
        rw [if_neg h3, if_neg h2, if_pos h4] at hx
        exact Finset.mem_singleton.2 hx
      · refine ⟨insert (q - 1) (Finset.range (Nat.gcd 3 (q - 1))), ?_, ?_⟩
        · rw [if_pos (by omega)]
          exact (Finset.card_insert_le _ _).trans (by rw [Finset.card_range])
        · intro x hx
          rw [if_neg h3, if_neg h2, if_neg h4, if_pos (by omega)] at hx
          rw [Finset.mem_insert, Finset.mem_range]
          omega

theorem largeMonomial_outside (h : TableSize t q) : outside (largeMonomial t d) ≤ 1 := by
  refine ((largeMonomial_ok t h (d := d)).outside_le (fun _ => 1) (fun _ _ => Nat.le_refl _) ?_).trans (by simp)
  intro i hi _
  refine ⟨if i = d then {0} else {q - 1}, ?_, ?_⟩
  · split_ifs <;> simp
  · intro x hx
    have hx := hx hi
    unfold monoA at hx
    split_ifs at hx ⊢ <;> simpa using hx

/-- The number for `largeCase`. -/
def largeChoices (q m l1 : Nat) : Nat := if l1 = 0 then 1 else Nat.gcd (m - (l1 - 1)) (q - 1)

theorem largeCase_outside (h : TableSize t q) {m l1 : Nat} (hm : m + 1 < d) (hl : l1 ≤ m) :
    outside (largeCase t d m l1) ≤ largeChoices q m l1 := by
  have hge := h.ge
  have h0 : 1 ≤ largeChoices q m l1 := by
    unfold largeChoices
    split_ifs
    · exact Nat.le_refl _
    · exact Nat.gcd_pos_of_pos_right _ (by omega)
  refine ((largeCase_ok t h hm hl).outside_le (fun i => if i = l1 - 1 then largeChoices q m l1 else 1) ?_ ?_).trans
    (prod_one_at h0)
  · intro i _
    split_ifs <;> omega
  · intro i hi hb
    have hs0 : OMap.Sorted (OMap.set [] d t.blockNonZero) := OMap.sorted_set OMap.sorted_nil _ _
    by_cases h1 : i < l1 - 1
    · refine absurd (mem_keys (v := t.blockComplete) (sorted_setAll _ _ hs0) ?_) hb
      rw [find?_setAll _ _ _ hs0, if_pos (mem_down.2 ⟨Nat.zero_le _, h1⟩)]
    by_cases h2 : i = d
    · refine absurd (mem_keys (v := t.blockNonZero) (sorted_setAll _ _ hs0) ?_) hb
      rw [find?_setAll _ _ _ hs0, if_neg (by rw [mem_down]; omega), h2, OMap.find?_set_self OMap.sorted_nil]
    have hone : 1 ≤ if i = l1 - 1 then largeChoices q m l1 else 1 := by split_ifs <;> omega
    unfold largeA
    by_cases h3 : m < i
    · refine ⟨{q - 1}, by rw [Finset.card_singleton]; exact hone, fun x hx => ?_⟩
      rw [if_neg h2, if_pos h3] at hx
      exact Finset.mem_singleton.2 hx
    by_cases h4 : i = m
    · refine ⟨{0}, by rw [Finset.card_singleton]; exact hone, fun x hx => ?_⟩
      rw [if_neg h2, if_neg h3, if_pos h4] at hx
      exact Finset.mem_singleton.2 hx
    by_cases h5 : l1 ≤ i
    · refine ⟨{q - 1}, by rw [Finset.card_singleton]; exact hone, fun x hx => ?_⟩
      rw [if_neg h2, if_neg h3, if_neg h4, if_pos h5] at hx
      exact Finset.mem_singleton.2 hx
    · refine ⟨Finset.range (Nat.gcd (m - i) (q - 1)), ?_, fun x hx => ?_⟩
      · rw [Finset.card_range, if_pos (by omega), largeChoices, if_neg (by omega), show l1 - 1 = i by omega]
      · rw [if_neg h2, if_neg h3, if_neg h4, if_neg h5, if_pos (by omega)] at hx
        exact Finset.mem_range.2 hx

theorem enumeratorArgs_outside (h : TableSize t q) (hd : 3 ≤ d) :
    ((enumeratorArgs t d).map outside).sum ≤ choicesOfDegree q t.prime d := by
  unfold enumeratorArgs choicesOfDegree
  by_cases h1 : t.prime > d
  · rw [if_pos h1, if_pos (show d < t.prime from h1), List.map_append, List.sum_append, List.map_singleton,
      List.sum_singleton, add_comm, List.map_flatMap, List.flatMap, List.sum_flatten, List.map_map, sum_down]
    refine Nat.add_le_add (largeMonomial_outside t h) ?_
    refine Finset.sum_le_sum fun m hm => ?_
    have hm := Finset.mem_range.1 hm
    simp only [Function.comp_apply]
    rw [List.map_map, sum_down, Finset.sum_range_succ', add_comm]
    refine Nat.add_le_add (largeCase_outside t h (by omega) (by omega)) (Finset.sum_le_sum fun l hl => ?_)
    have hl := Finset.mem_range.1 hl
    exact largeCase_outside t h (by omega) (by omega)
  · rw [if_neg h1, if_neg (show ¬ d < t.prime from h1)]
    by_cases h2 : d % t.prime = 0
    · rw [if_pos h2, if_pos (Nat.dvd_of_mod_eq_zero h2)]
      simp only [List.map_cons, List.map_nil, List.sum_cons, List.sum_nil, Nat.add_zero]
      exact Nat.add_le_add (divCase_outside t h hd) (squareCase_outside t h hd)
    · rw [if_neg h2, if_neg (fun h3 => h2 (Nat.mod_eq_zero_of_dvd h3)), List.map_singleton, List.sum_singleton]
      exact squareCase_outside t h hd

theorem allArgs_outside (h : TableSize t q) (ds : List Nat) (hd : ∀ d ∈ ds, 3 ≤ d) :
    ((ds.flatMap (enumeratorArgs t)).map outside).sum ≤ (ds.map fun d => choicesOfDegree q t.prime d).sum := by
  rw [List.map_flatMap, List.flatMap, List.sum_flatten, List.map_map]
  exact List.sum_le_sum fun d h1 => enumeratorArgs_outside t h (hd d h1)

end

end CurveIterator
end Hycu
