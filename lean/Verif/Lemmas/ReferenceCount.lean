import Verif.Lemmas.FlintExists
import Verif.Lemmas.ReferenceKey

/-!
The numbers that the script for the reference stores computes are those of the specification.
-/

namespace Hycu
namespace Reference

open Polynomial Fintype

theorem mem_xmrange : ∀ {ns l : List Nat}, l ∈ xmrange ns ↔ List.Forall₂ (fun a n => a < n) l ns
  | [], l => by simp [xmrange]
  | n :: ns, l => by
    simp only [xmrange, List.mem_flatMap, List.mem_range, List.mem_map]
    constructor
    · rintro ⟨a, ha, l, hl, rfl⟩
      exact .cons ha (mem_xmrange.1 hl)
    · intro h
      cases h with
      | cons ha hl => exact ⟨_, ha, _, mem_xmrange.2 hl, rfl⟩

theorem nodup_xmrange : ∀ ns : List Nat, (xmrange ns).Nodup
  | [] => by simp [xmrange]
  | n :: ns => by
    unfold xmrange
    rw [List.nodup_flatMap]
    refine ⟨fun a _ => (nodup_xmrange ns).map fun _ _ h => (List.cons.inj h).2, ?_⟩
    refine List.nodup_range.imp fun {a b} hab l h1 h2 => ?_
    obtain ⟨_, _, rfl⟩ := List.mem_map.1 h1
    obtain ⟨_, _, h⟩ := List.mem_map.1 h2
    exact hab (List.cons.inj h).1.symm

theorem mem_xmrange_replicate {k p : Nat} {l : List Nat} :
    l ∈ xmrange (List.replicate k p) ↔ l.length = k ∧ ∀ a ∈ l, a < p := by
  rw [mem_xmrange]
  constructor
  · intro h
    refine ⟨by simpa using h.length_eq, ?_⟩
    induction k generalizing l with
    | zero => intro a ha; cases h; cases ha
    | succ k ih =>
      rw [List.replicate_succ] at h
      cases h with
      | cons h1 h2 =>
        intro a ha
        rcases List.mem_cons.1 ha with rfl | ha
        · exact h1
        · exact ih h2 a ha
  · rintro ⟨rfl, h⟩
    induction l with
    | nil => exact .nil
    | cons a l ih =>
      rw [List.length_cons, List.replicate_succ]
      exact .cons (h a List.mem_cons_self) (ih fun b hb => h b (List.mem_cons_of_mem _ hb))

variable {p : Nat} [Fact p.Prime] {E : Nat → Extension (ZMod p)}

theorem cast_eq_zero {a : Nat} (ha : a < p) : (a : ZMod p) = 0 ↔ a = 0 := by
  rw [ZMod.natCast_eq_zero_iff]
  exact ⟨fun h => Nat.eq_zero_of_dvd_of_lt h ha, fun h => h ▸ dvd_zero _⟩

theorem cast_val_list {l : List Nat} (h : ∀ a ∈ l, a < p) :
    (l.map (Nat.cast : Nat → ZMod p)).map ZMod.val = l := by
  rw [List.map_map]
  conv_rhs => rw [← List.map_id l]
  exact List.map_congr_left fun a ha => ZMod.val_cast_of_lt (h a ha)

/-- The polynomials that are counted. -/
theorem mem_counted {S : Sage p E} {m : Nat} (h : S.Ok m) {k : Nat} {l : List (ZMod p)} (hk : 0 < k) :
    l ∈ counted S k ↔ l.length = k ∧ (∃ a, l.getLast? = some a ∧ a ≠ 0) ∧ Squarefree (polyOfList l) := by
  have : NeZero p := ⟨(Fact.out : p.Prime).ne_zero⟩
  unfold counted
  rw [List.mem_filter, h.squarefree, List.mem_map, ← and_assoc]
  refine and_congr_left fun _ => ?_
  constructor
  · rintro ⟨xs, hxs, rfl⟩
    obtain ⟨h1, h2⟩ := List.mem_filter.1 hxs
    obtain ⟨h3, h4⟩ := mem_xmrange_replicate.1 h1
    refine ⟨by simpa using h3, ?_⟩
    obtain ⟨a, ha⟩ : ∃ a, xs.getLast? = some a := by
      cases hx : xs.getLast? with
      | none =>
        rw [List.getLast?_eq_none_iff.1 hx] at h3
        exact absurd h3 (by simpa using hk.ne)
      | some a => exact ⟨a, rfl⟩
    refine ⟨a, by rw [List.getLast?_map, ha]; rfl, ?_⟩
    rw [ne_eq, cast_eq_zero (h4 a (List.mem_of_getLast? ha))]
    simpa [List.getLastD_eq_getLast?, ha] using h2
  · rintro ⟨h1, a, ha, ha0⟩
    refine ⟨l.map ZMod.val, List.mem_filter.2 ⟨mem_xmrange_replicate.2 ⟨by simpa using h1, ?_⟩, ?_⟩, ?_⟩
    · intro x hx
      obtain ⟨y, _, rfl⟩ := List.mem_map.1 hx
      exact ZMod.val_lt y
    · rw [List.getLastD_eq_getLast?, List.getLast?_map, ha]
      simpa using ha0
    · rw [List.map_map]
      conv_rhs => rw [← List.map_id l]
      exact List.map_congr_left fun x _ => by simp

theorem nodup_counted (S : Sage p E) (k : Nat) : (counted S k).Nodup := by
  unfold counted
  refine List.Nodup.filter _ (List.Nodup.map_on ?_ ((nodup_xmrange _).filter _))
  intro x hx y hy hxy
  have hx := (mem_xmrange_replicate.1 (List.mem_filter.1 hx).1).2
  have hy := (mem_xmrange_replicate.1 (List.mem_filter.1 hy).1).2
  rw [← cast_val_list hx, ← cast_val_list hy, hxy]

theorem polyOfList_inj {F : Type} [Field F] {l m : List F} {a b : F} (hl : l.getLast? = some a) (ha : a ≠ 0)
    (hm : m.getLast? = some b) (hb : b ≠ 0) (h : polyOfList l = polyOfList m) : l = m := by
  have h1 := natDegree_polyOfList hl ha
  have h2 := natDegree_polyOfList hm hb
  have h3 : l ≠ [] := by rintro rfl; cases hl
  have h4 : m ≠ [] := by rintro rfl; cases hm
  have h5 := List.length_pos_iff.2 h3
  have h6 := List.length_pos_iff.2 h4
  rw [h] at h1
  refine List.ext_getElem (by omega) fun i hi hi' => ?_
  have h7 := congrArg (fun f => f.coeff i) h
  simp only [coeff_polyOfList] at h7
  simpa [List.getD, hi, hi'] using h7

theorem IsKey.unique {F : Type} [Field F] [Fintype F] {E : Nat → Extension F} {m : Nat} {f : F[X]} {k k' : Key}
    (h : IsKey E m f k) (h' : IsKey E m f k') : k = k' := by
  obtain ⟨r, o⟩ := k
  obtain ⟨r', o'⟩ := k'
  have h1 : r = r' := (Multiset.coe_eq_coe.1 (h.ramification.trans h'.ramification.symm)).eq_of_pairwise'
    h.ascending h'.ascending
  have h2 : o = o' := h.offsets.trans h'.offsets.symm
  rw [h1, h2]

/-- The number of polynomials with a key, in the lists of the script. -/
theorem count_counted {S : Sage p E} {genus : Nat} (h : S.Ok genus) (hp2 : p ≠ 2) (k : List Nat × List Int) :
    (((counted S (2 * genus + 2) ++ counted S (2 * genus + 3)).map (keyOf S genus)).count k) =
      census E genus genus false ⟨k.1, k.2⟩ := by
  classical
  set L := counted S (2 * genus + 2) ++ counted S (2 * genus + 3) with hL
  have hmem : ∀ l, l ∈ L ↔ (l.length = 2 * genus + 2 ∨ l.length = 2 * genus + 3) ∧
      (∃ a, l.getLast? = some a ∧ a ≠ 0) ∧ Squarefree (polyOfList l) := by
    intro l
    rw [hL, List.mem_append, mem_counted h (by omega), mem_counted h (by omega), ← or_and_right]
  have hnd : L.Nodup := by
    refine List.Nodup.append (nodup_counted _ _) (nodup_counted _ _) fun l h1 h2 => ?_
    have h1 := ((mem_counted h (by omega)).1 h1).1
    have h2 := ((mem_counted h (by omega)).1 h2).1
    omega
  have hP : ((L.filter fun l => keyOf S genus l = k).map polyOfList).Nodup := by
    refine List.Nodup.map_on ?_ (hnd.filter _)
    intro x hx y hy hxy
    obtain ⟨-, ⟨a, h1, h2⟩, -⟩ := (hmem x).1 (List.mem_filter.1 hx).1
    obtain ⟨-, ⟨b, h3, h4⟩, -⟩ := (hmem y).1 (List.mem_filter.1 hy).1
    exact polyOfList_inj h1 h2 h3 h4 hxy
  have hiff : ∀ f : (ZMod p)[X], f ∈ ((L.filter fun l => keyOf S genus l = k).map polyOfList).toFinset ↔
      Wanted genus false f ∧ IsKey E genus f ⟨k.1, k.2⟩ := by
    intro f
    rw [List.mem_toFinset, List.mem_map]
    constructor
    · rintro ⟨l, hl, rfl⟩
      obtain ⟨hl, hk⟩ := List.mem_filter.1 hl
      obtain ⟨h1, ⟨a, h2, h3⟩, h4⟩ := (hmem l).1 hl
      have hd := natDegree_polyOfList h2 h3
      refine ⟨⟨h4, ?_⟩, ?_⟩
      · rcases h1 with h1 | h1
        · exact .inl (by omega)
        · exact .inr ⟨rfl, by omega⟩
      · have := isKey_keyOf h hp2 h2 h3 h4
        rw [of_decide_eq_true hk] at this
        exact this
    · rintro ⟨⟨hsq, hdeg⟩, hkey⟩
      have hlast : (listOfPoly f).getLast? = some f.leadingCoeff := getLast_listOfPoly f
      have h3 := leadingCoeff_ne_zero.2 hsq.ne_zero
      have hlen : (listOfPoly f).length = f.natDegree + 1 := by simp [listOfPoly]
      have hp := polyOfList_listOfPoly f
      refine ⟨listOfPoly f, List.mem_filter.2 ⟨(hmem _).2 ⟨?_, ⟨_, hlast, h3⟩, by rwa [hp]⟩, ?_⟩, hp⟩
      · rcases hdeg with h1 | ⟨-, h1⟩
        · exact .inl (by omega)
        · exact .inr (by omega)
      · have := isKey_keyOf h hp2 hlast h3 (by rwa [hp])
        rw [hp] at this
        have := IsKey.unique this hkey
        exact decide_eq_true (Prod.ext (congrArg Key.ramification this) (congrArg Key.offsets this))
  rw [List.count_eq_countP, List.countP_map, List.countP_eq_length_filter]
  have h1 : L.filter ((fun x => x == k) ∘ keyOf S genus) = L.filter fun l => keyOf S genus l = k :=
    List.filter_congr fun l _ => by simp [beq_eq_decide]
  rw [h1, ← List.length_map (f := polyOfList), ← List.toFinset_card_of_nodup hP]
  unfold census
  rw [← Nat.card_congr (Equiv.subtypeEquivRight hiff), Nat.card_eq_fintype_card, Fintype.card_coe]

/-- The entries of the dictionary. -/
theorem mem_countCurves {S : Sage p E} {genus : Nat} (h : S.Ok genus) (hp2 : p ≠ 2) (k : List Nat × List Int) (n : Nat) :
    (k, n) ∈ countCurves S genus ↔ 0 < n ∧ n = census E genus genus false ⟨k.1, k.2⟩ := by
  rw [(counts_curves S genus).mem, count_counted h hp2]

end Reference
end Hycu
