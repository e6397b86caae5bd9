import Verif.Lemmas.WorkPackages

/-!
How many packages there are: counting raw positions and tuples.
-/

namespace Hycu
namespace BlockIterator

open CurveIterator (listsOf mem_listsOf card_listsOf)

variable {d : Descr} {package : Nat} {it : BlockIterator} {steps : Nat → Nat}

theorem prod_blocks (hv : d.Valid package) (G : Nat → Nat) (F : Nat × Nat × Nat → Nat)
    (h1 : ∀ i lo hi, (i, lo, hi) ∈ d.blocks → G i = F (i, lo, hi)) (h2 : ∀ i, i ∉ d.blocks.map Prod.fst → G i = 1) :
    ∏ i ∈ Finset.range d.length, G i = (d.blocks.map F).prod := by
  have hnd : (d.blocks.map Prod.fst).Nodup := hv.blocks_sorted.imp (fun h => Nat.ne_of_lt h)
  have h3 : d.blocks.map F = (d.blocks.map Prod.fst).map G := by
    rw [List.map_map]
    exact List.map_congr_left fun e he => (h1 e.1 e.2.1 e.2.2 he).symm
  rw [h3, ← List.prod_toFinset _ hnd]
  symm
  refine Finset.prod_subset ?_ ?_
  · intro i hi
    rw [List.mem_toFinset] at hi
    exact Finset.mem_range.2 ((hv.cover i).2 (.inl hi))
  · intro i _ hi
    rw [List.mem_toFinset] at hi
    exact h2 i hi

theorem others_get (d : Descr) (v : List Nat) (i : Nat) :
    (d.others v)[i]? = v[i]?.map fun x => if i ∈ d.blocks.map Prod.fst then 0 else x := by
  unfold Descr.others
  rw [List.getElem?_mapIdx]

theorem lt_pieces {k s n : Nat} (hs : 0 < s) (h : k * s < n) : k < pieces n s := by
  unfold pieces
  rw [Nat.lt_iff_add_one_le, Nat.le_div_iff_mul_le hs, Nat.succ_mul]
  omega

/-- The part of a tuple in the ranges. -/
def inner (d : Descr) (v : List Nat) : List Nat := v.mapIdx fun i x => if i ∈ d.blocks.map Prod.fst then x else 0

theorem inner_get (d : Descr) (v : List Nat) (i : Nat) :
    (inner d v)[i]? = v[i]?.map fun x => if i ∈ d.blocks.map Prod.fst then x else 0 := by
  unfold inner
  rw [List.getElem?_mapIdx]

theorem eq_of_others_inner {v w : List Nat} (h1 : d.others v = d.others w) (h2 : inner d v = inner d w) : v = w := by
  refine List.ext_getElem? fun i => ?_
  have e1 := others_get d v i
  have e2 := inner_get d v i
  rw [h1, others_get] at e1
  rw [h2, inner_get] at e2
  by_cases hi : i ∈ d.blocks.map Prod.fst
  · simpa [hi] using e2.symm
  · simpa [hi] using e1.symm

/-- The choices in the ranges. -/
def rangeChoices (d : Descr) (S : Nat → Nat → Nat → Finset Nat) (i : Nat) : Finset Nat :=
  match OMap.find? d.blocks i with
  | some (lo, hi) => S i lo hi
  | none => {0}

theorem rangeChoices_block (hv : d.Valid package) (S : Nat → Nat → Nat → Finset Nat) {i lo hi : Nat} (h : (i, lo, hi) ∈ d.blocks) :
    rangeChoices d S i = S i lo hi := by
  unfold rangeChoices
  rw [OMap.find?_of_mem (sorted_of_keys hv.blocks_sorted) h]

theorem rangeChoices_other (hv : d.Valid package) (S : Nat → Nat → Nat → Finset Nat) {i : Nat} (h : i ∉ d.blocks.map Prod.fst) :
    rangeChoices d S i = {0} := by
  unfold rangeChoices
  cases hf : OMap.find? d.blocks i with
  | none => rfl
  | some e =>
    exact absurd (List.mem_map.2 ⟨_, (OMap.find?_eq_some (sorted_of_keys hv.blocks_sorted)).1 hf, rfl⟩) h

theorem card_rangeChoices (hv : d.Valid package) (S : Nat → Nat → Nat → Finset Nat) :
    (listsOf d.length (rangeChoices d S)).card = (d.blocks.map fun e => (S e.1 e.2.1 e.2.2).card).prod := by
  rw [card_listsOf]
  refine prod_blocks hv _ _ ?_ ?_
  · intro i lo hi h
    rw [rangeChoices_block hv S h]
  · intro i h
    rw [rangeChoices_other hv S h, Finset.card_singleton]

theorem card_inBox (b : List (Nat × Nat)) : ∃ T : Finset (List Nat), (∀ v, v ∈ T ↔ InBox b v) ∧ T.card = boxSize b := by
  refine ⟨listsOf b.length fun i => Finset.Ico (b.getD i (0, 1)).1 (b.getD i (0, 1)).2, fun v => ?_, ?_⟩
  · rw [mem_listsOf]
    refine and_congr_right fun hl => ?_
    constructor
    · intro h i e he
      have hi := (List.getElem?_eq_some_iff.1 he).1
      have hx : v[i]? = some (v[i]'(by omega)) := List.getElem?_eq_getElem _
      have := h i _ hx
      rw [List.getD_eq_getElem?_getD, he, Finset.mem_Ico] at this
      exact ⟨_, hx, this⟩
    · intro h i x hx
      have hi := (List.getElem?_eq_some_iff.1 hx).1
      have he : b[i]? = some (b[i]'(by omega)) := List.getElem?_eq_getElem _
      obtain ⟨y, h1, h2⟩ := h i _ he
      rw [List.getD_eq_getElem?_getD, he, Finset.mem_Ico]
      rw [hx] at h1
      rw [Option.some.inj h1]
      exact h2
  · rw [card_listsOf]
    unfold boxSize
    simp only [Nat.card_Ico]
    induction b with
    | nil => simp
    | cons a b ih =>
      rw [List.length_cons, Finset.prod_range_succ', List.map_cons, List.prod_cons, ← ih, Nat.mul_comm]
      simp

theorem Val.pack {t v : List Nat} (hb : Built d package it steps) (ht : Raw d steps t) (h : Val d t v) : Pack d steps t v := by
  refine ⟨h.length_eq, ?_, h.set, h.dep⟩
  intro i lo hi hm
  obtain ⟨k, e1, e2⟩ := ht.block i lo hi hm
  have := (hb.blocks_of i lo hi hm).2.1
  exact ⟨_, _, e1, (h.block i lo hi hm).trans e1, Nat.le_refl _, by omega, e2⟩

theorem Built.raw_le (hv : d.Valid package) (hb : Built d package it steps) {L : Finset (List Nat)}
    (hL : ∀ v, v ∈ L ↔ d.Contains v) : it.rawList.length ≤ L.card ∧
      it.rawList.length ≤ (L.image d.others).card * (d.blocks.map fun e => pieces (e.2.2 - e.2.1) (steps e.1)).prod := by
  have hex : ∀ t, ∃ v, t ∈ it.rawList → Val d t v := by
    intro t
    by_cases ht : t ∈ it.rawList
    · obtain ⟨v, _, h⟩ := asPosition_ok hv hb ((hb.mem_rawList hv).1 ht)
      exact ⟨v, fun _ => h⟩
    · exact ⟨[], fun h => absurd h ht⟩
  choose g hg using hex
  have hpk : ∀ t ∈ it.rawList, Pack d steps t (g t) := fun t ht => (hg t ht).pack hb ((hb.mem_rawList hv).1 ht)
  have hmem : ∀ t ∈ it.rawList, g t ∈ L := fun t ht =>
    (hL _).2 ((contains_iff hv hb).2 ⟨t, (hb.mem_rawList hv).1 ht, hpk t ht⟩)
  have hinj : ∀ t ∈ it.rawList, ∀ t' ∈ it.rawList, g t = g t' → t = t' := fun t ht t' ht' he =>
    Pack.unique hv hb ((hb.mem_rawList hv).1 ht) ((hb.mem_rawList hv).1 ht') (hpk t ht) (he ▸ hpk t' ht')
  have hcard : it.rawList.toFinset.card = it.rawList.length := List.toFinset_card_of_nodup (hb.nodup_rawList hv)
  constructor
  · rw [← hcard]
    refine Finset.card_le_card_of_injOn g (fun t ht => hmem t (by simpa using ht)) ?_
    intro t ht t' ht' he
    exact hinj t (by simpa using ht) t' (by simpa using ht') he
  · let S : Nat → Nat → Nat → Finset Nat := fun i lo hi =>
      (Finset.range (pieces (hi - lo) (steps i))).image fun k => lo + k * steps i
    have h1 : (listsOf d.length (rangeChoices d S)).card ≤
        (d.blocks.map fun e => pieces (e.2.2 - e.2.1) (steps e.1)).prod := by
      rw [card_rangeChoices hv S]
      refine List.prod_le_prod' ?_
      intro e _
      exact Finset.card_image_le.trans (by rw [Finset.card_range])
    refine Nat.le_trans ?_ (Nat.mul_le_mul_left _ h1)
    rw [← Finset.card_product, ← hcard]
    refine Finset.card_le_card_of_injOn (fun t => (d.others (g t), inner d (g t))) ?_ ?_
    · intro t ht
      have ht : t ∈ it.rawList := by simpa using ht
      have hr := (hb.mem_rawList hv).1 ht
      rw [Finset.mem_coe, Finset.mem_product]
      refine ⟨Finset.mem_image_of_mem _ (hmem t ht), ?_⟩
      rw [mem_listsOf]
      refine ⟨by unfold inner; rw [List.length_mapIdx, (hg t ht).length_eq], ?_⟩
      intro i x hx
      rw [inner_get] at hx
      by_cases hi : i ∈ d.blocks.map Prod.fst
      · obtain ⟨⟨i, lo, hi'⟩, hm, rfl⟩ := List.mem_map.1 hi
        obtain ⟨k, e1, e2⟩ := hr.block i lo hi' hm
        obtain ⟨_, b2, b3⟩ := hb.blocks_of i lo hi' hm
        rw [(hg t ht).block i lo hi' hm, e1] at hx
        simp only [Option.map_some, if_pos hi, Option.some.injEq] at hx
        rw [rangeChoices_block hv S hm, ← hx]
        refine Finset.mem_image.2 ⟨k, Finset.mem_range.2 ?_, rfl⟩
        have : k * steps i < hi' - lo := by omega
        exact lt_pieces b2 this
      · rw [rangeChoices_other hv S hi]
        cases hvi : (g t)[i]? with
        | none => rw [hvi] at hx; cases hx
        | some y =>
          rw [hvi] at hx
          simp only [Option.map_some, if_neg hi, Option.some.injEq] at hx
          simp [← hx]
    · intro t ht t' ht' he
      have ht : t ∈ it.rawList := by simpa using ht
      have ht' : t' ∈ it.rawList := by simpa using ht'
      exact hinj t ht t' ht' (eq_of_others_inner (congrArg Prod.fst he) (congrArg Prod.snd he))

theorem tuples_ge (hv : d.Valid package) (hc : ∀ i j M, (i, j, M) ∈ d.deps → j ∉ d.blocks.map Prod.fst)
    {L : Finset (List Nat)} (hL : ∀ v, v ∈ L ↔ d.Contains v) :
    (L.image d.others).card * (d.blocks.map fun e => e.2.2 - e.2.1).prod ≤ L.card := by
  let S : Nat → Nat → Nat → Finset Nat := fun _ lo hi => Finset.Ico lo hi
  have h1 : (d.blocks.map fun e => e.2.2 - e.2.1).prod = (listsOf d.length (rangeChoices d S)).card := by
    rw [card_rangeChoices hv S]
    simp only [S, Nat.card_Ico]
  rw [h1, ← Finset.card_product]
  refine Finset.card_le_card_of_injOn (fun e => List.zipWith (· + ·) e.1 e.2) ?_ ?_
  · rintro ⟨κ, w⟩ hm
    rw [Finset.mem_coe, Finset.mem_product, Finset.mem_image, mem_listsOf] at hm
    obtain ⟨⟨v, hvL, hκ⟩, hwl, hw⟩ := hm
    dsimp only at hκ hwl hw
    subst hκ
    have hvc := (hL v).1 hvL
    rw [Finset.mem_coe, hL]
    have hlt : ∀ i, i < d.length → ∃ x y, v[i]? = some x ∧ w[i]? = some y ∧ y ∈ rangeChoices d S i := by
      intro i hi
      have e1 : v[i]? = some (v[i]'(by rw [hvc.length_eq]; exact hi)) := List.getElem?_eq_getElem _
      have e2 : w[i]? = some (w[i]'(by rw [hwl]; exact hi)) := List.getElem?_eq_getElem _
      exact ⟨_, _, e1, e2, hw i _ e2⟩
    have hblock : ∀ i lo hi, (i, lo, hi) ∈ d.blocks →
        ∃ x, (List.zipWith (· + ·) (d.others v) w)[i]? = some x ∧ lo ≤ x ∧ x < hi := by
      intro i lo hi hm
      have hk : i ∈ d.blocks.map Prod.fst := List.mem_map.2 ⟨_, hm, rfl⟩
      obtain ⟨x, y, e1, e2, e3⟩ := hlt i ((hv.cover i).2 (.inl hk))
      rw [rangeChoices_block hv S hm, Finset.mem_Ico] at e3
      refine ⟨y, ?_, e3⟩
      rw [List.getElem?_zipWith, others_get, e1, e2]
      simp [hk]
    have hother : ∀ i, i ∉ d.blocks.map Prod.fst → (List.zipWith (· + ·) (d.others v) w)[i]? = v[i]? := by
      intro i hk
      rw [List.getElem?_zipWith, others_get]
      by_cases hi : i < d.length
      · obtain ⟨x, y, e1, e2, e3⟩ := hlt i hi
        rw [rangeChoices_other hv S hk, Finset.mem_singleton] at e3
        rw [e1, e2, e3]
        simp [hk]
      · rw [List.getElem?_eq_none (by rw [hvc.length_eq]; omega)]
        simp
    refine ⟨?_, hblock, ?_, ?_, ?_⟩
    · rw [List.length_zipWith, hwl]
      unfold Descr.others
      rw [List.length_mapIdx, hvc.length_eq, Nat.min_self]
    · intro i S' hm
      rw [hother i fun hk => hv.disj_bs i hk (List.mem_map.2 ⟨_, hm, rfl⟩)]
      exact hvc.set i S' hm
    · intro i j M S' hm hm'
      rw [hother i fun hk => hv.disj_bd i hk (List.mem_map.2 ⟨_, hm, rfl⟩),
        hother j fun hk => hv.disj_bs j hk (List.mem_map.2 ⟨_, hm', rfl⟩)]
      exact hvc.dep_set i j M S' hm hm'
    · intro i j M lo hi hm hm'
      exact absurd (List.mem_map.2 ⟨_, hm', rfl⟩) (hc i j M hm)
  · rintro ⟨κ, w⟩ hm ⟨κ', w'⟩ hm' he
    rw [Finset.mem_coe, Finset.mem_product, Finset.mem_image, mem_listsOf] at hm hm'
    obtain ⟨⟨v, hvL, hκ⟩, hwl, hw⟩ := hm
    obtain ⟨⟨v', hvL', hκ'⟩, hwl', hw'⟩ := hm'
    dsimp only at hκ hwl hw hκ' hwl' hw' he
    subst hκ
    subst hκ'
    have hvl := ((hL v).1 hvL).length_eq
    have hvl' := ((hL v').1 hvL').length_eq
    have key : ∀ i : Nat, (d.others v)[i]? = (d.others v')[i]? ∧ w[i]? = w'[i]? := by
      intro i
      by_cases hi : i < d.length
      · have e1 : v[i]? = some (v[i]'(by rw [hvl]; exact hi)) := List.getElem?_eq_getElem _
        have e2 : w[i]? = some (w[i]'(by rw [hwl]; exact hi)) := List.getElem?_eq_getElem _
        have e1' : v'[i]? = some (v'[i]'(by rw [hvl']; exact hi)) := List.getElem?_eq_getElem _
        have e2' : w'[i]? = some (w'[i]'(by rw [hwl']; exact hi)) := List.getElem?_eq_getElem _
        have e3 := hw i _ e2
        have e3' := hw' i _ e2'
        have h2 := congrArg (fun l => l[i]?) he
        simp only [List.getElem?_zipWith, others_get] at h2
        simp only [others_get]
        rw [e1, e2, e1', e2'] at h2 ⊢
        by_cases hk : i ∈ d.blocks.map Prod.fst
        · simp only [if_pos hk, Option.map_some, Option.some.injEq, zero_add] at h2 ⊢
          exact ⟨trivial, h2⟩
        · rw [rangeChoices_other hv S hk, Finset.mem_singleton] at e3 e3'
          simp only [if_neg hk, Option.map_some, Option.some.injEq] at h2 ⊢
          omega
      · rw [others_get, others_get, List.getElem?_eq_none (by omega), List.getElem?_eq_none (l := v') (by omega),
          List.getElem?_eq_none (by omega), List.getElem?_eq_none (l := w') (by omega)]
        exact ⟨rfl, rfl⟩
    rw [Prod.mk.injEq]
    exact ⟨List.ext_getElem? (fun i : Nat => (key i).1), List.ext_getElem? (fun i : Nat => (key i).2)⟩

end BlockIterator
end Hycu
