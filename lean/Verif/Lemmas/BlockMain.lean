import Verif.Lemmas.BlockStep

/-
The constructed iterator, its odometer and the values it visits.
-/

namespace Hycu
namespace BlockIterator

/-- Everything the constructor establishes. -/
structure Built (d : Descr) (package : Nat) (it : BlockIterator) (steps : Nat → Nat) : Prop where
  length_eq : it.length = d.length
  sets_eq : it.sets = d.sets
  deps_eq : it.deps = d.deps
  orderSets_eq : it.orderSets = d.sets.map Prod.fst
  orderDeps_eq : it.orderDeps = d.deps.map Prod.fst
  orderBlocks_perm : it.orderBlocks.Perm (d.blocks.map Prod.fst)
  blocks_sorted : OMap.Sorted it.blocks
  blocks_of : ∀ i lo hi, (i, lo, hi) ∈ d.blocks → (i, lo, hi, steps i) ∈ it.blocks ∧ 1 ≤ steps i ∧
    steps i ≤ hi - lo
  of_blocks : ∀ i lo hi st, (i, lo, hi, st) ∈ it.blocks → (i, lo, hi) ∈ d.blocks ∧ st = steps i
  steps_prod : (d.blocks.map fun e => steps e.1).prod ≤ package
  pos_length : it.position.length = d.length
  pos_block : ∀ i lo hi, (i, lo, hi) ∈ d.blocks → it.position[i]? = some lo
  pos_set : ∀ i ∈ d.sets.map Prod.fst, it.position[i]? = some 0
  pos_dep : ∀ i ∈ d.deps.map Prod.fst, it.position[i]? = some 0
  not_end : it.hasReachedEnd = false

theorem make_ok {d : Descr} {package : Nat} (hv : d.Valid package) :
    ∃ it steps, make d.length d.blocks package d.sets d.deps = .ok it ∧ Built d package it steps := by
  have hsb := sorted_of_keys hv.blocks_sorted
  obtain ⟨order, bl, steps, h1, h2, h3, h4, h5, h6⟩ := initializeBlocks_ok (package := package) hsb
    hv.package_pos (fun i lo hi hm => ⟨(hv.block_ok i lo hi hm).1, by
      have := (hv.block_ok i lo hi hm).2; omega⟩)
  have mo : ∀ i, i ∈ order ↔ i ∈ d.blocks.map Prod.fst := fun i => h2.mem_iff
  obtain ⟨p1, hw1, hl1, ha1, hb1⟩ := writeAll_ok (fun ix => ((bl.find? ix).getD (0, 0, 0)).1) order
    (List.replicate d.length 0) (by
      intro i hi
      rw [List.length_replicate]
      exact (hv.cover i).2 (.inl ((mo i).1 hi)))
  obtain ⟨p2, hw2, hl2, ha2, hb2⟩ := writeAll_ok (fun _ => 0) (d.sets.map Prod.fst) p1 (by
      intro i hi
      rw [hl1, List.length_replicate]
      exact (hv.cover i).2 (.inr (.inl hi)))
  obtain ⟨p3, hw3, hl3, ha3, hb3⟩ := writeAll_ok (fun _ => 0) (d.deps.map Prod.fst) p2 (by
      intro i hi
      rw [hl2, hl1, List.length_replicate]
      exact (hv.cover i).2 (.inr (.inr hi)))
  have hpos := hv.pos
  refine ⟨{ length := d.length, orderBlocks := order, orderSets := d.sets.map Prod.fst,
            orderDeps := d.deps.map Prod.fst, blocks := bl, sets := d.sets, deps := d.deps,
            position := p3, hasReachedEnd := false }, steps, ?_, ?_⟩
  · simp only [make, h1, Res.bind_ok, setInitialPosition, hw1, hw2, hw3]
    simp [hpos]
  · exact
    { length_eq := rfl
      sets_eq := rfl
      deps_eq := rfl
      orderSets_eq := rfl
      orderDeps_eq := rfl
      orderBlocks_perm := h2
      blocks_sorted := h3
      blocks_of := h4
      of_blocks := h5
      steps_prod := h6
      pos_length := by simp only [hl3, hl2, hl1, List.length_replicate]
      pos_block := by
        intro i lo hi hm
        have hi := List.mem_map_of_mem (f := Prod.fst) hm
        simp only at hi
        simp only [hb3 i (hv.disj_bd i hi), hb2 i (hv.disj_bs i hi), ha1 i ((mo i).2 hi)]
        rw [OMap.find?_of_mem h3 (h4 _ _ _ hm).1]
        rfl
      pos_set := by
        intro i hi
        simp only [hb3 i (hv.disj_sd i hi), ha2 i hi]
      pos_dep := by
        intro i hi
        simp only [ha3 i hi]
      not_end := rfl }

section

variable {d : Descr} {package : Nat} {it : BlockIterator} {steps : Nat → Nat}

theorem Built.shape (hv : d.Valid package) (hb : Built d package it steps) : Shape it where
  orderSets_eq := by rw [hb.orderSets_eq, hb.sets_eq]
  orderDeps_eq := by rw [hb.orderDeps_eq, hb.deps_eq]
  nonempty := by
    rcases (hv.cover 0).1 hv.pos with h | h | h
    · right; right
      intro h0
      have := hb.orderBlocks_perm.mem_iff.2 h
      rw [h0] at this
      cases this
    · right; left
      rw [hb.orderSets_eq]
      exact List.ne_nil_of_mem h
    · left
      rw [hb.orderDeps_eq]
      exact List.ne_nil_of_mem h
  lt_blocks := by
    intro i hi
    rw [hb.pos_length]
    exact (hv.cover i).2 (.inl (hb.orderBlocks_perm.mem_iff.1 hi))
  lt_sets := by
    intro i hi
    rw [hb.orderSets_eq] at hi
    rw [hb.pos_length]
    exact (hv.cover i).2 (.inr (.inl hi))
  lt_deps := by
    intro i hi
    rw [hb.orderDeps_eq] at hi
    rw [hb.pos_length]
    exact (hv.cover i).2 (.inr (.inr hi))
  coupled := by
    intro i hi
    rw [hb.orderDeps_eq, List.mem_map] at hi
    obtain ⟨⟨i', j, M⟩, hm, rfl⟩ := hi
    have hid : i' ∈ d.deps.map Prod.fst := List.mem_map_of_mem (f := Prod.fst) hm
    refine ⟨j, M, ?_, ?_, ?_⟩
    · rw [hb.deps_eq]
      exact OMap.find?_of_mem (sorted_of_keys hv.deps_sorted) hm
    · rintro rfl
      rcases hv.dep_coupled _ _ _ hm with ⟨S, hS, _⟩ | ⟨lo, hi, hS, _⟩
      · exact hv.disj_sd _ (List.mem_map_of_mem (f := Prod.fst) hS) hid
      · exact hv.disj_bd _ (List.mem_map_of_mem (f := Prod.fst) hS) hid
    · rw [hb.pos_length]
      rcases hv.dep_coupled _ _ _ hm with ⟨S, hS, _⟩ | ⟨lo, hi, hS, _⟩
      · exact (hv.cover j).2 (.inr (.inl (List.mem_map_of_mem (f := Prod.fst) hS)))
      · exact (hv.cover j).2 (.inl (List.mem_map_of_mem (f := Prod.fst) hS))

theorem digitChain_range' (w : Wheel) (t : List Nat) (f : Nat → Nat) (n : Nat)
    (h : ∀ k, k < n → w.next (t.set w.px (f k)) = if k + 1 < n then some (f (k + 1)) else none) :
    ∀ m a, a + m = n → DigitChain w t ((List.range' a m).map f) := by
  intro m
  induction m with
  | zero => intro a _; simp [DigitChain]
  | succ m ih =>
    intro a ha
    rw [List.range'_succ, List.map_cons]
    refine ⟨?_, ih (a + 1) (by omega)⟩
    rw [h a (by omega)]
    cases m with
    | zero => rw [if_neg (by omega)]; rfl
    | succ m => rw [if_pos (by omega), List.range'_succ]; rfl

theorem blockWheel_ok {bl : OMap Nat (Nat × Nat × Nat)} {px lo hi st : Nat}
    (hf : bl.find? px = some (lo, hi, st)) (hst : 1 ≤ st) (hst' : st ≤ hi - lo) (hlt : lo < hi)
    (hhi : hi ≤ 2147483648) {t : List Nat} (hpx : px < t.length) :
    DigitChain (blockWheel bl px) t ((blockWheel bl px).digits t) ∧
      ((blockWheel bl px).digits t).head? = some (blockWheel bl px).first ∧
      ((blockWheel bl px).digits t).Nodup := by
  simp only [blockWheel, hf, Option.getD_some]
  set n := (hi - lo + st - 1) / st with hn
  have key : ∀ k, k < n ↔ k * st < hi - lo := by
    intro k
    rw [hn, ← Nat.succ_le_iff, Nat.le_div_iff_mul_le (by omega), Nat.succ_mul]
    omega
  have hn0 : 0 < n := (key 0).2 (by omega)
  refine ⟨?_, ?_, ?_⟩
  · rw [List.range_eq_range']
    refine digitChain_range' _ t (fun k => lo + k * st) n ?_ n 0 (by omega)
    intro k hk
    have hk' := (key k).1 hk
    have hget : (t.set px (lo + k * st)).getD px 0 = lo + k * st := by
      simp [List.getD_eq_getElem?_getD, List.getElem?_set_self hpx]
    simp only [hget]
    have hs : (k + 1) * st = k * st + st := Nat.succ_mul _ _
    rw [u32_of_lt (by omega)]
    have := key (k + 1)
    by_cases h : k + 1 < n
    · rw [if_pos h, if_neg (by have := this.1 h; omega)]
      congr 1
      omega
    · rw [if_neg h, if_pos (by have := mt this.2 h; omega)]
  · obtain ⟨m, hm⟩ : ∃ m, n = m + 1 := ⟨n - 1, by omega⟩
    rw [hm, List.range_eq_range', List.range'_succ]
    simp
  · refine (List.nodup_map_iff_inj_on List.nodup_range).2 ?_
    intro x _ y _ hxy
    have : x * st = y * st := by omega
    exact Nat.eq_of_mul_eq_mul_right (by omega) this

theorem rangeWheel_ok (w : Wheel) (t : List Nat) (n : Nat) (hn : 0 < n) (hfirst : w.first = 0)
    (hd : w.digits t = List.range n)
    (h : ∀ k, k < n → w.next (t.set w.px k) = if k + 1 < n then some (k + 1) else none) :
    DigitChain w t (w.digits t) ∧ (w.digits t).head? = some w.first ∧ (w.digits t).Nodup := by
  rw [hd, hfirst]
  refine ⟨?_, ?_, List.nodup_range⟩
  · have := digitChain_range' w t id n (by simpa using h) n 0 (by omega)
    rw [List.map_id] at this
    rw [List.range_eq_range']
    exact this
  · obtain ⟨m, hm⟩ : ∃ m, n = m + 1 := ⟨n - 1, by omega⟩
    rw [hm, List.range_eq_range', List.range'_succ]
    simp

theorem getD_set_ne {t : List Nat} {i j x : Nat} (h : i ≠ j) :
    (t.set i x).getD j 0 = t.getD j 0 := by
  simp [List.getD_eq_getElem?_getD, List.getElem?_set_ne h]

theorem getD_set_self {t : List Nat} {i x : Nat} (h : i < t.length) :
    (t.set i x).getD i 0 = x := by
  simp [List.getD_eq_getElem?_getD, List.getElem?_set_self h]

theorem good_blocks (hv : d.Valid package) (hb : Built d package it steps) (l : List Nat)
    (hl : l.Nodup) (hm : ∀ i ∈ l, i ∈ d.blocks.map Prod.fst) :
    GoodWheels it.position (l.map (blockWheel it.blocks)) := by
  induction l with
  | nil => trivial
  | cons px l ih =>
    rw [List.nodup_cons] at hl
    have hpx := hm px (by simp)
    have hlt : px < it.position.length := by
      rw [hb.pos_length]; exact (hv.cover px).2 (.inl hpx)
    refine ⟨ih hl.2 (fun i hi => hm i (by simp [hi])), hlt, ?_, ?_, ?_, ?_, ?_⟩
    · intro w hw
      obtain ⟨i, hi, rfl⟩ := List.mem_map.1 hw
      show i ≠ px
      rintro rfl
      exact hl.1 hi
    · intro w hw t x
      obtain ⟨i, hi, rfl⟩ := List.mem_map.1 hw
      have hne : px ≠ i := by rintro rfl; exact hl.1 hi
      simp only [blockWheel, getD_set_ne hne]
    · intro w hw t x
      obtain ⟨i, hi, rfl⟩ := List.mem_map.1 hw
      rfl
    · intro t x; rfl
    · intro t ht
      obtain ⟨⟨i, lo, hi⟩, he, rfl⟩ := List.mem_map.1 hpx
      obtain ⟨h1, h2, h3⟩ := hb.blocks_of i lo hi he
      obtain ⟨h4, h5⟩ := hv.block_ok i lo hi he
      exact blockWheel_ok (OMap.find?_of_mem hb.blocks_sorted h1) h2 h3 h4 h5
        (by rw [length_of_mem_enumW ht]; exact hlt)

theorem good_sets (hv : d.Valid package) (hb : Built d package it steps) (l : List Nat)
    (hl : l.Nodup) (hm : ∀ i ∈ l, i ∈ d.sets.map Prod.fst) :
    GoodWheels it.position (l.map (setWheel it.sets) ++ it.orderBlocks.map (blockWheel it.blocks)) := by
  have hob : ∀ i ∈ it.orderBlocks, i ∈ d.blocks.map Prod.fst :=
    fun i hi => hb.orderBlocks_perm.mem_iff.1 hi
  have hnd : it.orderBlocks.Nodup := hb.orderBlocks_perm.nodup_iff.2
    (hv.blocks_sorted.imp (fun h => Nat.ne_of_lt h))
  induction l with
  | nil => exact good_blocks hv hb _ hnd hob
  | cons px l ih =>
    rw [List.nodup_cons] at hl
    have hpx := hm px (by simp)
    have hlt : px < it.position.length := by
      rw [hb.pos_length]; exact (hv.cover px).2 (.inr (.inl hpx))
    have hpb : px ∉ it.orderBlocks := fun h => hv.disj_bs px (hob px h) hpx
    refine ⟨ih hl.2 (fun i hi => hm i (by simp [hi])), hlt, ?_, ?_, ?_, ?_, ?_⟩
    · intro w hw
      rcases List.mem_append.1 hw with hw | hw
      · obtain ⟨i, hi, rfl⟩ := List.mem_map.1 hw
        show i ≠ px
        rintro rfl
        exact hl.1 hi
      · obtain ⟨i, hi, rfl⟩ := List.mem_map.1 hw
        show i ≠ px
        rintro rfl
        exact hpb hi
    · intro w hw t x
      change w.next (t.set px x) = _
      rcases List.mem_append.1 hw with hw | hw
      · obtain ⟨i, hi, rfl⟩ := List.mem_map.1 hw
        have hne : px ≠ i := by rintro rfl; exact hl.1 hi
        simp only [setWheel, getD_set_ne hne]
      · obtain ⟨i, hi, rfl⟩ := List.mem_map.1 hw
        have hne : px ≠ i := by rintro rfl; exact hpb hi
        simp only [blockWheel, getD_set_ne hne]
    · intro w hw t x
      rcases List.mem_append.1 hw with hw | hw
      · obtain ⟨i, hi, rfl⟩ := List.mem_map.1 hw
        rfl
      · obtain ⟨i, hi, rfl⟩ := List.mem_map.1 hw
        rfl
    · intro t x; rfl
    · intro t ht
      obtain ⟨⟨i, S⟩, he, rfl⟩ := List.mem_map.1 hpx
      obtain ⟨h1, h2, h3, _⟩ := hv.set_ok i S he
      have hf : it.sets.find? i = some S := by
        rw [hb.sets_eq]; exact OMap.find?_of_mem (sorted_of_keys hv.sets_sorted) he
      refine rangeWheel_ok _ t S.length (List.length_pos_iff.2 h1) rfl ?_ ?_
      · simp only [setWheel, hf, Option.getD_some]
      · intro k hk
        simp only [setWheel, hf, Option.getD_some]
        rw [getD_set_self (by rw [length_of_mem_enumW ht]; exact hlt), u32_of_lt (by omega)]
        by_cases h : k + 1 < S.length
        · rw [if_pos h, if_neg (by omega)]
        · rw [if_neg h, if_pos (by omega)]

/-- The raw value of the coordinate a dependent set is coupled to selects one of its lists. -/
theorem coupled_list (hv : d.Valid package) (hb : Built d package it steps) {i j : Nat}
    {M : List (Nat × List Nat)} (he : (i, j, M) ∈ d.deps) {ws : List Wheel}
    (hws : ∀ w ∈ it.orderSets.map (setWheel it.sets) ++ it.orderBlocks.map (blockWheel it.blocks),
      w ∈ ws) {t : List Nat} (ht : ∀ w ∈ ws, ∃ x ∈ w.digits t, t[w.px]? = some x) :
    ∃ T, OMap.find? M (t.getD j 0) = some T ∧ (t.getD j 0, T) ∈ M := by
  have hM := sorted_of_keys (hv.dep_sorted i j M he)
  rcases hv.dep_coupled i j M he with ⟨S, hS, hall⟩ | ⟨lo, hi, hS, hp1, hall⟩
  · obtain ⟨x, hx, hx'⟩ := ht (setWheel it.sets j) (hws _ (List.mem_append_left _ (List.mem_map_of_mem
      (by rw [hb.orderSets_eq]; exact List.mem_map_of_mem (f := Prod.fst) hS))))
    have hf : it.sets.find? j = some S := by
      rw [hb.sets_eq]; exact OMap.find?_of_mem (sorted_of_keys hv.sets_sorted) hS
    simp only [setWheel, hf, Option.getD_some, List.mem_range] at hx hx'
    obtain ⟨T, hT⟩ := hall x hx
    have : t.getD j 0 = x := by simp [List.getD_eq_getElem?_getD, hx']
    rw [this]
    exact ⟨T, OMap.find?_of_mem hM hT, hT⟩
  · obtain ⟨x, hx, hx'⟩ := ht (blockWheel it.blocks j) (hws _ (List.mem_append_right _
      (List.mem_map_of_mem (hb.orderBlocks_perm.mem_iff.2
        (List.mem_map_of_mem (f := Prod.fst) hS)))))
    obtain ⟨h1, h2, h3⟩ := hb.blocks_of j lo hi hS
    have hf := OMap.find?_of_mem hb.blocks_sorted h1
    obtain ⟨h4, h5⟩ := hv.block_ok j lo hi hS
    simp only [blockWheel, hf, Option.getD_some, List.mem_map, List.mem_range] at hx hx'
    obtain ⟨k, hk, rfl⟩ := hx
    rw [← Nat.succ_le_iff, Nat.le_div_iff_mul_le (by omega), Nat.succ_mul] at hk
    obtain ⟨T, hT⟩ := hall (lo + k * steps j) (by omega) (by omega)
    have : t.getD j 0 = lo + k * steps j := by simp [List.getD_eq_getElem?_getD, hx']
    rw [this]
    exact ⟨T, OMap.find?_of_mem hM hT, hT⟩

theorem good_deps (hv : d.Valid package) (hb : Built d package it steps) (l : List Nat)
    (hl : l.Nodup) (hm : ∀ i ∈ l, i ∈ d.deps.map Prod.fst) :
    GoodWheels it.position (l.map (depWheel it.deps) ++ (it.orderSets.map (setWheel it.sets) ++
      it.orderBlocks.map (blockWheel it.blocks))) := by
  have hob : ∀ i ∈ it.orderBlocks, i ∈ d.blocks.map Prod.fst :=
    fun i hi => hb.orderBlocks_perm.mem_iff.1 hi
  have hos : ∀ i ∈ it.orderSets, i ∈ d.sets.map Prod.fst := by
    intro i hi
    rw [hb.orderSets_eq] at hi
    exact hi
  induction l with
  | nil =>
    refine good_sets hv hb _ ?_ hos
    rw [hb.orderSets_eq]
    exact hv.sets_sorted.imp (fun h => Nat.ne_of_lt h)
  | cons px l ih =>
    rw [List.nodup_cons] at hl
    have hpx := hm px (by simp)
    have hlt : px < it.position.length := by
      rw [hb.pos_length]; exact (hv.cover px).2 (.inr (.inr hpx))
    have hpb : px ∉ it.orderBlocks := fun h => hv.disj_bd px (hob px h) hpx
    have hps : px ∉ it.orderSets := fun h => hv.disj_sd px (hos px h) hpx
    -- no wheel is coupled to a dependent set
    have hcoup : ∀ i ∈ d.deps.map Prod.fst, ((it.deps.find? i).getD (0, [])).1 ≠ px := by
      intro i hi
      obtain ⟨⟨i, j, M⟩, he, rfl⟩ := List.mem_map.1 hi
      rw [hb.deps_eq, OMap.find?_of_mem (sorted_of_keys hv.deps_sorted) he]
      simp only [Option.getD_some]
      rintro rfl
      rcases hv.dep_coupled _ _ _ he with ⟨S, hS, _⟩ | ⟨lo, hi, hS, _⟩
      · exact hv.disj_sd _ (List.mem_map_of_mem (f := Prod.fst) hS) hpx
      · exact hv.disj_bd _ (List.mem_map_of_mem (f := Prod.fst) hS) hpx
    have hg := ih hl.2 (fun i hi => hm i (by simp [hi]))
    refine ⟨hg, hlt, ?_, ?_, ?_, ?_, ?_⟩
    · intro w hw
      rcases List.mem_append.1 hw with hw | hw
      · obtain ⟨i, hi, rfl⟩ := List.mem_map.1 hw
        show i ≠ px
        rintro rfl
        exact hl.1 hi
      rcases List.mem_append.1 hw with hw | hw
      · obtain ⟨i, hi, rfl⟩ := List.mem_map.1 hw
        show i ≠ px
        rintro rfl
        exact hps hi
      · obtain ⟨i, hi, rfl⟩ := List.mem_map.1 hw
        show i ≠ px
        rintro rfl
        exact hpb hi
    · intro w hw t x
      change w.next (t.set px x) = _
      rcases List.mem_append.1 hw with hw | hw
      · obtain ⟨i, hi, rfl⟩ := List.mem_map.1 hw
        have hne : px ≠ i := by rintro rfl; exact hl.1 hi
        have hne' := (hcoup i (hm i (by simp [hi]))).symm
        simp only [depWheel, getD_set_ne hne, getD_set_ne hne']
      rcases List.mem_append.1 hw with hw | hw
      · obtain ⟨i, hi, rfl⟩ := List.mem_map.1 hw
        have hne : px ≠ i := by rintro rfl; exact hps hi
        simp only [setWheel, getD_set_ne hne]
      · obtain ⟨i, hi, rfl⟩ := List.mem_map.1 hw
        have hne : px ≠ i := by rintro rfl; exact hpb hi
        simp only [blockWheel, getD_set_ne hne]
    · intro w hw t x
      change w.digits (t.set px x) = _
      rcases List.mem_append.1 hw with hw | hw
      · obtain ⟨i, hi, rfl⟩ := List.mem_map.1 hw
        have hne' := (hcoup i (hm i (by simp [hi]))).symm
        simp only [depWheel, getD_set_ne hne']
      rcases List.mem_append.1 hw with hw | hw
      · obtain ⟨i, hi, rfl⟩ := List.mem_map.1 hw
        rfl
      · obtain ⟨i, hi, rfl⟩ := List.mem_map.1 hw
        rfl
    · intro t x
      change (depWheel it.deps px).digits (t.set px x) = _
      simp only [depWheel, getD_set_ne (hcoup px hpx).symm]
    · intro t ht
      obtain ⟨⟨i, j, M⟩, he, rfl⟩ := List.mem_map.1 hpx
      have hf : it.deps.find? i = some (j, M) := by
        rw [hb.deps_eq]; exact OMap.find?_of_mem (sorted_of_keys hv.deps_sorted) he
      have htm := ((mem_enumW hg).1 ht).2.2
      obtain ⟨T, hT, hTm⟩ := coupled_list hv hb he
        (ws := l.map (depWheel it.deps) ++ (it.orderSets.map (setWheel it.sets) ++
          it.orderBlocks.map (blockWheel it.blocks)))
        (fun w hw => List.mem_append_right _ hw) htm
      obtain ⟨h1, h2, h3, _⟩ := hv.dep_ok i j M _ T he hTm
      have hj : i ≠ j := by
        have := hcoup i hpx
        rw [hf] at this
        exact this.symm
      refine rangeWheel_ok _ t T.length (List.length_pos_iff.2 h1) rfl ?_ ?_
      · simp only [depWheel, hf, Option.getD_some, hT]
      · intro k hk
        simp only [depWheel, hf, Option.getD_some, getD_set_ne hj, hT]
        rw [getD_set_self (by rw [length_of_mem_enumW ht]; exact hlt), u32_of_lt (by omega)]
        by_cases h : k + 1 < T.length
        · rw [if_pos h, if_neg (by omega)]
        · rw [if_neg h, if_pos (by omega)]

theorem Built.good (hv : d.Valid package) (hb : Built d package it steps) :
    GoodWheels it.position it.wheels := by
  refine good_deps hv hb _ ?_ ?_
  · rw [hb.orderDeps_eq]
    exact hv.deps_sorted.imp (fun h => Nat.ne_of_lt h)
  · intro i hi
    rw [hb.orderDeps_eq] at hi
    exact hi

theorem initW_eq_self {s : List Nat} {ws : List Wheel} (h : ∀ w ∈ ws, s[w.px]? = some w.first) :
    initW ws s = s := by
  induction ws with
  | nil => rfl
  | cons w ws ih =>
    simp only [initW]
    rw [ih (fun w' h' => h w' (by simp [h']))]
    apply List.ext_getElem?
    intro i
    have h0 := h w (by simp)
    by_cases hi : w.px = i
    · subst hi
      obtain ⟨hlt, _⟩ := List.getElem?_eq_some_iff.1 h0
      rw [List.getElem?_set_self hlt, h0]
    · rw [List.getElem?_set_ne hi]

/-- The raw positions visited. -/
def rawList (it : BlockIterator) : List (List Nat) := enumW it.wheels it.position

theorem Built.trace (hv : d.Valid package) (hb : Built d package it steps) :
    Trace (stepW it.wheels) it.position it.rawList := by
  have h := trace_enumW (hb.good hv)
  rwa [initW_eq_self] at h
  intro w hw
  unfold wheels at hw
  rcases List.mem_append.1 hw with hw | hw
  · obtain ⟨i, hi, rfl⟩ := List.mem_map.1 hw
    rw [hb.orderDeps_eq] at hi
    exact hb.pos_dep i hi
  rcases List.mem_append.1 hw with hw | hw
  · obtain ⟨i, hi, rfl⟩ := List.mem_map.1 hw
    rw [hb.orderSets_eq] at hi
    exact hb.pos_set i hi
  · obtain ⟨i, hi, rfl⟩ := List.mem_map.1 hw
    have hi := hb.orderBlocks_perm.mem_iff.1 hi
    obtain ⟨⟨i, lo, hi'⟩, he, rfl⟩ := List.mem_map.1 hi
    simp only [blockWheel]
    rw [hb.pos_block i lo hi' he, OMap.find?_of_mem hb.blocks_sorted (hb.blocks_of _ _ _ he).1]
    rfl

/-- The raw positions, coordinate by coordinate. -/
structure Raw (d : Descr) (steps : Nat → Nat) (t : List Nat) : Prop where
  length_eq : t.length = d.length
  block : ∀ i lo hi, (i, lo, hi) ∈ d.blocks → ∃ k, t[i]? = some (lo + k * steps i) ∧
    lo + k * steps i < hi
  set : ∀ i S, (i, S) ∈ d.sets → ∃ k, t[i]? = some k ∧ k < S.length
  dep : ∀ i j M, (i, j, M) ∈ d.deps → ∃ c T k, t[j]? = some c ∧ (c, T) ∈ M ∧ t[i]? = some k ∧
    k < T.length

theorem Built.mem_rawList (hv : d.Valid package) (hb : Built d package it steps) {t : List Nat} :
    t ∈ it.rawList ↔ Raw d steps t := by
  unfold rawList
  rw [mem_enumW (hb.good hv), hb.pos_length]
  constructor
  · rintro ⟨hlen, _, hin⟩
    refine ⟨hlen, ?_, ?_, ?_⟩
    · intro i lo hi he
      obtain ⟨h1, h2, h3⟩ := hb.blocks_of i lo hi he
      obtain ⟨x, hx, hx'⟩ := hin (blockWheel it.blocks i) (by
        unfold wheels
        exact List.mem_append_right _ (List.mem_append_right _ (List.mem_map_of_mem
          (hb.orderBlocks_perm.mem_iff.2 (List.mem_map_of_mem (f := Prod.fst) he)))))
      simp only [blockWheel, OMap.find?_of_mem hb.blocks_sorted h1, Option.getD_some, List.mem_map,
        List.mem_range] at hx hx'
      obtain ⟨k, hk, rfl⟩ := hx
      rw [← Nat.succ_le_iff, Nat.le_div_iff_mul_le (by omega), Nat.succ_mul] at hk
      exact ⟨k, hx', by have := (hv.block_ok i lo hi he).1; omega⟩
    · intro i S he
      obtain ⟨x, hx, hx'⟩ := hin (setWheel it.sets i) (by
        unfold wheels
        refine List.mem_append_right _ (List.mem_append_left _ (List.mem_map_of_mem ?_))
        rw [hb.orderSets_eq]
        exact List.mem_map_of_mem (f := Prod.fst) he)
      have hf : it.sets.find? i = some S := by
        rw [hb.sets_eq]; exact OMap.find?_of_mem (sorted_of_keys hv.sets_sorted) he
      simp only [setWheel, hf, Option.getD_some, List.mem_range] at hx hx'
      exact ⟨x, hx', hx⟩
    · intro i j M he
      obtain ⟨x, hx, hx'⟩ := hin (depWheel it.deps i) (by
        unfold wheels
        refine List.mem_append_left _ (List.mem_map_of_mem ?_)
        rw [hb.orderDeps_eq]
        exact List.mem_map_of_mem (f := Prod.fst) he)
      have hf : it.deps.find? i = some (j, M) := by
        rw [hb.deps_eq]; exact OMap.find?_of_mem (sorted_of_keys hv.deps_sorted) he
      obtain ⟨T, hT, hTm⟩ := coupled_list hv hb he (ws := it.wheels)
        (fun w hw => by unfold wheels; exact List.mem_append_right _ hw) hin
      simp only [depWheel, hf, Option.getD_some, hT, List.mem_range] at hx hx'
      have hjl : j < t.length := by
        rw [hlen]
        rcases hv.dep_coupled _ _ _ he with ⟨S, hS, _⟩ | ⟨lo, hi, hS, _⟩
        · exact (hv.cover j).2 (.inr (.inl (List.mem_map_of_mem (f := Prod.fst) hS)))
        · exact (hv.cover j).2 (.inl (List.mem_map_of_mem (f := Prod.fst) hS))
      refine ⟨t.getD j 0, T, x, ?_, hTm, hx', hx⟩
      rw [List.getElem?_eq_getElem hjl]
      simp [hjl]
  · intro h
    refine ⟨h.length_eq, ?_, ?_⟩
    · intro i hi
      have hn : ¬ i < d.length := by
        intro hlt
        rcases (hv.cover i).1 hlt with h | h | h
        · exact hi (blockWheel it.blocks i) (by
            unfold wheels
            exact List.mem_append_right _ (List.mem_append_right _ (List.mem_map_of_mem
              (hb.orderBlocks_perm.mem_iff.2 h)))) rfl
        · exact hi (setWheel it.sets i) (by
            unfold wheels
            refine List.mem_append_right _ (List.mem_append_left _ (List.mem_map_of_mem ?_))
            rw [hb.orderSets_eq]
            exact h) rfl
        · exact hi (depWheel it.deps i) (by
            unfold wheels
            refine List.mem_append_left _ (List.mem_map_of_mem ?_)
            rw [hb.orderDeps_eq]
            exact h) rfl
      rw [List.getElem?_eq_none (by rw [h.length_eq]; omega),
        List.getElem?_eq_none (by rw [hb.pos_length]; omega)]
    · intro w hw
      unfold wheels at hw
      rcases List.mem_append.1 hw with hw | hw
      · obtain ⟨i, hi, rfl⟩ := List.mem_map.1 hw
        rw [hb.orderDeps_eq] at hi
        obtain ⟨⟨i, j, M⟩, he, rfl⟩ := List.mem_map.1 hi
        have hf : it.deps.find? i = some (j, M) := by
          rw [hb.deps_eq]; exact OMap.find?_of_mem (sorted_of_keys hv.deps_sorted) he
        obtain ⟨c, T, k, h1, h2, h3, h4⟩ := h.dep i j M he
        refine ⟨k, ?_, h3⟩
        have : t.getD j 0 = c := by simp [List.getD_eq_getElem?_getD, h1]
        simp only [depWheel, hf, Option.getD_some, this,
          OMap.find?_of_mem (sorted_of_keys (hv.dep_sorted i j M he)) h2, List.mem_range]
        exact h4
      rcases List.mem_append.1 hw with hw | hw
      · obtain ⟨i, hi, rfl⟩ := List.mem_map.1 hw
        rw [hb.orderSets_eq] at hi
        obtain ⟨⟨i, S⟩, he, rfl⟩ := List.mem_map.1 hi
        have hf : it.sets.find? i = some S := by
          rw [hb.sets_eq]; exact OMap.find?_of_mem (sorted_of_keys hv.sets_sorted) he
        obtain ⟨k, h1, h2⟩ := h.set i S he
        exact ⟨k, by simp only [setWheel, hf, Option.getD_some, List.mem_range]; exact h2, h1⟩
      · obtain ⟨i, hi, rfl⟩ := List.mem_map.1 hw
        have hi := hb.orderBlocks_perm.mem_iff.1 hi
        obtain ⟨⟨i, lo, hi'⟩, he, rfl⟩ := List.mem_map.1 hi
        obtain ⟨h1, h2, h3⟩ := hb.blocks_of i lo hi' he
        obtain ⟨k, hk1, hk2⟩ := h.block i lo hi' he
        refine ⟨_, ?_, hk1⟩
        simp only [blockWheel, OMap.find?_of_mem hb.blocks_sorted h1, Option.getD_some,
          List.mem_map, List.mem_range]
        refine ⟨k, ?_, rfl⟩
        rw [← Nat.succ_le_iff, Nat.le_div_iff_mul_le (by omega), Nat.succ_mul]
        omega

theorem Built.nodup_rawList (hv : d.Valid package) (hb : Built d package it steps) :
    it.rawList.Nodup := nodup_enumW (hb.good hv)

end

end BlockIterator
end Hycu
