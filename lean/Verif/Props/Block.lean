import Verif.Lemmas.BlockEnum

/-
C01–C07: the block iterator.
-/

namespace Hycu
open BlockIterator

/-- Unfolding of the construction and of the visiting loop, used by all theorems of this file. -/
theorem block_visits {α : Type} {d : Descr} {package : Nat} (hv : d.Valid package)
    {it : BlockIterator} {steps : Nat → Nat} (hb : Built d package it steps)
    (visit : BlockIterator → Res α) (g : List Nat → α)
    (hg : ∀ t, Raw d steps t → visit { it with position := t } = .ok (g t)) :
    Terminates (fun n => visits visit n it) (it.rawList.map g) := by
  refine ⟨it.rawList.length + 1, ?_⟩
  intro n hn
  exact visits_trace visit it (hb.shape hv) hb.not_end rfl (hb.trace hv) g
    (fun t ht => hg t ((hb.mem_rawList hv).1 ht)) n (by omega)

/-- **C03.**  For every valid description and every package size the loop terminates without undefined
behaviour; the boxes returned by `as_block()` are non-empty and pairwise disjoint, and together they
contain exactly the described tuples. -/
theorem C03_packages_partition (d : Descr) (package : Nat) (hv : d.Valid package) :
    ∃ it boxes, make d.length d.blocks package d.sets d.deps = .ok it ∧
      Terminates (fun n => visits asBlock n it) boxes ∧
      boxes.Pairwise (fun a b => ∀ v, ¬ (InBox a v ∧ InBox b v)) ∧
      (∀ b ∈ boxes, ∃ v, InBox b v) ∧
      ∀ v, d.Contains v ↔ ∃ b ∈ boxes, InBox b v := by
  obtain ⟨it, steps, h1, hb⟩ := make_ok hv
  have hex : ∀ t, ∃ box, Raw d steps t → asBlock { it with position := t } = .ok box ∧
      (∃ v, InBox box v) ∧ ∀ u, InBox box u ↔ Pack d steps t u := by
    intro t
    by_cases ht : Raw d steps t
    · obtain ⟨v, box, a1, a2, a3, a4⟩ := asBlock_ok hv hb ht
      refine ⟨box, fun _ => ⟨a2, ⟨v, ?_⟩, fun u => inBox_iff_pack hv ht a3 a4⟩⟩
      rw [inBox_iff_pack hv ht a3 a4]
      refine ⟨a3.length_eq, ?_, a3.set, a3.dep⟩
      intro i lo hi hm
      obtain ⟨k, e1, e2⟩ := ht.block i lo hi hm
      have := (hb.blocks_of i lo hi hm).2.1
      exact ⟨_, _, e1, (a3.block i lo hi hm).trans e1, Nat.le_refl _, by omega, e2⟩
    · exact ⟨[], fun h => absurd h ht⟩
  choose g hg using hex
  refine ⟨it, it.rawList.map g, h1, block_visits hv hb asBlock g (fun t ht => (hg t ht).1), ?_, ?_, ?_⟩
  · rw [List.pairwise_map]
    refine List.Pairwise.imp_of_mem ?_ (hb.nodup_rawList hv)
    intro t t' ht ht' hne v hvv
    have ht := (hb.mem_rawList hv).1 ht
    have ht' := (hb.mem_rawList hv).1 ht'
    exact hne (Pack.unique hv hb ht ht' (((hg t ht).2.2 v).1 hvv.1) (((hg t' ht').2.2 v).1 hvv.2))
  · intro b hbm
    obtain ⟨t, ht, rfl⟩ := List.mem_map.1 hbm
    exact (hg t ((hb.mem_rawList hv).1 ht)).2.1
  · intro v
    rw [contains_iff hv hb]
    constructor
    · rintro ⟨t, ht, hp⟩
      exact ⟨g t, List.mem_map_of_mem ((hb.mem_rawList hv).2 ht), ((hg t ht).2.2 v).2 hp⟩
    · rintro ⟨b, hbm, hin⟩
      obtain ⟨t, ht, rfl⟩ := List.mem_map.1 hbm
      have ht := (hb.mem_rawList hv).1 ht
      exact ⟨t, ht, ((hg t ht).2.2 v).1 hin⟩

/-- **C02.**  With package size 1 the visited positions are exactly the described tuples, each once. -/
theorem C02_positions_exact (d : Descr) (hv : d.Valid 1) :
    ∃ it L, make d.length d.blocks 1 d.sets d.deps = .ok it ∧
      Terminates (fun n => visits asPosition n it) L ∧ L.Nodup ∧ ∀ v, v ∈ L ↔ d.Contains v := by
  obtain ⟨it, steps, h1, hb⟩ := make_ok hv
  have hex : ∀ t, ∃ v, Raw d steps t → asPosition { it with position := t } = .ok v ∧
      ∀ u, Pack d steps t u ↔ u = v := by
    intro t
    by_cases ht : Raw d steps t
    · obtain ⟨v, a1, a3⟩ := asPosition_ok hv hb ht
      refine ⟨v, fun _ => ⟨a1, fun u => ?_⟩⟩
      constructor
      · intro hp
        apply List.ext_getElem?
        intro i
        by_cases hil : i < d.length
        · rcases (hv.cover i).1 hil with h | h | h
          · obtain ⟨⟨i, lo, hi⟩, hm, rfl⟩ := List.mem_map.1 h
            obtain ⟨x, y, e1, e2, e3, e4, e5⟩ := hp.block i lo hi hm
            have := hb.steps_one rfl hm
            simp only
            rw [a3.block i lo hi hm, e1, e2]
            congr 1
            omega
          · obtain ⟨⟨i, S⟩, hm, rfl⟩ := List.mem_map.1 h
            obtain ⟨k, e1, e2⟩ := ht.set i S hm
            exact (hp.set i S k hm e1).trans (a3.set i S k hm e1).symm
          · obtain ⟨⟨i, j, M⟩, hm, rfl⟩ := List.mem_map.1 h
            obtain ⟨c, T, k, e1, e2, e3, e4⟩ := ht.dep i j M hm
            exact (hp.dep i j M c T k hm e1 e2 e3).trans (a3.dep i j M c T k hm e1 e2 e3).symm
        · rw [List.getElem?_eq_none (by rw [hp.length_eq]; omega),
            List.getElem?_eq_none (by rw [a3.length_eq]; omega)]
      · rintro rfl
        refine ⟨a3.length_eq, ?_, a3.set, a3.dep⟩
        intro i lo hi hm
        obtain ⟨k, e1, e2⟩ := ht.block i lo hi hm
        have := (hb.blocks_of i lo hi hm).2.1
        exact ⟨_, _, e1, (a3.block i lo hi hm).trans e1, Nat.le_refl _, by omega, e2⟩
    · exact ⟨[], fun h => absurd h ht⟩
  choose g hg using hex
  refine ⟨it, it.rawList.map g, h1, block_visits hv hb asPosition g (fun t ht => (hg t ht).1), ?_, ?_⟩
  · refine (List.nodup_map_iff_inj_on (hb.nodup_rawList hv)).2 ?_
    intro t ht t' ht' he
    have ht := (hb.mem_rawList hv).1 ht
    have ht' := (hb.mem_rawList hv).1 ht'
    exact Pack.unique hv hb ht ht' (((hg t ht).2 _).2 rfl) (((hg t' ht').2 _).2 he)
  · intro v
    rw [contains_iff hv hb, List.mem_map]
    constructor
    · rintro ⟨t, ht, rfl⟩
      have ht := (hb.mem_rawList hv).1 ht
      exact ⟨t, ht, ((hg t ht).2 _).2 rfl⟩
    · rintro ⟨t, ht, hp⟩
      exact ⟨t, (hb.mem_rawList hv).2 ht, (((hg t ht).2 _).1 hp).symm⟩

/-- **C01.**  Iterating a non-empty list of non-empty ranges visits every tuple of the box exactly
once and nothing else, and terminates without undefined behaviour. -/
theorem C01_box_exact (bounds : List (Nat × Nat)) (hne : bounds ≠ [])
    (h : ∀ b ∈ bounds, b.1 < b.2 ∧ b.2 ≤ 2147483648) :
    ∃ it L, ofBounds bounds = .ok it ∧ Terminates (fun n => visits asPosition n it) L ∧ L.Nodup ∧
      ∀ v, v ∈ L ↔ InBox bounds v := by
  obtain ⟨it, L, h1, h2, h3, h4⟩ := C02_positions_exact (boundsDescr bounds) (boundsDescr_valid hne h)
  refine ⟨it, L, ?_, h2, h3, ?_⟩
  · rw [ofBounds_eq_make]
    exact h1
  · intro v
    rw [h4, boundsDescr_contains]

/-- What the two ways of enumerating the current package construct. -/
def bothWays (it : BlockIterator) : Res (List (Nat × Nat) × BlockIterator × BlockIterator) := do
  let box ← it.asBlock
  let viaBounds ← ofBounds box
  let viaEnumerator ← it.asBlockEnumerator
  .ok (box, viaBounds, viaEnumerator)

/-- **C04.**  In every visited state both ways to enumerate the package succeed, and each of the two
iterators visits exactly the tuples of the box, each once. -/
theorem C04_both_interfaces (d : Descr) (package : Nat) (hv : d.Valid package) :
    ∃ it ways, make d.length d.blocks package d.sets d.deps = .ok it ∧
      Terminates (fun n => visits bothWays n it) ways ∧
      Terminates (fun n => visits asBlock n it) (ways.map Prod.fst) ∧
      ∀ w ∈ ways, ∃ L₁ L₂,
        Terminates (fun n => visits asPosition n w.2.1) L₁ ∧
        Terminates (fun n => visits asPosition n w.2.2) L₂ ∧
        L₁.Nodup ∧ L₂.Nodup ∧ (∀ v, v ∈ L₁ ↔ InBox w.1 v) ∧ (∀ v, v ∈ L₂ ↔ InBox w.1 v) := by
  obtain ⟨it, steps, h1, hb⟩ := make_ok hv
  have hex : ∀ t, ∃ w, Raw d steps t → bothWays { it with position := t } = .ok w ∧
      asBlock { it with position := t } = .ok w.1 ∧ ∃ L₁ L₂,
        Terminates (fun n => visits asPosition n w.2.1) L₁ ∧
        Terminates (fun n => visits asPosition n w.2.2) L₂ ∧
        L₁.Nodup ∧ L₂.Nodup ∧ (∀ v, v ∈ L₁ ↔ InBox w.1 v) ∧ (∀ v, v ∈ L₂ ↔ InBox w.1 v) := by
    intro t
    by_cases ht : Raw d steps t
    · obtain ⟨v, box, a1, a2, a3, a4⟩ := asBlock_ok hv hb ht
      obtain ⟨d', b1, b2, b3⟩ := asBlockEnumerator_ok hv hb ht
      have hbox : box ≠ [] := by
        intro h0
        have := a4.length_eq
        rw [h0] at this
        have := hv.pos
        simp at *
        omega
      have hrange : ∀ b ∈ box, b.1 < b.2 ∧ b.2 ≤ 2147483648 := by
        intro b hbm
        obtain ⟨i, hi, rfl⟩ := List.getElem_of_mem hbm
        have hid : i < d.length := by rw [← a4.length_eq]; exact hi
        have hiv : i < v.length := by rw [a3.length_eq]; exact hid
        obtain ⟨x, hx⟩ : ∃ x, v[i]? = some x := ⟨_, List.getElem?_eq_getElem hiv⟩
        have hlt := a3.lt hv ht hx
        have hg : box[i]? = some box[i] := List.getElem?_eq_getElem hi
        by_cases hib : i ∈ d.blocks.map Prod.fst
        · obtain ⟨⟨i, lo, hi'⟩, hm, rfl⟩ := List.mem_map.1 hib
          rw [a4.block i lo hi' _ hm hx] at hg
          have e := (Option.some.inj hg).symm
          simp only at e
          rw [e]
          have e1 := (hb.blocks_of i lo hi' hm).2.1
          have e2 := (hv.block_ok i lo hi' hm).2
          rw [a3.block i lo hi' hm] at hx
          obtain ⟨k, f1, f2⟩ := ht.block i lo hi' hm
          rw [f1] at hx
          have := Option.some.inj hx
          simp only
          omega
        · rw [a4.other i _ hib hx] at hg
          have e := (Option.some.inj hg).symm
          rw [e]
          simp only
          omega
      obtain ⟨i₁, L₁, c1, c2, c3, c4⟩ := C01_box_exact box hbox hrange
      obtain ⟨i₂, L₂, e1, e2, e3, e4⟩ := C02_positions_exact d' b2
      rw [← b1] at e1
      refine ⟨(box, i₁, i₂), fun _ => ⟨?_, a2, L₁, L₂, c2, e2, c3, e3, c4, ?_⟩⟩
      · simp only [bothWays, a2, Res.bind_ok, c1, e1]
      · intro u
        rw [e4, b3, inBox_iff_pack hv ht a3 a4]
    · exact ⟨([], it, it), fun h => absurd h ht⟩
  choose g hg using hex
  refine ⟨it, it.rawList.map g, h1, block_visits hv hb bothWays g (fun t ht => (hg t ht).1), ?_, ?_⟩
  · rw [List.map_map]
    exact block_visits hv hb asBlock _ (fun t ht => (hg t ht).2.1)
  · intro w hw
    obtain ⟨t, ht, rfl⟩ := List.mem_map.1 hw
    exact (hg t ((hb.mem_rawList hv).1 ht)).2.2

/-- **C05.**  No package contains more tuples than the requested package size. -/
theorem C05_package_size (d : Descr) (package : Nat) (hv : d.Valid package) :
    ∃ it boxes, make d.length d.blocks package d.sets d.deps = .ok it ∧
      Terminates (fun n => visits asBlock n it) boxes ∧ ∀ b ∈ boxes, boxSize b ≤ package := by
  obtain ⟨it, steps, h1, hb⟩ := make_ok hv
  have hex : ∀ t, ∃ box, Raw d steps t → asBlock { it with position := t } = .ok box ∧
      boxSize box ≤ package := by
    intro t
    by_cases ht : Raw d steps t
    · obtain ⟨v, box, a1, a2, a3, a4⟩ := asBlock_ok hv hb ht
      exact ⟨box, fun _ => ⟨a2, boxSize_le hv hb a3.length_eq a4⟩⟩
    · exact ⟨[], fun h => absurd h ht⟩
  choose g hg using hex
  refine ⟨it, it.rawList.map g, h1, block_visits hv hb asBlock g (fun t ht => (hg t ht).1), ?_⟩
  intro b hbm
  obtain ⟨t, ht, rfl⟩ := List.mem_map.1 hbm
  exact (hg t ((hb.mem_rawList hv).1 ht)).2

/-- **C06.**  Let `N` be the number of packages.  After fewer than `N` calls of `step()` the iterator
does not report the end, after `N` or more calls it does, no call has undefined behaviour, and `step()`
on an ended iterator changes nothing. -/
theorem C06_step_total (d : Descr) (package : Nat) (hv : d.Valid package) :
    ∃ it boxes, make d.length d.blocks package d.sets d.deps = .ok it ∧
      Terminates (fun n => visits asBlock n it) boxes ∧
      (∀ k, k < boxes.length → ∃ it', stepN k it = .ok it' ∧ it'.isEnd = false) ∧
      (∀ k, boxes.length ≤ k → ∃ it', stepN k it = .ok it' ∧ it'.isEnd = true ∧
        it'.step = .ok it') := by
  obtain ⟨it, boxes, h1, h2, _⟩ := C03_packages_partition d package hv
  obtain ⟨it', steps, h1', hb⟩ := make_ok hv
  rw [h1] at h1'
  cases h1'
  obtain ⟨s1, s2⟩ := stepN_trace it (hb.shape hv) hb.not_end rfl (hb.trace hv)
  have hlen : boxes.length = it.rawList.length := by
    have hex : ∀ t, ∃ box, Raw d steps t → asBlock { it with position := t } = .ok box := by
      intro t
      by_cases ht : Raw d steps t
      · obtain ⟨v, box, a1, a2, a3, a4⟩ := asBlock_ok hv hb ht
        exact ⟨box, fun _ => a2⟩
      · exact ⟨[], fun h => absurd h ht⟩
    choose g hg using hex
    rw [Terminates.unique h2 (block_visits hv hb asBlock g hg), List.length_map]
  refine ⟨it, boxes, h1, h2, ?_, ?_⟩
  · intro k hk
    exact ⟨_, s1 k (by omega), hb.not_end⟩
  · intro k hk
    obtain ⟨t, ht⟩ := s2 k (by omega)
    exact ⟨_, ht, rfl, by simp [step]⟩

/-- **C07.**  An empty range anywhere makes the constructor abort. -/
theorem C07_empty_range_aborts (length : Nat) (blocks : OMap Nat (Nat × Nat)) (package : Nat)
    (sets : OMap Nat (List Nat)) (deps : OMap Nat (Nat × OMap Nat (List Nat)))
    (h : ∃ i lo hi, (i, lo, hi) ∈ blocks ∧ hi ≤ lo) :
    make length blocks package sets deps = .abort := by
  simp only [make, initializeBlocks, blockSizes_abort h, Res.bind_abort]

/-- **C07.**  Package size 0 is undefined behaviour (a division by zero) as soon as there is a range,
for every list of non-empty ranges. -/
theorem C07_package_zero_ub (length : Nat) (blocks : OMap Nat (Nat × Nat)) 
    (sets : OMap Nat (List Nat)) (deps : OMap Nat (Nat × OMap Nat (List Nat))) (hne : blocks ≠ [])
    (h : ∀ i lo hi, (i, lo, hi) ∈ blocks → lo < hi ∧ hi < 4294967296) :
    make length blocks 0 sets deps = .ub := by
  have hperm := sortBy_perm sizeOrder (blocks.map fun e => (e.2.2 - e.2.1, e.1))
  simp only [make, initializeBlocks, blockSizes_ok h, Res.bind_ok]
  cases hs : sortBy sizeOrder (blocks.map fun e => (e.2.2 - e.2.1, e.1)) with
  | nil =>
    rw [hs] at hperm
    have := hperm.length_eq
    simp at this
    exact absurd (List.length_eq_zero_iff.1 this.symm) hne
  | cons e l =>
    obtain ⟨size, ix⟩ := e
    have : (if 0 ≥ size then size else 0) = 0 := by split <;> omega
    simp only [assignSteps, this, if_true, Res.bind_ub]

/-! ### Concrete cases meeting the hypotheses -/

/-- Ranges, sets and a dependent set together, with package size 3. -/
def exampleDescr : Descr where
  length := 4
  blocks := [(0, 0, 5), (3, 2, 4)]
  sets := [(2, [7, 9])]
  deps := [(1, 2, [(0, [1, 4]), (1, [6])])]

theorem exampleDescr_valid : exampleDescr.Valid 3 where
  pos := by decide
  package_pos := by decide
  blocks_sorted := by decide
  sets_sorted := by decide
  deps_sorted := by decide
  cover := by
    intro i
    simp [exampleDescr]
    omega
  disj_bs := by simp [exampleDescr]
  disj_bd := by simp [exampleDescr]
  disj_sd := by simp [exampleDescr]
  block_ok := by
    intro i lo hi h
    simp [exampleDescr] at h
    omega
  set_ok := by simp [exampleDescr]
  dep_sorted := by
    intro i j M h
    simp [exampleDescr] at h
    obtain ⟨rfl, rfl, rfl⟩ := h
    decide
  dep_ok := by
    intro i j M c T h h'
    simp [exampleDescr] at h
    obtain ⟨rfl, rfl, rfl⟩ := h
    simp at h'
    rcases h' with ⟨rfl, rfl⟩ | ⟨rfl, rfl⟩ <;> simp
  dep_coupled := by
    intro i j M h
    left
    simp [exampleDescr] at h
    obtain ⟨rfl, rfl, rfl⟩ := h
    refine ⟨[7, 9], by simp [exampleDescr], ?_⟩
    intro k hk
    simp at hk
    have : k = 0 ∨ k = 1 := by omega
    rcases this with rfl | rfl
    · exact ⟨_, List.mem_cons_self⟩
    · exact ⟨_, List.mem_cons_of_mem _ List.mem_cons_self⟩

/-- 2 packages of the first range, 2 values of the last, 3 pairs (set, dependent set). -/
example : ∃ it boxes, make 4 [(0, 0, 5), (3, 2, 4)] 3 [(2, [7, 9])]
    [(1, 2, [(0, [1, 4]), (1, [6])])] = .ok it ∧ visits asBlock 20 it = .ok boxes ∧
    boxes.length = 12 ∧ boxes.head? = some [(0, 3), (1, 2), (7, 8), (2, 3)] ∧
    boxes.getLast? = some [(3, 5), (6, 7), (9, 10), (3, 4)] := by
  refine ⟨_, _, rfl, rfl, ?_⟩
  decide

example : exampleDescr.Contains [4, 6, 9, 3] ∧ ¬ exampleDescr.Contains [4, 4, 9, 3] := by
  constructor
  · refine ⟨rfl, ?_, ?_, ?_, ?_⟩
    · intro i lo hi h
      simp [exampleDescr] at h
      rcases h with ⟨rfl, rfl, rfl⟩ | ⟨rfl, rfl, rfl⟩ <;> simp
    · intro i S h
      simp [exampleDescr] at h
      obtain ⟨rfl, rfl⟩ := h
      simp
    · intro i j M S h h'
      simp [exampleDescr] at h h'
      obtain ⟨rfl, rfl, rfl⟩ := h
      obtain ⟨_, rfl⟩ := h'
      exact ⟨1, 9, 6, rfl, rfl, rfl, [6], by simp, by simp⟩
    · intro i j M lo hi h h'
      simp [exampleDescr] at h h'
      omega
  · intro h
    obtain ⟨k, y, x, h1, h2, h3, T, h4, h5⟩ := h.dep_set 1 2 [(0, [1, 4]), (1, [6])] [7, 9]
      (by simp [exampleDescr]) (by simp [exampleDescr])
    simp at h2 h3
    subst h2 h3
    simp at h4
    rcases h4 with ⟨rfl, rfl⟩ | ⟨rfl, rfl⟩
    · simp at h1
    · simp at h5

/-- The box of C01 in a small case. -/
example : ∃ it, ofBounds [(0, 2), (5, 7)] = .ok it ∧
    visits asPosition 9 it = .ok [[0, 5], [0, 6], [1, 5], [1, 6]] := ⟨_, rfl, rfl⟩

example : make 1 [(0, 4, 4)] 1 [] [] = .abort := rfl
example : make 1 [(0, 3, 4)] 0 [] [] = .ub := by
  exact C07_package_zero_ub 1 [(0, 3, 4)] [] [] (by simp) (by simp; omega)

end Hycu
