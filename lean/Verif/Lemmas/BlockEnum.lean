import Verif.Lemmas.BlockVals
import Mathlib.Algebra.BigOperators.Group.Finset.Basic
import Mathlib.Algebra.Order.BigOperators.Group.List
import Mathlib.Algebra.Order.BigOperators.Ring.Finset

/-
`as_block_enumerator`, the constructor from ranges, and the size of packages.
-/

namespace Hycu
namespace BlockIterator

theorem enumeratorBlocks_ok (pos : List Nat) (m : OMap Nat (Nat × Nat × Nat))
    (bl : OMap Nat (Nat × Nat)) (st : OMap Nat (List Nat)) (hbl : OMap.Sorted bl)
    (hst : OMap.Sorted st) (hnd : (m.map Prod.fst).Nodup)
    (h : ∀ i ∈ m.map Prod.fst, i < pos.length) :
    ∃ bl' st', enumeratorBlocks pos m bl st = .ok (bl', st') ∧ OMap.Sorted bl' ∧ OMap.Sorted st' ∧
      (∀ i, i ∉ m.map Prod.fst → bl'.find? i = bl.find? i ∧ st'.find? i = st.find? i) ∧
      ∀ i lo hi s x, (i, lo, hi, s) ∈ m → pos[i]? = some x →
        (1 < u32sub (min (u32 (x + s)) hi) x → bl'.find? i = some (x, min (u32 (x + s)) hi) ∧
          st'.find? i = st.find? i) ∧
        (¬ 1 < u32sub (min (u32 (x + s)) hi) x → bl'.find? i = bl.find? i ∧
          st'.find? i = some [x]) := by
  induction m generalizing bl st with
  | nil => exact ⟨bl, st, rfl, hbl, hst, by simp, by simp⟩
  | cons e m ih =>
    obtain ⟨i, lo, hi, s⟩ := e
    rw [List.map_cons, List.nodup_cons] at hnd
    have hil : i < pos.length := h i (by simp)
    have h' : ∀ i ∈ m.map Prod.fst, i < pos.length := fun i' hi' =>
      h i' (by simp only [List.map_cons, List.mem_cons]; exact .inr hi')
    have hmin : (if u32 (pos[i] + s) > hi then hi else u32 (pos[i] + s)) =
        min (u32 (pos[i] + s)) hi := by split <;> omega
    simp only [enumeratorBlocks, rd_of_lt hil, Res.bind_ok, hmin]
    by_cases hc : 1 < u32sub (min (u32 (pos[i] + s)) hi) pos[i]
    · rw [if_pos hc]
      obtain ⟨bl', st', g1, g2, g3, g4, g5⟩ := ih (bl.set i (pos[i], min (u32 (pos[i] + s)) hi)) st
        (OMap.sorted_set hbl _ _) hst hnd.2 h'
      refine ⟨bl', st', g1, g2, g3, ?_, ?_⟩
      · intro i' hi'
        simp only [List.map_cons, List.mem_cons, not_or] at hi'
        rw [(g4 i' hi'.2).1, (g4 i' hi'.2).2, OMap.find?_set_of_ne hbl hi'.1]
        exact ⟨rfl, rfl⟩
      · intro i' lo' hi' s' x hm hx
        rcases List.mem_cons.1 hm with hm | hm
        · cases hm
          rw [List.getElem?_eq_getElem hil] at hx
          cases hx
          refine ⟨fun _ => ?_, fun h => absurd hc h⟩
          rw [(g4 i hnd.1).1, (g4 i hnd.1).2, OMap.find?_set_self hbl]
          exact ⟨rfl, rfl⟩
        · have hne : i' ≠ i := fun he => hnd.1 (List.mem_map.2 ⟨_, hm, he⟩)
          have := g5 i' lo' hi' s' x hm hx
          rwa [OMap.find?_set_of_ne hbl hne] at this
    · rw [if_neg hc]
      obtain ⟨bl', st', g1, g2, g3, g4, g5⟩ := ih bl (st.set i [pos[i]]) hbl
        (OMap.sorted_set hst _ _) hnd.2 h'
      refine ⟨bl', st', g1, g2, g3, ?_, ?_⟩
      · intro i' hi'
        simp only [List.map_cons, List.mem_cons, not_or] at hi'
        rw [(g4 i' hi'.2).1, (g4 i' hi'.2).2, OMap.find?_set_of_ne hst hi'.1]
        exact ⟨rfl, rfl⟩
      · intro i' lo' hi' s' x hm hx
        rcases List.mem_cons.1 hm with hm | hm
        · cases hm
          rw [List.getElem?_eq_getElem hil] at hx
          cases hx
          refine ⟨fun h => absurd h hc, fun _ => ?_⟩
          rw [(g4 i hnd.1).1, (g4 i hnd.1).2, OMap.find?_set_self hst]
          exact ⟨rfl, rfl⟩
        · have hne : i' ≠ i := fun he => hnd.1 (List.mem_map.2 ⟨_, hm, he⟩)
          have := g5 i' lo' hi' s' x hm hx
          rwa [OMap.find?_set_of_ne hst hne] at this

theorem enumeratorSets_ok (pos : List Nat) (l : List Nat) (st : OMap Nat (List Nat))
    (hst : OMap.Sorted st) (h : ∀ i ∈ l, i < pos.length) :
    ∃ st', enumeratorSets pos l st = .ok st' ∧ OMap.Sorted st' ∧
      (∀ i, i ∉ l → st'.find? i = st.find? i) ∧
      ∀ i x, i ∈ l → pos[i]? = some x → st'.find? i = some [x] := by
  induction l generalizing st with
  | nil => exact ⟨st, rfl, hst, by simp, by simp⟩
  | cons a l ih =>
    have hal : a < pos.length := h a (by simp)
    obtain ⟨st', g1, g2, g3, g4⟩ := ih (st.set a [pos[a]]) (OMap.sorted_set hst _ _)
      (fun i hi => h i (by simp [hi]))
    refine ⟨st', ?_, g2, ?_, ?_⟩
    · simp only [enumeratorSets, rd_of_lt hal, Res.bind_ok, g1]
    · intro i hi
      rw [List.mem_cons, not_or] at hi
      rw [g3 i hi.2, OMap.find?_set_of_ne hst hi.1]
    · intro i x hi hx
      by_cases hil : i ∈ l
      · exact g4 i x hil hx
      · rcases List.mem_cons.1 hi with rfl | hi
        · rw [g3 i hil, OMap.find?_set_self hst]
          rw [List.getElem?_eq_getElem hal] at hx
          cases hx
          rfl
        · exact absurd hi hil

section

variable {d : Descr} {package : Nat} {it : BlockIterator} {steps : Nat → Nat}

/-- `as_block_enumerator` constructs an iterator for a description of the package. -/
theorem asBlockEnumerator_ok (hv : d.Valid package) (hb : Built d package it steps) {t : List Nat}
    (ht : Raw d steps t) : ∃ d' : Descr, asBlockEnumerator { it with position := t } =
        make d'.length d'.blocks 1 d'.sets d'.deps ∧ d'.Valid 1 ∧
        ∀ u, d'.Contains u ↔ Pack d steps t u := by
  obtain ⟨v, hv1, hv2⟩ := asPosition_ok hv hb ht
  have hvlen := hv2.length_eq
  have hnb : (it.blocks.map Prod.fst).Nodup :=
    (keys_of_sorted hb.blocks_sorted).imp (fun h => Nat.ne_of_lt h)
  have hkl : ∀ i ∈ it.blocks.map Prod.fst, i < v.length := by
    intro i hi
    rw [hvlen]
    exact (hv.cover i).2 (.inl ((hb.blocks_keys i).1 hi))
  obtain ⟨bl, st1, a1, a2, a3, a4, a5⟩ := enumeratorBlocks_ok v it.blocks [] [] OMap.sorted_nil
    OMap.sorted_nil hnb hkl
  obtain ⟨st2, b1, b2, b3, b4⟩ := enumeratorSets_ok v (d.sets.map Prod.fst) st1 a3 (by
    intro i hi
    rw [hvlen]
    exact (hv.cover i).2 (.inr (.inl hi)))
  obtain ⟨st3, c1, c2, c3, c4⟩ := enumeratorSets_ok v (d.deps.map Prod.fst) st2 b2 (by
    intro i hi
    rw [hvlen]
    exact (hv.cover i).2 (.inr (.inr hi)))
  -- value of a coordinate
  have hval : ∀ i, i < d.length → ∃ x, v[i]? = some x ∧ x < 2147483648 := by
    intro i hi
    have h : i < v.length := by rw [hvlen]; exact hi
    exact ⟨v[i], List.getElem?_eq_getElem h, hv2.lt hv ht (List.getElem?_eq_getElem h)⟩
  -- upper bound of a range of the package
  have hub : ∀ i lo hi x, (i, lo, hi) ∈ d.blocks → v[i]? = some x → lo ≤ x ∧ x < hi ∧
      hi ≤ 2147483648 ∧ 1 ≤ steps i ∧
      min (u32 (x + steps i)) hi = min (x + steps i) hi ∧
      u32sub (min (u32 (x + steps i)) hi) x = min (x + steps i) hi - x := by
    intro i lo hi x hm hx
    obtain ⟨h1, h2, h3⟩ := hb.blocks_of i lo hi hm
    obtain ⟨h4, h5⟩ := hv.block_ok i lo hi hm
    rw [hv2.block i lo hi hm] at hx
    obtain ⟨k, e1, e2⟩ := ht.block i lo hi hm
    rw [e1] at hx
    cases hx
    have e3 : u32 (lo + k * steps i + steps i) = lo + k * steps i + steps i :=
      u32_of_lt (by omega)
    rw [e3]
    exact ⟨by omega, e2, h5, h2, rfl, u32sub_of_le (by omega)⟩
  -- coordinates outside the ranges
  have hother : ∀ i x, i ∉ d.blocks.map Prod.fst → v[i]? = some x →
      bl.find? i = none ∧ st3.find? i = some [x] := by
    intro i x hi hx
    have hi' : i ∉ it.blocks.map Prod.fst := fun h => hi ((hb.blocks_keys i).1 h)
    have hil : i < d.length := by
      rw [← hvlen]; exact (List.getElem?_eq_some_iff.1 hx).1
    refine ⟨(a4 i hi').1, ?_⟩
    rcases (hv.cover i).1 hil with h | h | h
    · exact absurd h hi
    · rw [c3 i (hv.disj_sd i h)]
      exact b4 i x h hx
    · exact c4 i x h hx
  have hblock : ∀ i lo hi x, (i, lo, hi) ∈ d.blocks → v[i]? = some x →
      (1 < min (x + steps i) hi - x ∧ bl.find? i = some (x, min (x + steps i) hi) ∧
        st3.find? i = none) ∨
      (min (x + steps i) hi - x = 1 ∧ bl.find? i = none ∧ st3.find? i = some [x]) := by
    intro i lo hi x hm hx
    have hi' := List.mem_map_of_mem (f := Prod.fst) hm
    obtain ⟨h1, h2, h3, h4, h5, h6⟩ := hub i lo hi x hm hx
    have := a5 i lo hi (steps i) x (hb.blocks_of i lo hi hm).1 hx
    rw [h5] at this h6
    rw [h6] at this
    have e : st3.find? i = st1.find? i := by
      rw [c3 i (hv.disj_bd i hi'), b3 i (hv.disj_bs i hi')]
    rw [e]
    by_cases hc : 1 < min (x + steps i) hi - x
    · exact .inl ⟨hc, (this.1 hc).1, (this.1 hc).2⟩
    · refine .inr ⟨by omega, (this.2 hc).1, (this.2 hc).2⟩
  have hfb : ∀ i x y, bl.find? i = some (x, y) → ∃ lo hi, (i, lo, hi) ∈ d.blocks ∧
      v[i]? = some x ∧ y = min (x + steps i) hi ∧ 1 < y - x := by
    intro i x y hf
    by_cases hi : i ∈ d.blocks.map Prod.fst
    · obtain ⟨⟨i, lo, hi'⟩, hm, rfl⟩ := List.mem_map.1 hi
      obtain ⟨z, hz, _⟩ := hval i ((hv.cover i).2 (.inl hi))
      rcases hblock i lo hi' z hm hz with ⟨e1, e2, e3⟩ | ⟨e1, e2, e3⟩
      · rw [e2] at hf
        cases hf
        exact ⟨lo, hi', hm, hz, rfl, e1⟩
      · rw [e2] at hf
        cases hf
    · rw [(a4 i (fun h => hi ((hb.blocks_keys i).1 h))).1] at hf
      cases hf
  have hfs : ∀ i S, st3.find? i = some S → ∃ x, v[i]? = some x ∧ S = [x] := by
    intro i S hf
    by_cases hil : i < d.length
    · obtain ⟨x, hx, _⟩ := hval i hil
      refine ⟨x, hx, ?_⟩
      by_cases hi : i ∈ d.blocks.map Prod.fst
      · obtain ⟨⟨i, lo, hi'⟩, hm, rfl⟩ := List.mem_map.1 hi
        rcases hblock i lo hi' x hm hx with ⟨e1, e2, e3⟩ | ⟨e1, e2, e3⟩
        · rw [e3] at hf; cases hf
        · rw [e3] at hf; cases hf; rfl
      · rw [(hother i x hi hx).2] at hf
        cases hf
        rfl
    · have n1 : i ∉ d.blocks.map Prod.fst := fun h => hil ((hv.cover i).2 (.inl h))
      have n2 : i ∉ d.sets.map Prod.fst := fun h => hil ((hv.cover i).2 (.inr (.inl h)))
      have n3 : i ∉ d.deps.map Prod.fst := fun h => hil ((hv.cover i).2 (.inr (.inr h)))
      rw [c3 i n3, b3 i n2, (a4 i (fun h => n1 ((hb.blocks_keys i).1 h))).2] at hf
      cases hf
  have hmemb : ∀ i, i ∈ bl.map Prod.fst ↔ ∃ b, bl.find? i = some b := by
    intro i
    constructor
    · intro h
      obtain ⟨e, he, rfl⟩ := List.mem_map.1 h
      exact ⟨e.2, OMap.find?_of_mem a2 he⟩
    · rintro ⟨b, hf⟩
      exact List.mem_map.2 ⟨_, OMap.mem_of_find? hf, rfl⟩
  have hmems : ∀ i, i ∈ st3.map Prod.fst ↔ ∃ b, st3.find? i = some b := by
    intro i
    constructor
    · intro h
      obtain ⟨e, he, rfl⟩ := List.mem_map.1 h
      exact ⟨e.2, OMap.find?_of_mem c2 he⟩
    · rintro ⟨b, hf⟩
      exact List.mem_map.2 ⟨_, OMap.mem_of_find? hf, rfl⟩
  refine ⟨⟨d.length, bl, st3, []⟩, ?_, ?_, ?_⟩
  · unfold asBlockEnumerator
    rw [hv1]
    simp only [Res.bind_ok, a1]
    simp only [hb.sets_eq, b1, Res.bind_ok, hb.deps_eq, c1, hb.length_eq]
  · exact
    { pos := hv.pos
      package_pos := Nat.one_pos
      blocks_sorted := keys_of_sorted a2
      sets_sorted := keys_of_sorted c2
      deps_sorted := by simp
      cover := by
        intro i
        simp only [List.map_nil, List.not_mem_nil, or_false]
        rw [hmemb, hmems]
        constructor
        · intro hil
          obtain ⟨x, hx, _⟩ := hval i hil
          by_cases hi : i ∈ d.blocks.map Prod.fst
          · obtain ⟨⟨i, lo, hi'⟩, hm, rfl⟩ := List.mem_map.1 hi
            rcases hblock i lo hi' x hm hx with ⟨e1, e2, e3⟩ | ⟨e1, e2, e3⟩
            · exact .inl ⟨_, e2⟩
            · exact .inr ⟨_, e3⟩
          · exact .inr ⟨_, (hother i x hi hx).2⟩
        · rintro (⟨⟨x, y⟩, hf⟩ | ⟨S, hf⟩)
          · obtain ⟨lo, hi, hm, _⟩ := hfb i x y hf
            exact (hv.cover i).2 (.inl (List.mem_map_of_mem (f := Prod.fst) hm))
          · obtain ⟨x, hx, _⟩ := hfs i S hf
            rw [← hvlen]
            exact (List.getElem?_eq_some_iff.1 hx).1
      disj_bs := by
        intro i
        simp only
        rw [hmemb, hmems]
        rintro ⟨⟨x, y⟩, hf⟩ ⟨S, hf'⟩
        obtain ⟨lo, hi, hm, hx, _⟩ := hfb i x y hf
        rcases hblock i lo hi x hm hx with ⟨e1, e2, e3⟩ | ⟨e1, e2, e3⟩
        · rw [e3] at hf'; cases hf'
        · rw [e2] at hf; cases hf
      disj_bd := by simp
      disj_sd := by simp
      block_ok := by
        intro i x y hm
        obtain ⟨lo, hi, hm, hx, hy, hlt⟩ := hfb i x y (OMap.find?_of_mem a2 hm)
        have := (hv.block_ok i lo hi hm).2
        omega
      set_ok := by
        intro i S hm
        obtain ⟨x, hx, rfl⟩ := hfs i S (OMap.find?_of_mem c2 hm)
        have := hv2.lt hv ht hx
        simpa using this
      dep_sorted := by simp
      dep_ok := by simp
      dep_coupled := by simp }
  · intro u
    constructor
    · intro hc
      have hone : ∀ i x, i ∉ d.blocks.map Prod.fst → v[i]? = some x → u[i]? = some x := by
        intro i x hi hx
        obtain ⟨y, hy, hy'⟩ := hc.set i [x] (OMap.mem_of_find? (hother i x hi hx).2)
        rw [hy]
        simpa using hy'
      refine ⟨hc.length_eq, ?_, ?_, ?_⟩
      · intro i lo hi hm
        obtain ⟨x, hx, _⟩ := hval i ((hv.cover i).2 (.inl (List.mem_map_of_mem (f := Prod.fst) hm)))
        have hx' := hx
        rw [hv2.block i lo hi hm] at hx'
        obtain ⟨h1, h2, h3, h4, h5, h6⟩ := hub i lo hi x hm hx
        rcases hblock i lo hi x hm hx with ⟨e1, e2, e3⟩ | ⟨e1, e2, e3⟩
        · obtain ⟨y, hy, f1, f2⟩ := hc.block i _ _ (OMap.mem_of_find? e2)
          exact ⟨x, y, hx', hy, f1, by omega, by omega⟩
        · obtain ⟨y, hy, hy'⟩ := hc.set i [x] (OMap.mem_of_find? e3)
          have : y = x := by simpa using hy'
          subst this
          exact ⟨y, y, hx', hy, Nat.le_refl _, by omega, h2⟩
      · intro i S k hm hk
        obtain ⟨k', e1, e2⟩ := ht.set i S hm
        rw [e1] at hk; cases hk
        rw [← hv2.set i S k hm e1]
        have hx : v[i]? = some S[k] := by rw [hv2.set i S k hm e1, List.getElem?_eq_getElem e2]
        rw [hx]
        exact hone i _ (fun h => hv.disj_bs i h (List.mem_map_of_mem (f := Prod.fst) hm)) hx
      · intro i j M c T k hm hcj hT hk
        rw [← hv2.dep i j M c T k hm hcj hT hk]
        have hi' := List.mem_map_of_mem (f := Prod.fst) hm
        obtain ⟨x, hx, _⟩ := hval i ((hv.cover i).2 (.inr (.inr hi')))
        rw [hx]
        exact hone i _ (fun h => hv.disj_bd i h hi') hx
    · intro hp
      have hsame : ∀ i x, i ∉ d.blocks.map Prod.fst → v[i]? = some x → u[i]? = some x := by
        intro i x hi hx
        have hil : i < d.length := by
          rw [← hvlen]; exact (List.getElem?_eq_some_iff.1 hx).1
        rcases (hv.cover i).1 hil with h | h | h
        · exact absurd h hi
        · obtain ⟨⟨i, S⟩, hm, rfl⟩ := List.mem_map.1 h
          obtain ⟨k, e1, e2⟩ := ht.set i S hm
          rw [hp.set i S k hm e1, ← hv2.set i S k hm e1, hx]
        · obtain ⟨⟨i, j, M⟩, hm, rfl⟩ := List.mem_map.1 h
          obtain ⟨c, T, k, e1, e2, e3, e4⟩ := ht.dep i j M hm
          rw [hp.dep i j M c T k hm e1 e2 e3, ← hv2.dep i j M c T k hm e1 e2 e3, hx]
      refine ⟨hp.length_eq, ?_, ?_, by simp, by simp⟩
      · intro i x y hm
        obtain ⟨lo, hi, hm, hx, hy, hlt⟩ := hfb i x y (OMap.find?_of_mem a2 hm)
        obtain ⟨x', z, e1, e2, e3, e4, e5⟩ := hp.block i lo hi hm
        rw [← hv2.block i lo hi hm, hx] at e1
        cases e1
        exact ⟨z, e2, e3, by omega⟩
      · intro i S hm
        have hf := OMap.find?_of_mem c2 hm
        obtain ⟨x, hx, rfl⟩ := hfs i S hf
        by_cases hi : i ∈ d.blocks.map Prod.fst
        · obtain ⟨⟨i, lo, hi'⟩, hm', rfl⟩ := List.mem_map.1 hi
          rcases hblock i lo hi' x hm' hx with ⟨e1, e2, e3⟩ | ⟨e1, e2, e3⟩
          · simp only at hf
            rw [e3] at hf; cases hf
          · obtain ⟨x', z, f1, f2, f3, f4, f5⟩ := hp.block i lo hi' hm'
            rw [← hv2.block i lo hi' hm', hx] at f1
            cases f1
            refine ⟨z, f2, ?_⟩
            rw [List.mem_singleton]
            omega
        · exact ⟨x, hsame i x hi hx, by simp⟩

end

theorem ofBounds_eq_make (bounds : List (Nat × Nat)) :
    ofBounds bounds = make bounds.length (boundsMap 0 bounds) 1 [] [] := rfl

theorem mem_boundsMap (n : Nat) (bounds : List (Nat × Nat)) (i : Nat) (b : Nat × Nat) :
    (i, b) ∈ boundsMap n bounds ↔ n ≤ i ∧ bounds[i - n]? = some b := by
  induction bounds generalizing n with
  | nil => simp [boundsMap]
  | cons a l ih =>
    simp only [boundsMap, List.mem_cons, Prod.mk.injEq, ih]
    constructor
    · rintro (⟨rfl, rfl⟩ | ⟨h1, h2⟩)
      · simp
      · refine ⟨by omega, ?_⟩
        rw [show i - n = (i - (n + 1)) + 1 by omega, List.getElem?_cons_succ]
        exact h2
    · rintro ⟨h1, h2⟩
      by_cases h : i = n
      · subst h
        left
        simpa [eq_comm] using h2
      · right
        rw [show i - n = (i - (n + 1)) + 1 by omega, List.getElem?_cons_succ] at h2
        exact ⟨by omega, h2⟩

theorem keys_boundsMap (n : Nat) (bounds : List (Nat × Nat)) :
    (boundsMap n bounds).map Prod.fst = List.range' n bounds.length := by
  induction bounds generalizing n with
  | nil => rfl
  | cons a l ih => simp [boundsMap, ih, List.range'_succ]

/-- The description a list of ranges stands for. -/
def boundsDescr (bounds : List (Nat × Nat)) : Descr := ⟨bounds.length, boundsMap 0 bounds, [], []⟩

theorem boundsDescr_valid {bounds : List (Nat × Nat)} (hne : bounds ≠ [])
    (h : ∀ b ∈ bounds, b.1 < b.2 ∧ b.2 ≤ 2147483648) : (boundsDescr bounds).Valid 1 where
  pos := List.length_pos_iff.2 hne
  package_pos := Nat.one_pos
  blocks_sorted := by
    show List.Pairwise _ ((boundsMap 0 bounds).map Prod.fst)
    rw [keys_boundsMap]
    exact List.pairwise_lt_range'
  sets_sorted := by simp [boundsDescr]
  deps_sorted := by simp [boundsDescr]
  cover := by
    intro i
    show _ ↔ i ∈ (boundsMap 0 bounds).map Prod.fst ∨ _
    rw [keys_boundsMap]
    simp [boundsDescr, List.mem_range'_1]
  disj_bs := by simp [boundsDescr]
  disj_bd := by simp [boundsDescr]
  disj_sd := by simp [boundsDescr]
  block_ok := by
    intro i lo hi hm
    have := (mem_boundsMap 0 bounds i (lo, hi)).1 hm
    exact h _ (List.mem_of_getElem? this.2)
  set_ok := by simp [boundsDescr]
  dep_sorted := by simp [boundsDescr]
  dep_ok := by simp [boundsDescr]
  dep_coupled := by simp [boundsDescr]

theorem boundsDescr_contains (bounds : List (Nat × Nat)) (v : List Nat) :
    (boundsDescr bounds).Contains v ↔ InBox bounds v := by
  constructor
  · intro h
    refine ⟨h.length_eq, ?_⟩
    rintro i ⟨lo, hi⟩ hb
    exact h.block i lo hi ((mem_boundsMap 0 bounds i (lo, hi)).2 ⟨Nat.zero_le _, hb⟩)
  · intro h
    refine ⟨h.1, ?_, by simp [boundsDescr], by simp [boundsDescr], by simp [boundsDescr]⟩
    intro i lo hi hm
    exact h.2 i _ ((mem_boundsMap 0 bounds i (lo, hi)).1 hm).2

/-- Size of a package. -/
theorem boxSize_le {d : Descr} {package : Nat} {it : BlockIterator} {steps : Nat → Nat}
    (hv : d.Valid package) (hb : Built d package it steps) {v : List Nat} {box : List (Nat × Nat)}
    (hlen : v.length = d.length) (hbox : BoxOf d steps v box) : boxSize box ≤ package := by
  refine Nat.le_trans ?_ hb.steps_prod
  set g : Nat → Nat := fun i => if i ∈ d.blocks.map Prod.fst then steps i else 1 with hg
  have h1 : boxSize box = ∏ i ∈ Finset.range d.length, ((box.map fun b => b.2 - b.1).getD i 1) := by
    unfold boxSize
    rw [← hbox.length_eq]
    generalize hw : (box.map fun b => b.2 - b.1) = w
    have hl : box.length = w.length := by rw [← hw, List.length_map]
    rw [hl]
    clear hw hl
    induction w with
    | nil => simp
    | cons a w ih =>
      rw [List.prod_cons, List.length_cons, Finset.prod_range_succ', ih, Nat.mul_comm]
      simp
  have h2 : (∏ i ∈ Finset.range d.length, ((box.map fun b => b.2 - b.1).getD i 1)) ≤
      ∏ i ∈ Finset.range d.length, g i := by
    refine Finset.prod_le_prod' ?_
    intro i hi
    rw [Finset.mem_range] at hi
    have hvl : i < v.length := by rw [hlen]; exact hi
    have hx : v[i]? = some v[i] := List.getElem?_eq_getElem hvl
    simp only [List.getD_eq_getElem?_getD, List.getElem?_map]
    by_cases hib : i ∈ d.blocks.map Prod.fst
    · obtain ⟨⟨i, lo, hi'⟩, hm, rfl⟩ := List.mem_map.1 hib
      rw [hbox.block i lo hi' _ hm hx]
      simp only [Option.map_some, Option.getD_some, hg, if_pos hib]
      omega
    · rw [hbox.other i _ hib hx]
      simp [hg, if_neg hib]
  have h3 : ∏ i ∈ Finset.range d.length, g i = (d.blocks.map fun e => steps e.1).prod := by
    have hnd : (d.blocks.map Prod.fst).Nodup := hv.blocks_sorted.imp (fun h => Nat.ne_of_lt h)
    have : (d.blocks.map fun e => steps e.1) = (d.blocks.map Prod.fst).map steps := by simp
    rw [this, ← List.prod_toFinset _ hnd]
    simp only [hg]
    rw [Finset.prod_ite, Finset.prod_const_one, mul_one]
    refine Finset.prod_congr ?_ (fun _ _ => rfl)
    ext i
    rw [Finset.mem_filter, Finset.mem_range, List.mem_toFinset]
    exact ⟨fun h => h.2, fun h => ⟨(hv.cover i).2 (.inl h), h⟩⟩
  rw [h1, ← h3]
  exact h2

end BlockIterator
end Hycu
