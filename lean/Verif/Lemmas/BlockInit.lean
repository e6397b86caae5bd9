import Verif.Model.BlockIterator
import Verif.Spec.Tuples
import Verif.Lemmas.Odometer
import Mathlib.Data.List.Sort
import Mathlib.Data.List.Perm.Basic
import Mathlib.Algebra.BigOperators.Group.List.Basic

/-
`initialize_blocks` and the constructor.
-/

namespace Hycu
namespace BlockIterator

theorem sorted_of_keys {V : Type} {m : OMap Nat V} (h : (m.map Prod.fst).Pairwise (· < ·)) :
    OMap.Sorted m := by
  unfold OMap.Sorted
  rw [List.pairwise_map] at h
  refine h.imp ?_
  intro a b hab
  simpa [CppLess.lt] using hab

theorem keys_of_sorted {V : Type} {m : OMap Nat V} (h : OMap.Sorted m) :
    (m.map Prod.fst).Pairwise (· < ·) := by
  rw [List.pairwise_map]
  refine List.Pairwise.imp ?_ h
  intro a b hab
  simpa [CppLess.lt] using hab

theorem blockSizes_ok {input : OMap Nat (Nat × Nat)}
    (h : ∀ i lo hi, (i, lo, hi) ∈ input → lo < hi ∧ hi < 4294967296) :
    blockSizes input = .ok (input.map fun e => (e.2.2 - e.2.1, e.1)) := by
  induction input with
  | nil => rfl
  | cons e rest ih =>
    obtain ⟨ix, lo, hi⟩ := e
    have h0 := h ix lo hi (by simp)
    have ih := ih (fun i lo hi hm => h i lo hi (by simp [hm]))
    simp only [blockSizes, ge_iff_le, ih, Res.bind_ok, List.map_cons]
    rw [if_neg (by omega), u32sub_of_le (by omega)]

theorem blockSizes_abort {input : OMap Nat (Nat × Nat)}
    (h : ∃ i lo hi, (i, lo, hi) ∈ input ∧ hi ≤ lo) : blockSizes input = .abort := by
  induction input with
  | nil => obtain ⟨i, lo, hi, hm, _⟩ := h; cases hm
  | cons e rest ih =>
    obtain ⟨ix, lo, hi⟩ := e
    simp only [blockSizes, ge_iff_le]
    split
    · rfl
    · rename_i hlt
      obtain ⟨i, lo', hi', hm, hle⟩ := h
      rcases List.mem_cons.1 hm with hm | hm
      · cases hm; omega
      · rw [ih ⟨i, lo', hi', hm, hle⟩]
        rfl

theorem assignSteps_ok (input : OMap Nat (Nat × Nat)) (l : List (Nat × Nat)) (package : Nat)
    (order : List Nat) (blocks : OMap Nat (Nat × Nat × Nat)) (hs : OMap.Sorted blocks)
    (hp : 0 < package) (hnd : (l.map Prod.snd).Nodup)
    (hl : ∀ e ∈ l, ∃ lo hi, input.find? e.2 = some (lo, hi) ∧ e.1 = hi - lo ∧ lo < hi) :
    ∃ bl, ∃ steps : Nat → Nat,
      assignSteps input l package order blocks = .ok (order ++ l.map Prod.snd, bl) ∧
      OMap.Sorted bl ∧
      (∀ e ∈ l, ∃ lo hi, input.find? e.2 = some (lo, hi) ∧ bl.find? e.2 = some (lo, hi, steps e.2) ∧
        1 ≤ steps e.2 ∧ steps e.2 ≤ hi - lo) ∧
      (∀ i, i ∉ l.map Prod.snd → bl.find? i = blocks.find? i) ∧
      (l.map fun e => steps e.2).prod ≤ package := by
  induction l generalizing package order blocks with
  | nil =>
    refine ⟨blocks, fun _ => 1, by simp [assignSteps], hs, by simp, by simp, ?_⟩
    simp; omega
  | cons e rest ih =>
    obtain ⟨size, ix⟩ := e
    obtain ⟨lo, hi, hf, hsz, hlt⟩ := hl (size, ix) (by simp)
    simp only at hf hsz
    rw [List.map_cons, List.nodup_cons] at hnd
    simp only [assignSteps, ge_iff_le]
    set step := if size ≤ package then size else package with hstep
    have hstep1 : 1 ≤ step := by rw [hstep]; split <;> omega
    have hstep2 : step ≤ hi - lo := by rw [hstep]; split <;> omega
    have hstep3 : step ≤ package := by rw [hstep]; split <;> omega
    rw [if_neg (by omega), hf]
    simp only
    obtain ⟨bl, steps, h1, h2, h3, h4, h5⟩ := ih (package / step) (order ++ [ix])
      (blocks.set ix (lo, hi, step)) (OMap.sorted_set hs _ _)
      (Nat.div_pos hstep3 hstep1) hnd.2 (fun e he => hl e (by simp [he]))
    refine ⟨bl, fun i => if i = ix then step else steps i, ?_, h2, ?_, ?_, ?_⟩
    · rw [h1]; simp
    · intro e he
      rcases List.mem_cons.1 he with rfl | he
      · refine ⟨lo, hi, hf, ?_, by simpa using hstep1, by simpa using hstep2⟩
        simp only [if_true]
        rw [h4 ix hnd.1, OMap.find?_set_self hs]
      · have hne : e.2 ≠ ix := by
          intro h
          exact hnd.1 (List.mem_map.2 ⟨e, he, h⟩)
        simp only [if_neg hne]
        exact h3 e he
    · intro i hi'
      rw [List.map_cons, List.mem_cons, not_or] at hi'
      rw [h4 i hi'.2, OMap.find?_set_of_ne hs hi'.1]
    · have : (rest.map fun e => if e.2 = ix then step else steps e.2) =
          rest.map fun e => steps e.2 := by
        apply List.map_congr_left
        intro e he
        rw [if_neg]
        intro h
        exact hnd.1 (List.mem_map.2 ⟨e, he, h⟩)
      simp only [List.map_cons, if_true, List.prod_cons, this]
      calc step * _ ≤ step * (package / step) := Nat.mul_le_mul_left _ h5
        _ ≤ package := Nat.mul_div_le _ _

/-- `initialize_blocks` on valid input. -/
theorem initializeBlocks_ok {input : OMap Nat (Nat × Nat)} {package : Nat} (hs : OMap.Sorted input)
    (hp : 0 < package) (h : ∀ i lo hi, (i, lo, hi) ∈ input → lo < hi ∧ hi < 4294967296) :
    ∃ order bl, ∃ steps : Nat → Nat, initializeBlocks input package = .ok (order, bl) ∧
      order.Perm (input.map Prod.fst) ∧ OMap.Sorted bl ∧
      (∀ i lo hi, (i, lo, hi) ∈ input → (i, lo, hi, steps i) ∈ bl ∧ 1 ≤ steps i ∧
        steps i ≤ hi - lo) ∧
      (∀ i lo hi st, (i, lo, hi, st) ∈ bl → (i, lo, hi) ∈ input ∧ st = steps i) ∧
      (input.map fun e => steps e.1).prod ≤ package := by
  have hk := keys_of_sorted hs
  have hnd : (input.map Prod.fst).Nodup := hk.imp (fun h => Nat.ne_of_lt h)
  set sizes := (input.map fun e => (e.2.2 - e.2.1, e.1)) with hsizes
  have hperm : (sortBy sizeOrder sizes).Perm sizes := sortBy_perm _ _
  have hmap : sizes.map Prod.snd = input.map Prod.fst := by simp [hsizes]
  have hpm : ((sortBy sizeOrder sizes).map Prod.snd).Perm (input.map Prod.fst) := by
    rw [← hmap]; exact hperm.map _
  obtain ⟨bl, steps, h1, h2, h3, h4, h5⟩ := assignSteps_ok input (sortBy sizeOrder sizes) package
    [] [] OMap.sorted_nil hp (hpm.nodup_iff.2 hnd) (by
      intro e he
      have he := hperm.mem_iff.1 he
      rw [hsizes, List.mem_map] at he
      obtain ⟨⟨i, lo, hi⟩, hm, rfl⟩ := he
      exact ⟨lo, hi, OMap.find?_of_mem hs hm, rfl, (h _ _ _ hm).1⟩)
  refine ⟨_, bl, steps, ?_, hpm, h2, ?_, ?_, ?_⟩
  · simp only [initializeBlocks, blockSizes_ok h, Res.bind_ok]
    rw [← hsizes, h1]
    simp
  · intro i lo hi hm
    have : (hi - lo, i) ∈ sortBy sizeOrder sizes :=
      hperm.mem_iff.2 (List.mem_map.2 ⟨_, hm, rfl⟩)
    obtain ⟨lo', hi', hf, hb, hs1, hs2⟩ := h3 _ this
    rw [OMap.find?_of_mem hs hm] at hf
    cases hf
    exact ⟨OMap.mem_of_find? hb, hs1, hs2⟩
  · intro i lo hi st hm
    have hf := OMap.find?_of_mem h2 hm
    by_cases hi' : i ∈ (sortBy sizeOrder sizes).map Prod.snd
    · rw [List.mem_map] at hi'
      obtain ⟨e, he, rfl⟩ := hi'
      obtain ⟨lo', hi', hf', hb, _, _⟩ := h3 _ he
      rw [hf] at hb
      cases hb
      exact ⟨OMap.mem_of_find? hf', rfl⟩
    · rw [h4 i hi'] at hf
      cases hf
  · have h6 : ((sortBy sizeOrder sizes).map fun e => steps e.2).Perm
        (sizes.map fun e => steps e.2) := hperm.map _
    rw [h6.prod_eq] at h5
    simpa [hsizes, Function.comp_def] using h5

theorem writeAll_ok (value : Nat → Nat) (l pos : List Nat) (h : ∀ i ∈ l, i < pos.length) :
    ∃ pos', writeAll value l pos = .ok pos' ∧ pos'.length = pos.length ∧
      (∀ i ∈ l, pos'[i]? = some (value i)) ∧ (∀ i, i ∉ l → pos'[i]? = pos[i]?) := by
  induction l generalizing pos with
  | nil => exact ⟨pos, rfl, rfl, by simp, by simp⟩
  | cons a l ih =>
    obtain ⟨pos', h1, h2, h3, h4⟩ := ih (pos.set a (value a)) (by
      intro i hi
      rw [List.length_set]
      exact h i (by simp [hi]))
    refine ⟨pos', ?_, by rw [h2, List.length_set], ?_, ?_⟩
    · simp only [writeAll, if_pos (h a (by simp)), h1]
    · intro i hi
      by_cases hil : i ∈ l
      · exact h3 i hil
      · rcases List.mem_cons.1 hi with rfl | hi
        · rw [h4 _ hil, List.getElem?_set_self (h _ (by simp))]
        · exact absurd hi hil
    · intro i hi
      rw [List.mem_cons, not_or] at hi
      rw [h4 i hi.2, List.getElem?_set_ne (Ne.symm hi.1)]

end BlockIterator
end Hycu
