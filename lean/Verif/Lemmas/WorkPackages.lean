import Mathlib.Data.Fintype.Pi
import Mathlib.Data.Fintype.BigOperators
import Mathlib.Algebra.BigOperators.Fin
import Mathlib.Tactic.Ring
import Verif.Lemmas.Work
import Verif.Props.Block

/-!
Numbers of packages.
-/

namespace Hycu
namespace BlockIterator

/-- How often a step fits into a size, rounded up. -/
def pieces (size step : Nat) : Nat := (size + step - 1) / step

theorem pieces_self {n : Nat} (h : 0 < n) : pieces n n = 1 := by
  unfold pieces
  rw [show n + n - 1 = n + (n - 1) by omega, Nat.add_div_left _ h, Nat.div_eq_of_lt (by omega)]

theorem pieces_one (n : Nat) : pieces n 1 = n := by unfold pieces; simp

theorem pieces_mul_le {n s : Nat} (hs : 0 < s) (h : s ≤ n) : pieces n s * s ≤ 2 * n := by
  unfold pieces
  have := Nat.div_mul_le_self (n + s - 1) s
  omega

theorem assignSteps_one (input : OMap Nat (Nat × Nat)) (steps : Nat → Nat) (l : List (Nat × Nat))
    (order : List Nat) (blocks : OMap Nat (Nat × Nat × Nat)) (hs : OMap.Sorted blocks) (hnd : (l.map Prod.snd).Nodup)
    (hl : ∀ e ∈ l, ∃ lo hi, input.find? e.2 = some (lo, hi) ∧ e.1 = hi - lo ∧ lo < hi) {o : List Nat}
    {bl : OMap Nat (Nat × Nat × Nat)} (h : assignSteps input l 1 order blocks = .ok (o, bl))
    (hst : ∀ e ∈ l, ∃ lo hi, bl.find? e.2 = some (lo, hi, steps e.2)) : ∀ e ∈ l, steps e.2 = 1 := by
  induction l generalizing order blocks with
  | nil => simp
  | cons e rest ih =>
    obtain ⟨size, ix⟩ := e
    obtain ⟨lo, hi, hf, hsz, hlt⟩ := hl (size, ix) (by simp)
    simp only at hf hsz
    rw [List.map_cons, List.nodup_cons] at hnd
    simp only [assignSteps, ge_iff_le] at h
    have h1 : (if size ≤ 1 then size else 1) = 1 := by split <;> omega
    rw [h1, if_neg (by omega), hf] at h
    simp only [Nat.div_self Nat.one_pos] at h
    have hs' := OMap.sorted_set hs ix (lo, hi, 1)
    have hl' : ∀ e ∈ rest, ∃ lo hi, input.find? e.2 = some (lo, hi) ∧ e.1 = hi - lo ∧ lo < hi :=
      fun e he => hl e (by simp [he])
    have hst' : ∀ e ∈ rest, ∃ lo hi, bl.find? e.2 = some (lo, hi, steps e.2) := fun e he => hst e (by simp [he])
    obtain ⟨bl', _, h2, _, _, h4, _⟩ := assignSteps_ok input rest 1 (order ++ [ix])
      (blocks.set ix (lo, hi, 1)) hs' Nat.one_pos hnd.2 hl'
    have hbl : bl = bl' := by
      rw [h] at h2
      exact congrArg Prod.snd (Res.ok.inj h2)
    intro e he
    rcases List.mem_cons.1 he with rfl | he
    · obtain ⟨lo', hi', h5⟩ := hst (size, ix) List.mem_cons_self
      rw [hbl, h4 ix hnd.1, OMap.find?_set_self hs] at h5
      exact (congrArg (fun x => x.2.2) (Option.some.inj h5)).symm
    · exact ih _ _ hs' hnd.2 hl' h hst' e he

/-- The product of the numbers of pieces. -/
theorem assignSteps_few (input : OMap Nat (Nat × Nat)) (steps : Nat → Nat) (l : List (Nat × Nat)) (package : Nat)
    (order : List Nat) (blocks : OMap Nat (Nat × Nat × Nat)) (hs : OMap.Sorted blocks)
    (hp : 0 < package) (hnd : (l.map Prod.snd).Nodup)
    (hl : ∀ e ∈ l, ∃ lo hi, input.find? e.2 = some (lo, hi) ∧ e.1 = hi - lo ∧ lo < hi) {o : List Nat}
    {bl : OMap Nat (Nat × Nat × Nat)} (h : assignSteps input l package order blocks = .ok (o, bl))
    (hst : ∀ e ∈ l, ∃ lo hi, bl.find? e.2 = some (lo, hi, steps e.2)) (c Q : Nat) (hQ : Q < (package + 1) * c) :
    (l.map fun e => pieces e.1 (steps e.2)).prod = 1 ∨
      (l.map fun e => pieces e.1 (steps e.2)).prod * Q ≤ 4 * c * (l.map Prod.fst).prod := by
  induction l generalizing package order blocks c with
  | nil => exact Or.inl rfl
  | cons e rest ih =>
    obtain ⟨size, ix⟩ := e
    obtain ⟨lo, hi, hf, hsz, hlt⟩ := hl (size, ix) (by simp)
    simp only at hf hsz
    rw [List.map_cons, List.nodup_cons] at hnd
    simp only [assignSteps, ge_iff_le] at h
    obtain ⟨step, hstep⟩ : ∃ step, step = if size ≤ package then size else package := ⟨_, rfl⟩
    rw [← hstep] at h
    have hstep1 : 1 ≤ step := by rw [hstep]; split <;> omega
    have hstep3 : step ≤ package := by rw [hstep]; split <;> omega
    rw [if_neg (by omega), hf] at h
    simp only at h
    have hs' := OMap.sorted_set hs ix (lo, hi, step)
    have hl' : ∀ e ∈ rest, ∃ lo hi, input.find? e.2 = some (lo, hi) ∧ e.1 = hi - lo ∧ lo < hi :=
      fun e he => hl e (by simp [he])
    have hst' : ∀ e ∈ rest, ∃ lo hi, bl.find? e.2 = some (lo, hi, steps e.2) := fun e he => hst e (by simp [he])
    obtain ⟨bl', _, h1, _, _, h4, _⟩ := assignSteps_ok input rest (package / step) (order ++ [ix])
      (blocks.set ix (lo, hi, step)) hs' (Nat.div_pos hstep3 hstep1) hnd.2 hl'
    have hbl : bl = bl' := by
      rw [h] at h1
      exact congrArg Prod.snd (Res.ok.inj h1)
    have hix : steps ix = step := by
      obtain ⟨lo', hi', h5⟩ := hst (size, ix) List.mem_cons_self
      rw [hbl, h4 ix hnd.1, OMap.find?_set_self hs] at h5
      exact (congrArg (fun x => x.2.2) (Option.some.inj h5)).symm
    simp only [List.map_cons, List.prod_cons, hix]
    by_cases hle : size ≤ package
    · rw [if_pos hle] at hstep
      subst hstep
      rw [pieces_self (by omega), one_mul]
      rcases ih (package / step) _ _ hs' (Nat.div_pos hle (by omega)) hnd.2 hl' h hst' (step * c) (by
        refine Nat.lt_of_lt_of_le hQ ?_
        rw [← mul_assoc]
        refine Nat.mul_le_mul_right c ?_
        have := Nat.lt_div_mul_add (a := package) (b := step) (by omega)
        rw [add_mul, one_mul]
        omega) with h6 | h6
      · exact Or.inl h6
      · refine Or.inr (h6.trans_eq ?_)
        ring
    · rw [if_neg hle] at hstep
      right
      subst hstep
      rw [Nat.div_self hp] at h
      have h6 := assignSteps_one input steps rest _ _ hs' hnd.2 hl' h hst'
      have h7 : (rest.map fun e => pieces e.1 (steps e.2)) = rest.map Prod.fst := by
        refine List.map_congr_left fun e he => ?_
        rw [h6 e he, pieces_one]
      rw [h7]
      have h8 := pieces_mul_le hp (show step ≤ size by omega)
      have h9 : Q ≤ 2 * step * c := by
        have : (step + 1) * c ≤ 2 * step * c := Nat.mul_le_mul_right _ (by omega)
        omega
      calc pieces size step * (rest.map Prod.fst).prod * Q
          ≤ pieces size step * (rest.map Prod.fst).prod * (2 * step * c) := Nat.mul_le_mul_left _ h9
        _ = (pieces size step * step) * (2 * c * (rest.map Prod.fst).prod) := by ring
        _ ≤ 2 * size * (2 * c * (rest.map Prod.fst).prod) := Nat.mul_le_mul_right _ h8
        _ = 4 * c * (size * (rest.map Prod.fst).prod) := by ring

theorem Built.few {d : Descr} {package : Nat} {it : BlockIterator} {steps : Nat → Nat} (hv : d.Valid package)
    (hm : make d.length d.blocks package d.sets d.deps = .ok it) (hb : Built d package it steps) :
    (d.blocks.map fun e => pieces (e.2.2 - e.2.1) (steps e.1)).prod = 1 ∨
      (d.blocks.map fun e => pieces (e.2.2 - e.2.1) (steps e.1)).prod * package ≤
        4 * (d.blocks.map fun e => e.2.2 - e.2.1).prod := by
  have hsb := sorted_of_keys hv.blocks_sorted
  have hnd : (d.blocks.map Prod.fst).Nodup := hv.blocks_sorted.imp fun h => Nat.ne_of_lt h
  unfold make at hm
  obtain ⟨⟨order, bl⟩, h1, h2⟩ := Res.bind_eq_ok.1 hm
  have hbl : it.blocks = bl := by
    unfold setInitialPosition at h2
    obtain ⟨p1, _, h2⟩ := Res.bind_eq_ok.1 h2
    obtain ⟨p2, _, h2⟩ := Res.bind_eq_ok.1 h2
    obtain ⟨p3, _, h2⟩ := Res.bind_eq_ok.1 h2
    rw [← Res.ok.inj h2]
  unfold initializeBlocks at h1
  obtain ⟨sizes, h3, h4⟩ := Res.bind_eq_ok.1 h1
  rw [blockSizes_ok fun i lo hi hm => ⟨(hv.block_ok i lo hi hm).1, by have := (hv.block_ok i lo hi hm).2; omega⟩] at h3
  have h3 := Res.ok.inj h3
  have hperm : (sortBy sizeOrder sizes).Perm sizes := sortBy_perm _ _
  have hmem : ∀ e ∈ sortBy sizeOrder sizes, ∃ lo hi, (e.2, lo, hi) ∈ d.blocks ∧ e.1 = hi - lo := by
    intro e he
    have he := hperm.mem_iff.1 he
    rw [← h3, List.mem_map] at he
    obtain ⟨⟨i, lo, hi⟩, hm, rfl⟩ := he
    exact ⟨lo, hi, hm, rfl⟩
  have := assignSteps_few d.blocks steps (sortBy sizeOrder sizes) package [] [] OMap.sorted_nil hv.package_pos
    ((hperm.map Prod.snd).nodup_iff.2 (by rw [← h3, List.map_map]; exact hnd)) (by
      intro e he
      obtain ⟨lo, hi, h5, h6⟩ := hmem e he
      exact ⟨lo, hi, (OMap.find?_eq_some hsb).2 h5, h6, (hv.block_ok _ _ _ h5).1⟩) h4 (by
      intro e he
      obtain ⟨lo, hi, h5, h6⟩ := hmem e he
      refine ⟨lo, hi, ?_⟩
      rw [← hbl]
      exact (OMap.find?_eq_some hb.blocks_sorted).2 (hb.blocks_of _ _ _ h5).1) 1 package (by omega)
  rw [(hperm.map fun e => pieces e.1 (steps e.2)).prod_eq, (hperm.map Prod.fst).prod_eq, ← h3, List.map_map, List.map_map,
    mul_one] at this
  exact this

end BlockIterator
end Hycu
