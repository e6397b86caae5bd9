import Verif.Model.ReferenceStore

/-!
The dictionary of the script that computes the reference stores.
-/

namespace Hycu
namespace Reference

theorem keys_bump (key : List Nat × List Int) : ∀ (d : Dict) (k : List Nat × List Int),
    k ∈ (bump key d).map Prod.fst ↔ k = key ∨ k ∈ d.map Prod.fst
  | [], k => by simp [bump]
  | e :: d, k => by
    unfold bump
    split
    · rename_i h
      subst h
      simp
    · rw [List.map_cons, List.mem_cons, keys_bump key d k, List.map_cons, List.mem_cons]
      tauto

theorem nodup_bump (key : List Nat × List Int) : ∀ d : Dict, (d.map Prod.fst).Nodup → ((bump key d).map Prod.fst).Nodup
  | [], _ => by simp [bump]
  | e :: d, h => by
    rw [List.map_cons, List.nodup_cons] at h
    unfold bump
    split
    · rw [List.map_cons, List.nodup_cons]
      exact h
    · rename_i hne
      rw [List.map_cons, List.nodup_cons, keys_bump]
      exact ⟨fun h' => h'.elim hne h.1, nodup_bump key d h.2⟩

theorem mem_bump_ne {key k : List Nat × List Int} (hk : k ≠ key) (n : Nat) : ∀ d : Dict, (k, n) ∈ bump key d ↔ (k, n) ∈ d
  | [] => by simp [bump, hk]
  | e :: d => by
    unfold bump
    split
    · rename_i h
      subst h
      rw [List.mem_cons, List.mem_cons]
      constructor
      · rintro (h | h)
        · exact absurd (congrArg Prod.fst h) hk
        · exact .inr h
      · rintro (h | h)
        · exact absurd (congrArg Prod.fst h) hk
        · exact .inr h
    · rw [List.mem_cons, List.mem_cons, mem_bump_ne hk n d]

theorem mem_bump_self (key : List Nat × List Int) (n : Nat) : ∀ d : Dict, (d.map Prod.fst).Nodup →
    ((key, n) ∈ bump key d ↔ (n = 1 ∧ key ∉ d.map Prod.fst) ∨ ∃ m, n = m + 1 ∧ (key, m) ∈ d)
  | [], _ => by simp [bump]
  | e :: d, h => by
    rw [List.map_cons, List.nodup_cons] at h
    unfold bump
    split
    · rename_i he
      subst he
      constructor
      · intro hm
        rcases List.mem_cons.1 hm with hm | hm
        · exact .inr ⟨e.2, congrArg Prod.snd hm, List.mem_cons_self⟩
        · exact absurd (List.mem_map.2 ⟨_, hm, rfl⟩) h.1
      · rintro (⟨_, hm⟩ | ⟨m, rfl, hm⟩)
        · exact absurd List.mem_cons_self hm
        · rcases List.mem_cons.1 hm with hm | hm
          · rw [← hm]; exact List.mem_cons_self
          · exact absurd (List.mem_map.2 ⟨_, hm, rfl⟩) h.1
    · rename_i hne
      have hne' : ∀ j, (key, j) ≠ e := fun j hj => hne (hj ▸ rfl)
      rw [List.mem_cons, mem_bump_self key n d h.2, List.map_cons, List.mem_cons]
      have hne2 : ¬ key = e.1 := fun h => hne h.symm
      simp only [List.mem_cons, hne', false_or, hne2]

/-- A dictionary with the numbers of occurrences in a list. -/
structure Counts (d : Dict) (ks : List (List Nat × List Int)) : Prop where
  nodup : (d.map Prod.fst).Nodup
  mem : ∀ k n, (k, n) ∈ d ↔ 0 < n ∧ n = ks.count k

theorem Counts.nil : Counts [] [] := ⟨by simp, by intro k n; simp; omega⟩

theorem Counts.bump {d : Dict} {ks : List (List Nat × List Int)} (h : Counts d ks) (k : List Nat × List Int) :
    Counts (bump k d) (ks ++ [k]) := by
  refine ⟨nodup_bump k d h.nodup, fun k' n => ?_⟩
  rw [List.count_append]
  by_cases hk : k' = k
  · subst hk
    rw [mem_bump_self k' n d h.nodup, List.count_singleton_self]
    constructor
    · rintro (⟨rfl, hm⟩ | ⟨m, rfl, hm⟩)
      · have : ¬ 0 < ks.count k' := fun h0 => hm (List.mem_map.2 ⟨(k', _), (h.mem k' _).2 ⟨h0, rfl⟩, rfl⟩)
        omega
      · have := (h.mem k' m).1 hm
        omega
    · rintro ⟨-, rfl⟩
      by_cases h0 : 0 < ks.count k'
      · exact .inr ⟨_, rfl, (h.mem k' _).2 ⟨h0, rfl⟩⟩
      · refine .inl ⟨by omega, fun hm => ?_⟩
        obtain ⟨⟨k1, n⟩, hn, rfl⟩ := List.mem_map.1 hm
        have := (h.mem k1 n).1 hn
        exact h0 (this.2 ▸ this.1)
  · rw [mem_bump_ne hk, h.mem, List.count_singleton, if_neg (by simpa using Ne.symm hk), Nat.add_zero]

variable {p : Nat} [Fact p.Prime] {E : Nat → Extension (ZMod p)}

/-- The key under which a polynomial is counted. -/
def keyOf (S : Sage p E) (m : Nat) (rhs : List (ZMod p)) : List Nat × List Int :=
  (ramification S rhs, (List.range m).map fun j => offset S (j + 1) rhs)

/-- The polynomials that are counted in one of the loops. -/
def counted (S : Sage p E) (k : Nat) : List (List (ZMod p)) :=
  (((xmrange (List.replicate k p)).filter fun cs => cs.getLastD 0 ≠ 0).map
    (List.map (Nat.cast : Nat → ZMod p))).filter S.isSquarefree

theorem counts_loop (S : Sage p E) (m : Nat) (l : List (List Nat)) : ∀ {d : Dict} {ks : List (List Nat × List Int)}, Counts d ks →
    Counts (l.foldl (fun d coeffs =>
      if coeffs.getLastD 0 = 0 then d else countRhs S m d (coeffs.map (Nat.cast : Nat → ZMod p))) d)
    (ks ++ (((l.filter fun cs => cs.getLastD 0 ≠ 0).map (List.map (Nat.cast : Nat → ZMod p))).filter S.isSquarefree).map
      (keyOf S m)) := by
  induction l with
  | nil => intro d ks h; simpa using h
  | cons cs l ih =>
    intro d ks h
    rw [List.foldl_cons]
    by_cases h0 : cs.getLastD 0 = 0
    · rw [if_pos h0, List.filter_cons_of_neg (by simpa using h0)]
      exact ih h
    · rw [if_neg h0, List.filter_cons_of_pos (by simpa using h0), List.map_cons]
      by_cases hs : S.isSquarefree (cs.map (Nat.cast : Nat → ZMod p)) = true
      · rw [List.filter_cons_of_pos hs, List.map_cons, List.append_cons]
        unfold countRhs
        rw [if_pos hs]
        exact ih (h.bump _)
      · rw [List.filter_cons_of_neg hs]
        unfold countRhs
        rw [if_neg hs]
        exact ih h

theorem counts_curves (S : Sage p E) (genus : Nat) : Counts (countCurves S genus)
    ((counted S (2 * genus + 2) ++ counted S (2 * genus + 3)).map (keyOf S genus)) := by
  have h1 := counts_loop S genus (xmrange (List.replicate (2 * genus + 2) p)) Counts.nil
  have h2 := counts_loop S genus (xmrange (List.replicate (2 * genus + 3) p)) h1
  rw [List.nil_append, ← List.map_append] at h2
  exact h2

end Reference
end Hycu
