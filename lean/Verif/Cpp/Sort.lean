import Verif.Cpp.OMap

/-
`std::sort` as insertion sort: on the inputs where it is used all correct sorts agree, because the
comparison is a strict total order.
-/

namespace Hycu

/-- Insert before the first element that `x` has to precede. -/
def insertBy {α : Type} (lt : α → α → Bool) (x : α) : List α → List α
  | [] => [x]
  | y :: l => if lt y x then y :: insertBy lt x l else x :: y :: l

/-- `std::sort` with comparison `lt`. -/
def sortBy {α : Type} (lt : α → α → Bool) : List α → List α
  | [] => []
  | x :: l => insertBy lt x (sortBy lt l)

theorem insertBy_perm {α : Type} (lt : α → α → Bool) (x : α) (l : List α) :
    (insertBy lt x l).Perm (x :: l) := by
  induction l with
  | nil => exact List.Perm.refl _
  | cons y l ih =>
    unfold insertBy
    split
    · exact (ih.cons y).trans (List.Perm.swap x y l)
    · exact List.Perm.refl _

theorem sortBy_perm {α : Type} (lt : α → α → Bool) (l : List α) : (sortBy lt l).Perm l := by
  induction l with
  | nil => exact List.Perm.refl _
  | cons x l ih => exact (insertBy_perm lt x _).trans (ih.cons x)

/-- The result is ordered: no later element is smaller than an earlier one. -/
theorem sortBy_sorted {α : Type} (lt : α → α → Bool)
    (htrans : ∀ a b c, lt b a = false → lt c b = false → lt c a = false)
    (hasymm : ∀ a b, lt a b = true → lt b a = false) (l : List α) :
    (sortBy lt l).Pairwise (fun a b => lt b a = false) := by
  induction l with
  | nil => exact List.Pairwise.nil
  | cons x l ih =>
    simp only [sortBy]
    generalize sortBy lt l = s at ih
    induction s with
    | nil => simp [insertBy]
    | cons y s ihs =>
      have h := List.pairwise_cons.1 ih
      unfold insertBy
      split
      · rename_i hyx
        refine List.pairwise_cons.2 ⟨?_, ihs h.2⟩
        intro z hz
        rcases List.mem_cons.1 ((insertBy_perm lt x s).mem_iff.1 hz) with rfl | hz
        · exact hasymm _ _ hyx
        · exact h.1 z hz
      · rename_i hyx
        refine List.pairwise_cons.2 ⟨?_, ih⟩
        have hyx : lt y x = false := by simpa using hyx
        intro z hz
        rcases List.mem_cons.1 hz with rfl | hz
        · exact hyx
        · exact htrans _ _ _ hyx (h.1 z hz)

end Hycu
