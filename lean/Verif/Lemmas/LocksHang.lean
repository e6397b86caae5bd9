import Verif.Spec.Locks

/-!
Executions that end up in a state in which nobody can do anything.
-/

namespace Hycu
namespace Locks

variable {A L X C : Type} {V : X → Type} [DecidableEq A] [DecidableEq L] [DecidableEq X] {S : System A L X C V}

/-- An execution up to a state. -/
theorem Reachable.path {c₀ c : Config A L X V} (h : Reachable S c₀ c) : ∃ (N : Nat) (σ : Nat → Config A L X V)
    (who : Nat → Option A), σ 0 = c₀ ∧ (∀ n a, who n = some a → Step S a (σ n) (σ (n + 1))) ∧
      (∀ n, who n = none → Scribble S (σ n) (σ (n + 1)) ∨ σ (n + 1) = σ n) ∧ ∀ n, N ≤ n → σ n = c := by
  have add : ∀ {c c' : Config A L X V} (o : Option A), (∀ a, o = some a → Step S a c c') → (o = none → Scribble S c c') →
      (∃ (N : Nat) (σ : Nat → Config A L X V)
        (who : Nat → Option A), σ 0 = c₀ ∧ (∀ n a, who n = some a → Step S a (σ n) (σ (n + 1))) ∧
          (∀ n, who n = none → Scribble S (σ n) (σ (n + 1)) ∨ σ (n + 1) = σ n) ∧ ∀ n, N ≤ n → σ n = c) →
      ∃ (N : Nat) (σ : Nat → Config A L X V)
        (who : Nat → Option A), σ 0 = c₀ ∧ (∀ n a, who n = some a → Step S a (σ n) (σ (n + 1))) ∧
          (∀ n, who n = none → Scribble S (σ n) (σ (n + 1)) ∨ σ (n + 1) = σ n) ∧ ∀ n, N ≤ n → σ n = c' := by
    rintro c c' o h1 h2 ⟨N, σ, who, h3, h4, h5, h6⟩
    refine ⟨N + 1, fun n => if n ≤ N then σ n else c', fun n => if n < N then who n else if n = N then o else none,
      ?_, fun n a hn => ?_, fun n hn => ?_, fun n hn => ?_⟩
    · beta_reduce
      rw [if_pos (Nat.zero_le _), h3]
    · beta_reduce at hn ⊢
      by_cases e : n < N
      · rw [if_pos e] at hn
        rw [if_pos (by omega), if_pos (by omega)]
        exact h4 n a hn
      · rw [if_neg e] at hn
        by_cases e' : n = N
        · rw [if_pos e'] at hn
          rw [if_pos (by omega), if_neg (by omega), h6 n (by omega)]
          exact h1 a hn
        · rw [if_neg e'] at hn
          cases hn
    · beta_reduce at hn ⊢
      by_cases e : n < N
      · rw [if_pos e] at hn
        rw [if_pos (by omega), if_pos (by omega)]
        exact h5 n hn
      · rw [if_neg e] at hn
        by_cases e' : n = N
        · rw [if_pos e'] at hn
          rw [if_pos (by omega), if_neg (by omega), h6 n (by omega)]
          exact Or.inl (h2 hn)
        · rw [if_neg (by omega), if_neg (by omega)]
          exact Or.inr rfl
    · beta_reduce
      rw [if_neg (by omega)]
  induction h with
  | refl => exact ⟨0, fun _ => c₀, fun _ => none, rfl, fun n a h => (by cases h), fun _ _ => Or.inr rfl, fun _ _ => rfl⟩
  | step a _ hs ih => exact add (some a) (fun b h => by cases h; exact hs) (fun h => by cases h) ih
  | scribble _ hs ih => exact add none (fun b h => by cases h) (fun _ => hs) ih

/-- An execution is fair if nobody can do anything in the end. -/
theorem Reachable.hang {sleeper : A → Prop} {c₀ c : Config A L X V} (h : Reachable S c₀ c) (hc : ∀ a, ¬ Able S sleeper c a) :
    ∃ σ who, Fair S sleeper c₀ σ who ∧ ∃ N, ∀ n, N ≤ n → σ n = c := by
  obtain ⟨N, σ, who, h1, h2, h3, h4⟩ := h.path
  refine ⟨σ, who, ⟨h1, h2, h3, fun a ha => ?_⟩, N, h4⟩
  obtain ⟨m, h5, h6⟩ := ha N
  rw [h4 m h5] at h6
  exact absurd h6 (hc a)

end Locks
end Hycu
