/-
Outcomes of C++ code, unsigned 32 bit arithmetic and checked vector reads.
-/

namespace Hycu

/-- Outcome of running a piece of C++ code.
* `ok a`: normal completion with value `a`;
* `ub`: undefined behaviour (out of range read, division by zero, `back()` of an empty vector, ...);
* `abort`: the code executes `throw;` with no exception in flight (which calls `std::terminate`), or an
  exception leaves `main`;
* `diverge`: the loop bound given to the model was used up (see `Terminates`). -/
inductive Res (α : Type) where
  | ok (a : α)
  | ub
  | abort
  | diverge
  deriving DecidableEq, Repr

namespace Res

/-- Sequencing: everything but `ok` stops the computation. -/
def bind {α β : Type} : Res α → (α → Res β) → Res β
  | ok a, f => f a
  | ub, _ => ub
  | abort, _ => abort
  | diverge, _ => diverge

instance : Monad Res where
  pure := ok
  bind := Res.bind

@[simp] theorem pure_eq {α : Type} (a : α) : (pure a : Res α) = ok a := rfl
@[simp] theorem bind_ok {α β : Type} (a : α) (f : α → Res β) : (ok a >>= f) = f a := rfl
@[simp] theorem bind_ub {α β : Type} (f : α → Res β) : ((ub : Res α) >>= f) = ub := rfl
@[simp] theorem bind_abort {α β : Type} (f : α → Res β) : ((abort : Res α) >>= f) = abort := rfl
@[simp] theorem bind_diverge {α β : Type} (f : α → Res β) :
    ((diverge : Res α) >>= f) = diverge := rfl

theorem bind_eq_ok {α β : Type} {x : Res α} {f : α → Res β} {b : β} :
    (x >>= f) = ok b ↔ ∃ a, x = ok a ∧ f a = ok b := by
  cases x <;> simp

@[simp] theorem map_eq_bind {α β : Type} (f : α → β) (x : Res α) :
    (f <$> x) = (x >>= fun a => ok (f a)) := by
  cases x <;> rfl

instance : LawfulMonad Res := LawfulMonad.mk'
  (id_map := by intro α x; cases x <;> rfl)
  (pure_bind := by intros; rfl)
  (bind_assoc := by intro α β γ x f g; cases x <;> rfl)

end Res

/-- A loop modelled with an iteration bound completes normally with value `a`: for every large enough
bound the outcome is `ok a`. -/
def Terminates {α : Type} (run : Nat → Res α) (a : α) : Prop :=
  ∃ N, ∀ n, N ≤ n → run n = .ok a

theorem Terminates.unique {α : Type} {run : Nat → Res α} {a b : α}
    (ha : Terminates run a) (hb : Terminates run b) : a = b := by
  obtain ⟨N, hN⟩ := ha
  obtain ⟨M, hM⟩ := hb
  have h1 := hN (max N M) (Nat.le_max_left _ _)
  have h2 := hM (max N M) (Nat.le_max_right _ _)
  rw [h1] at h2
  exact Res.ok.inj h2

/-- Reduction of a mathematical integer to C++ `unsigned int` (32 bit). -/
def u32 (n : Nat) : Nat := n % 4294967296

theorem u32_of_lt {n : Nat} (h : n < 4294967296) : u32 n = n := Nat.mod_eq_of_lt h

/-- Unsigned 32 bit subtraction (of operands below 2^32). -/
def u32sub (a b : Nat) : Nat := if b ≤ a then a - b else 4294967296 - (b - a)

theorem u32sub_of_le {a b : Nat} (h : b ≤ a) : u32sub a b = a - b := if_pos h

/-- `v[i]` on a `std::vector`: reading out of range is undefined behaviour. -/
def rd {α : Type} (l : List α) (i : Nat) : Res α :=
  match l[i]? with
  | some a => .ok a
  | none => .ub

theorem rd_eq_ok {α : Type} {l : List α} {i : Nat} {a : α} : rd l i = .ok a ↔ l[i]? = some a := by
  unfold rd
  cases l[i]? <;> simp

theorem rd_of_lt {α : Type} {l : List α} {i : Nat} (h : i < l.length) : rd l i = .ok l[i] := by
  unfold rd
  simp [h]

/-- `v.at(i)` on a `std::vector`: out of range throws `std::out_of_range`, which nothing catches. -/
def rdAt {α : Type} (l : List α) (i : Nat) : Res α :=
  match l[i]? with
  | some a => .ok a
  | none => .abort

end Hycu
