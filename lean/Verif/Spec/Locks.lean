import Verif.Model.Locks

/-!
What is said about mutexes.
-/

namespace Hycu
namespace Locks

variable {A L X C : Type} {V : X → Type} [DecidableEq A] [DecidableEq L] [DecidableEq X]

/-- Executions in which only those agents make steps that are in a critical section or hold a mutex. -/
inductive Drains (S : System A L X C V) (c₀ : Config A L X V) : Config A L X V → Prop
  | refl : Drains S c₀ c₀
  | step {c c' : Config A L X V} (a : A) (h : Drains S c₀ c) (ha : c.prog a ≠ .out ∨ ∃ l, c.owner l = some a)
      (hs : Step S a c c') : Drains S c₀ c'

/-- An agent can make a step.  A wake-up without notification does not count; `sleeper` are the agents that wait for
notifications. -/
def Able (S : System A L X C V) (sleeper : A → Prop) (c : Config A L X V) (a : A) : Prop :=
  (∃ c', Step S a c c') ∧ (sleeper a → c.prog a = .out → ¬ S.rest a c.mem)

/-- An infinite execution in which every agent that is able to make a step again and again makes steps again and again.
In particular an agent that needs a mutex gets it if it is free again and again; and if the effect of a section depends on
a choice, and there are choices with which the section can be completed, then it is completed. -/
structure Fair (S : System A L X C V) (sleeper : A → Prop) (c₀ : Config A L X V) (σ : Nat → Config A L X V)
    (who : Nat → Option A) : Prop where
  start : σ 0 = c₀
  step : ∀ n a, who n = some a → Step S a (σ n) (σ (n + 1))
  other : ∀ n, who n = none → Scribble S (σ n) (σ (n + 1)) ∨ σ (n + 1) = σ n
  fair : ∀ a, (∀ n, ∃ m, n ≤ m ∧ Able S sleeper (σ m) a) → ∀ n, ∃ m, n ≤ m ∧ who m = some a

/-! ### The threads of `hycu-threaded` -/

/-- Threads that wait for notifications. -/
def sleeper : Agent → Prop
  | .main => False
  | .thread _ => True

/-- A thread does not hold its mutex between the test of the flags and the wait; a notification at this moment is lost
(src/threaded/thread.cc l.46, l.131).  This says that it does not happen if the given thread makes a step. -/
def Alert (c : Config Agent Lock Var Val) : Agent → Prop
  | .main => c.prog .main = .out → ∀ i, (∃ b, (c.mem .main : MainData).pc = .notify i b) ∨
      (c.mem .main : MainData).pc = .shutNotify i → (c.mem (.phase i) : Run.Phase) ≠ .wait
  | .thread _ => True

end Locks
end Hycu
