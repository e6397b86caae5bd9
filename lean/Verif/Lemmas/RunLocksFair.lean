import Verif.Lemmas.LocksFair
import Verif.Lemmas.RunDrain
import Verif.Lemmas.RunWeak

/-!
Fair executions of the threads of `hycu-threaded` in small steps are executions of the machine in `Verif.Model.Pool`, in
which all threads are scheduled again and again.
-/

namespace Hycu
namespace Locks

open Run (Env Choice)

variable {env : Env} {kinds : List Bool} {fs : FileSystem} {todo : List Run.Cmd}

/-- The threads that exist. -/
def agents (kinds : List Bool) : List Agent := .main :: (List.range kinds.length).map .thread

theorem short (kinds : List Bool) (env : Env) : Short (runs kinds env) (agents kinds) where
  nodup := by
    unfold agents
    rw [List.nodup_cons]
    exact ⟨by simp, List.nodup_range.map fun a b h => by cases h; rfl⟩
  absent a ha m := by
    cases a with
    | main => exact absurd List.mem_cons_self ha
    | thread i =>
      have hi : ¬ i < kinds.length := fun hi => ha (List.mem_cons_of_mem _ (List.mem_map.2 ⟨i, List.mem_range.2 hi, rfl⟩))
      refine ⟨Or.inl hi, ?_⟩
      rintro ⟨s, hs⟩
      exact hi (sync_thread_iff.1 hs).1.1
  plan := plan_length kinds
  held := held_length kinds
  extra := extra_length kinds
  rests a m h := by
    cases a with
    | thread i => exact absurd rfl h
    | main =>
      change (match (m .main : MainData).pc with | .notify _ _ => [Lock.pool] | _ => []) ≠ [] at h
      show mainRests (m .main)
      unfold mainRests
      split at h
      · next hp => rw [hp]; trivial
      · exact absurd rfl h
  frees a m s h := by
    cases a with
    | thread i => rfl
    | main =>
      show (match (s .main : MainData).pc with | .notify _ _ => [Lock.pool] | _ => []) = []
      obtain ⟨i, b, hp, rfl⟩ | ⟨i, hp, rfl⟩ | ⟨i, hp, -, rfl⟩ := sync_main_iff.1 h <;> rw [goto_main]

theorem sleepers (kinds : List Bool) (env : Env) : Sleepers (runs kinds env) sleeper where
  held a m h := by
    cases a with
    | main => exact h.elim
    | thread i => rfl
  rests a m s h := by
    cases a with
    | main =>
      show mainRests (m .main)
      unfold mainRests
      obtain ⟨i, b, hp, -⟩ | ⟨i, hp, -⟩ | ⟨i, hp, -⟩ := sync_main_iff.1 h <;> rw [hp] <;> trivial
    | thread i =>
      obtain ⟨⟨-, hp⟩, -⟩ := sync_thread_iff.1 h
      exact Or.inr (Or.inl hp)

/-- A step with this label is made by this thread. -/
def Belongs (a : Agent) (l : Run.Label) : Prop := (∃ ch, l = label ch a) ∨ ∃ i, a = .thread i ∧ l = .spurious i

/-- An execution of the machine with large steps that corresponds to an execution in small steps. -/
structure View (env : Env) (kinds : List Bool) (fs : FileSystem) (todo : List Run.Cmd)
    (σ : Nat → Config Agent Lock Var Val) (who : Nat → Option Agent) (v : Nat → Run.State) (lab : Nat → Option Run.Label) :
    Prop where
  start : v 0 = Run.initial kinds fs todo
  mat : ∀ n, Matches env kinds fs todo (abs (runs kinds env) (σ n)) (v n)
  idle : ∀ n, lab n = none → v (n + 1) = v n ∧ ∀ a, ¬ Acts (runs kinds env) σ who a n
  move : ∀ n l, lab n = some l → Run.step env (v n) l = .ok (some (v (n + 1))) ∧ ∃ a, Acts (runs kinds env) σ who a n ∧
    Belongs a l ∧ (Computes (runs kinds env) σ who a n → ∃ ch, l = label ch a)

variable {σ : Nat → Config Agent Lock Var Val} {who : Nat → Option Agent} {v : Nat → Run.State} {lab : Nat → Option Run.Label}

theorem exists_view (h : Sane (runs kinds env) sleeper (agents kinds) (initial kinds fs todo) σ who) :
    ∃ v lab, View env kinds fs todo σ who v lab := by
  have hl := laws kinds.length (fun i => kinds[i]?.getD false) env
  have sig : ∀ {a n}, Signals (runs kinds env) σ who a n → ¬ Computes (runs kinds env) σ who a n := by
    rintro a n ⟨_, h1, _⟩ ⟨_, _, _, h2, _⟩
    rw [h1] at h2
    cases h2
  have hev : ∀ n st, ∃ (st' : Run.State) (o : Option Run.Label), Matches env kinds fs todo (abs (runs kinds env) (σ n)) st →
      Matches env kinds fs todo (abs (runs kinds env) (σ (n + 1))) st' ∧
      (o = none → st' = st ∧ ∀ a, ¬ Acts (runs kinds env) σ who a n) ∧
      ∀ l, o = some l → Run.step env st l = .ok (some st') ∧ ∃ a, Acts (runs kinds env) σ who a n ∧
        Belongs a l ∧ (Computes (runs kinds env) σ who a n → ∃ ch, l = label ch a) := by
    intro n st
    by_cases hm : Matches env kinds fs todo (abs (runs kinds env) (σ n)) st
    swap
    · exact ⟨st, none, fun h => absurd h hm⟩
    rcases h.event hl n with ⟨h1, h2⟩ | ⟨a, ch, h1, h2, h3⟩ | ⟨a, h1, h2⟩
    · exact ⟨st, none, fun _ => ⟨by rw [h1]; exact hm, fun _ => ⟨rfl, h2⟩, fun l hl => by cases hl⟩⟩
    · obtain ⟨o, h4, h5⟩ := Res.bind_eq_ok.1
        (show (Run.step env (toState kinds.length (fun i => kinds[i]?.getD false) _) (label ch a)).bind _ = _ from h3)
      cases o with
      | none => cases h5
      | some u =>
        obtain ⟨st', h6, h7⟩ := hm.step h4 (Option.some.inj (Res.ok.inj h5))
        refine ⟨st', some (label ch a), fun _ => ⟨h6, fun h => (by cases h), fun l hl => ?_⟩⟩
        cases hl
        exact ⟨h7, a, Or.inl h1, Or.inl ⟨ch, rfl⟩, fun _ => ⟨ch, rfl⟩⟩
    · generalize hm' : abs (runs kinds env) (σ (n + 1)) = m' at h2
      cases h2 with
      | main _ ch u hu h3 =>
        obtain ⟨st', h6, h7⟩ := hm.step h3 rfl
        refine ⟨st', some (.master ch), fun _ => ⟨h6, fun h => (by cases h), fun l hl => ?_⟩⟩
        cases hl
        exact ⟨h7, _, Or.inr h1, Or.inl ⟨ch, rfl⟩, fun hc => absurd hc (sig h1)⟩
      | spurious _ i u h3 =>
        obtain ⟨st', h6, h7⟩ := hm.step h3 rfl
        refine ⟨st', some (.spurious i), fun _ => ⟨h6, fun h => (by cases h), fun l hl => ?_⟩⟩
        cases hl
        exact ⟨h7, _, Or.inr h1, Or.inr ⟨i, rfl, rfl⟩, fun hc => absurd hc (sig h1)⟩
  choose f g hf using hev
  let v : Nat → Run.State := fun n => Nat.rec (Run.initial kinds fs todo) (fun n st => f n st) n
  have hv : ∀ n, Matches env kinds fs todo (abs (runs kinds env) (σ n)) (v n) := by
    intro n
    induction n with
    | zero =>
      obtain ⟨h1, h2⟩ := Inv.initial (runs kinds env) (initial kinds fs todo) (fun _ => rfl) (fun _ => rfl) (fun a => by
        cases a <;> rfl)
      rw [h.run.start]
      exact ⟨.refl, h2.symm, rfl, fun _ => rfl⟩
    | succ n ih => exact (hf n _ ih).1
  exact ⟨v, fun n => g n (v n), rfl, hv, fun n => (hf n _ (hv n)).2.1, fun n => (hf n _ (hv n)).2.2⟩

/-- The thread of a turn. -/
def agentOf : Option Nat → Agent
  | none => .main
  | some i => .thread i

/-- The labels of a thread. -/
theorem has_belongs {t : Option Nat} {l : Run.Label} (hb : ∃ ch, l = label ch (agentOf t)) : Run.Has t l := by
  obtain ⟨ch, rfl⟩ := hb
  cases t with
  | some i => rfl
  | none => exact ⟨ch, rfl⟩

theorem View.acts (hv : View env kinds fs todo σ who v lab) {a : Agent} {n : Nat}
    (ha : Acts (runs kinds env) σ who a n) : ∃ l, lab n = some l ∧ Belongs a l ∧
      (Computes (runs kinds env) σ who a n → ∃ ch, l = label ch a) := by
  cases hl : lab n with
  | none => exact absurd ha ((hv.idle n hl).2 a)
  | some l =>
    obtain ⟨_, b, h1, h2, h3⟩ := hv.move n l hl
    obtain rfl := Sane.acts_unique ha h1
    exact ⟨l, rfl, h2, h3⟩

/-- Every thread makes a large step again and again, or cannot make one again and again. -/
theorem View.weak (hv : View env kinds fs todo σ who v lab)
    (h : Sane (runs kinds env) sleeper (agents kinds) (initial kinds fs todo) σ who)
    (hs : ∀ n l, ∃ o, Run.step env (v n) l = .ok o) (t : Option Nat) (n : Nat) :
    ∃ m, n ≤ m ∧ ((∃ l, lab m = some l ∧ Run.Has t l) ∨ Run.step env (v m) (Run.turnLabel (v m) (Run.turnOf t)) = .ok none) := by
  by_contra hcon
  have hl := laws kinds.length (fun i => kinds[i]?.getD false) env
  have hno : ∀ m l, n ≤ m → lab m = some l → ¬ Run.Has t l := fun m l hm h1 h2 => hcon ⟨m, hm, Or.inl ⟨l, h1, h2⟩⟩
  have hen : ∀ m, n ≤ m → ∃ st', Run.step env (v m) (Run.turnLabel (v m) (Run.turnOf t)) = .ok (some st') := by
    intro m hm
    obtain ⟨o, ho⟩ := hs m (Run.turnLabel (v m) (Run.turnOf t))
    cases o with
    | none => exact absurd ⟨m, hm, Or.inr ho⟩ hcon
    | some st' => exact ⟨st', ho⟩
  have hrest : ∀ m, n ≤ m → (runs kinds env).rest (agentOf t) (abs (runs kinds env) (σ m)) := by
    intro m hm
    by_contra hr
    obtain ⟨k, hk, hc, _⟩ := h.computes hl hr
    obtain ⟨l, h1, _, h2⟩ := hv.acts (Or.inl hc)
    exact hno k l (by omega) h1 (has_belongs (h2 hc))
  cases t with
  | some i =>
    have h1 := hrest n (Nat.le_refl _)
    obtain ⟨st', h2⟩ := hen n (Nat.le_refl _)
    rw [← (hv.mat n).2.1] at h1
    obtain ⟨h3, h4, h5⟩ := thread_not_rest (kinds := kinds) ⟨(hv.mat n).2.2.1, (hv.mat n).2.2.2⟩ h2
    rcases h1 with h1 | h1 | h1
    · exact h1 h3
    · exact h4 h1
    · exact h5 h1
  | none =>
    obtain ⟨m, hm, hsig, _⟩ := h.signals hl (a := .main) (n := n) id fun m hm _ => by
      obtain ⟨st', h2⟩ := hen m hm
      have h1 := hrest m hm
      obtain ⟨u, h3, h4⟩ := (Fixed.step ⟨(hv.mat m).2.2.1, (hv.mat m).2.2.2⟩ h2).2
      rw [← (hv.mat m).2.1] at h1 ⊢
      refine ⟨_, .main _ _ u ?_ h3⟩
      rcases main_not_rest h2 with ⟨i, b, h5⟩ | ⟨i, h5⟩ | ⟨i, h5⟩ | h5
      · exact ⟨i, b, Or.inl h5⟩
      · exact ⟨i, [], Or.inr (Or.inl h5)⟩
      · exact ⟨i, [], Or.inr (Or.inr h5)⟩
      · exact absurd h1 h5
    obtain ⟨l, h1, h2, _⟩ := hv.acts (Or.inr hsig)
    refine hno m l hm h1 (has_belongs ?_)
    rcases h2 with h2 | ⟨_, h2, _⟩
    · exact h2
    · cases h2

theorem View.alert (hv : View env kinds fs todo σ who v lab)
    (h : Sane (runs kinds env) sleeper (agents kinds) (initial kinds fs todo) σ who)
    (ha : ∀ n a, who n = some a → Alert (σ n) a) {n : Nat} {l : Run.Label} (hm : lab n = some l) : Run.Alert (v n) l := by
  obtain ⟨hstep, a, h2, h3, -⟩ := hv.move n l hm
  have hw : who n = some a := h2.elim (fun h => h.1) fun h => h.1
  have hmem : ∀ x b, guard x = .inr b → (σ n).mem x = ofState (v n) x := fun x b hx => by
    rw [(hv.mat n).2.1]
    exact (abs_private (S := runs kinds env) hx).symm
  have hl := laws kinds.length (fun i => kinds[i]?.getD false) env
  cases l with
  | thread i => trivial
  | spurious i => trivial
  | master ch =>
    have hx : a = .main := by
      rcases h3 with ⟨ch', h3⟩ | ⟨_, _, h3⟩
      · cases a with
        | main => rfl
        | thread i => cases h3
      · cases h3
    subst hx
    intro i hi
    have hr : mainRests (ofState (v n) .main) := by
      unfold mainRests
      rw [show (ofState (v n) .main : MainData).pc = (v n).pc from rfl]
      rcases hi with hi | ⟨b, hi⟩ <;> rw [hi] <;> trivial
    have hout : (σ n).prog .main = .out := by
      have hr : (runs kinds env).rest .main (ofState (v n)) := hr
      rw [(hv.mat n).2.1] at hr
      rcases h2 with ⟨_, k, reg, h4, _⟩ | ⟨_, h4, _⟩
      · exact absurd ((Inv.abs_rest hl).1 hr) ((h.invs hl n).awake _ _ _ h4)
      · exact h4
    have := ha n .main hw hout i (by rw [hmem .main _ rfl]; exact hi.symm)
    rw [hmem (.phase i) _ rfl] at this
    exact this

/-- Fair executions in small steps are executions of the machine in `Verif.Model.Pool` in which all threads are scheduled
again and again. -/
theorem exists_exec (hsane : Sane (runs kinds env) sleeper (agents kinds) (initial kinds fs todo) σ who)
    (hok : ∀ st, Run.Reachable env (Run.initial kinds fs todo) st → ∀ l, ∃ o, Run.step env st l = .ok o)
    (ha : ∀ n a, who n = some a → Alert (σ n) a) :
    ∃ (τ : Nat → Run.State) (ls : Nat → Run.Label) (v : Nat → Run.State), Run.Exec env (Run.initial kinds fs todo) τ ls ∧
      (∀ n, Run.Alert (τ n) (ls n)) ∧ Run.Renewing τ ls ∧
      (∀ n, Matches env kinds fs todo (abs (runs kinds env) (σ n)) (v n)) ∧ (∀ n, ∃ m, n ≤ m ∧ τ m = v n) ∧
      ∀ m, ∃ n, τ m = v n := by
  obtain ⟨v, lab, hv⟩ := exists_view hsane
  obtain ⟨τ, ls, h1, h2, h3, h4, h5⟩ := Run.exec_of_weak (env := env) (b := v) (mv := lab) hv.start
    (fun n l hl => (hv.move n l hl).1) (fun n hn => (hv.idle n hn).1)
    (fun t _ n => hv.weak hsane (fun n l => hok _ (hv.mat n).1 l) t n) fun n l hl => hv.alert hsane ha hl
  exact ⟨τ, ls, v, h1, h2, h3, hv.mat, h4, h5⟩

end Locks
end Hycu
