import Verif.Model.MakingLocks
import Verif.Lemmas.Making
import Verif.Lemmas.RunRefines
import Verif.Lemmas.MpiLocksRun

/-!
Runs in small steps in which tables are made are runs of the machines in `Verif.Model.Making`.
-/

namespace Hycu
namespace Locks

section

set_option linter.unusedSectionVars false

variable {A L X C : Type} {V : X → Type} [DecidableEq A] [DecidableEq L] [DecidableEq X] {S : System A L X C V}
  {rank : L → Nat} {top : Nat} {pre : A → C → ((x : X) → V x) → Res Unit}

theorem first_ok {a : A} {ch : C} {m : (x : X) → V x} {o : Option ((x : X) → V x)} :
    (S.first pre).act a ch m = .ok o ↔ pre a ch m = .ok () ∧ S.act a ch m = .ok o := by
  constructor
  · intro h
    obtain ⟨u, h1, h2⟩ := Res.bind_eq_ok.1 h
    exact ⟨h1, h2⟩
  · rintro ⟨h1, h2⟩
    exact Res.bind_eq_ok.2 ⟨(), h1, h2⟩

theorem Laws.first (hl : Laws S rank top) (hd : ∀ a ch m n, S.Same a m n → pre a ch m = pre a ch n) :
    Laws (S.first pre) rank top where
  plan_dep := hl.plan_dep
  reads_nodup := hl.reads_nodup
  read_guard := hl.read_guard
  extra_guard := hl.extra_guard
  rank_lt := hl.rank_lt
  rank_le := hl.rank_le
  held_dep := hl.held_dep
  held_nodup := hl.held_nodup
  rest_dep := hl.rest_dep
  act_frame a ch m n s hr hs hx h := by
    obtain ⟨h1, h2⟩ := first_ok.1 h
    obtain ⟨t, ht⟩ := hl.act_frame a ch m n s hr hs hx h2
    exact ⟨t, first_ok.2 ⟨(hd a ch m n hs) ▸ h1, ht.1⟩, ht.2⟩
  act_fails a ch m n hr hs hx h o ho := by
    obtain ⟨h1, h2⟩ := first_ok.1 ho
    refine hl.act_fails a ch m n hr hs hx (fun o' ho' => ?_) o h2
    exact h o' (first_ok.2 ⟨(hd a ch m n hs).trans h1, ho'⟩)
  act_held a ch m s h := hl.act_held a ch m s (first_ok.1 h).2
  sync_frame := hl.sync_frame
  sync_shared := hl.sync_shared
  sync_other := hl.sync_other
  sync_held := hl.sync_held
  awake a m h := by
    obtain ⟨ch, h1⟩ := hl.awake a m h
    exact ⟨ch, fun h => h1 (first_ok.1 h).2⟩
  busy := hl.busy

theorem holds_first (c : Config A L X V) (a : A) : holds (S.first pre) c a = holds S c a := by
  unfold holds
  cases c.prog a <;> rfl

theorem value_first (m : (x : X) → V x) (a : A) (x : X) (p : Prog L X V) :
    p.value (S.first pre) a m x = p.value S a m x := by
  cases p <;> rfl

theorem abs_first (c : Config A L X V) : abs (S.first pre) c = abs S c := by
  funext x
  simp only [abs, value_first]
  rfl

theorem Step.of_first {a : A} {c d : Config A L X V} (h : Step (S.first pre) a c d) : Step S a c d := by
  cases h with
  | enter reg h hr hp => exact .enter c reg h hr hp
  | acquire k reg l h hi hf => exact .acquire c k reg l h hi hf
  | read k reg x h hi => exact .read c k reg x h hi
  | compute k reg s ch h hk hs => exact .compute c k reg s ch h hk (first_ok.1 hs).2
  | write ws reg ls x h hx => exact .write c ws reg ls x h hx
  | release reg l ls h => exact .release c reg l ls h
  | exit reg h => exact .exit c reg h
  | sync m reg h hs => exact .sync c m reg h hs

theorem Step.to_first {a : A} {c d : Config A L X V} (h : Step S a c d)
    (hok : ∀ k reg ch, c.prog a = .entering k reg → pre a ch reg = .ok ()) : Step (S.first pre) a c d := by
  cases h with
  | enter reg h hr hp => exact .enter c reg h hr hp
  | acquire k reg l h hi hf => exact .acquire c k reg l h hi hf
  | read k reg x h hi => exact .read c k reg x h hi
  | compute k reg s ch h hk hs => exact .compute c k reg s ch h hk (first_ok.2 ⟨hok k reg ch h, hs⟩)
  | write ws reg ls x h hx => exact .write c ws reg ls x h hx
  | release reg l ls h => exact .release c reg l ls h
  | exit reg h => exact .exit c reg h
  | sync m reg h hs => exact .sync c m reg h hs

theorem Scribble.of_first {c d : Config A L X V} (h : Scribble (S.first pre) c d) : Scribble S c d := by
  cases h with
  | before a k reg x v h hx => exact .before c a k reg x v h hx
  | after a ws reg ls x v h hx => exact .after c a ws reg ls x v h hx

theorem Scribble.to_first {c d : Config A L X V} (h : Scribble S c d) : Scribble (S.first pre) c d := by
  cases h with
  | before a k reg x v h hx => exact .before c a k reg x v h hx
  | after a ws reg ls x v h hx => exact .after c a ws reg ls x v h hx

theorem Reachable.of_first {c d : Config A L X V} (h : Reachable (S.first pre) c d) : Reachable S c d := by
  induction h with
  | refl => exact .refl
  | step a _ hs ih => exact .step a ih hs.of_first
  | scribble _ hs ih => exact .scribble ih hs.of_first

/-- What holds for the variables at the end of each section that took effect. -/
theorem Reachable.bigs (hl : Laws S rank top) {c₀ c : Config A L X V} (hi : Inv S c₀) (h : Reachable S c₀ c)
    {P : ((x : X) → V x) → Prop} (h₀ : P (abs S c₀)) (hb : ∀ m n, P m → Big S m n → P n) : Inv S c ∧ P (abs S c) := by
  induction h with
  | refl => exact ⟨hi, h₀⟩
  | step a _ hs ih =>
    obtain ⟨h1, h2⟩ := ih.1.step hl hs
    refine ⟨h1, ?_⟩
    rcases h2 with h2 | h2
    · rw [h2]
      exact ih.2
    · exact hb _ _ ih.2 h2
  | scribble _ hs ih =>
    obtain ⟨h1, h2⟩ := ih.1.scribble hl hs
    rw [h2]
    exact ⟨h1, ih.2⟩

end

section

variable {tab : ConfigNode → Res Unit} {env : Run.Env} {kinds : List Bool} {fs : FileSystem} {todo : List Run.Cmd}

/-- A run with `kinds` threads in which tables are made. -/
abbrev makings (tab : ConfigNode → Res Unit) (kinds : List Bool) (env : Run.Env) : System Agent Lock Var Run.Choice Val :=
  making tab kinds.length (fun i => kinds[i]?.getD false) env

theorem makes_main {tab : ConfigNode → Res Unit} {size : Nat} {opencl : Nat → Bool} (a : Agent) (ch : Run.Choice) (m n : Mem)
    (h : (runs kinds env).Same a m n) :
    Run.makes tab (toState size opencl m) (label ch a) = Run.makes tab (toState size opencl n) (label ch a) := by
  cases a with
  | main =>
    have e : m .main = n .main := h .main rfl
    have h1 : (toState size opencl m).pc = (toState size opencl n).pc := by show (m .main : MainData).pc = _; rw [e]; rfl
    have h2 : (toState size opencl m).todo = (toState size opencl n).todo := by
      show (m .main : MainData).todo = _; rw [e]; rfl
    simp only [label, Run.makes, h1, h2]
    rfl
  | thread i => rfl

theorem making_laws (tab : ConfigNode → Res Unit) (kinds : List Bool) (env : Run.Env) :
    ∃ rank top, Laws (makings tab kinds env) rank top :=
  ⟨_, _, (laws kinds.length (fun i => kinds[i]?.getD false) env).first fun a ch m n h => makes_main (kinds := kinds) (env := env) a ch m n h⟩

/-- A state of the machine with large steps that has the same variables. -/
def MakingMatches (tab : ConfigNode → Res Unit) (env : Run.Env) (kinds : List Bool) (fs : FileSystem) (todo : List Run.Cmd)
    (m : Mem) (st : Run.State) : Prop :=
  Run.MakingReachable tab env (Run.initial kinds fs todo) st ∧ Matches env kinds fs todo m st

theorem makes_toState {m : Mem} {st : Run.State} (h : Matches env kinds fs todo m st) (l : Run.Label) :
    Run.makes tab (toState kinds.length (fun i => kinds[i]?.getD false) m) l = Run.makes tab st l := by
  rw [h.toState]
  cases l <;> rfl

theorem MakingMatches.big {m n : Mem} {st : Run.State} (h : MakingMatches tab env kinds fs todo m st)
    (hb : Big (makings tab kinds env) m n) : ∃ st', MakingMatches tab env kinds fs todo n st' := by
  have key : ∀ l u, Run.makes tab st l = .ok () →
      Run.step env (toState kinds.length (fun i => kinds[i]?.getD false) m) l = .ok (some u) →
      ∃ st', MakingMatches tab env kinds fs todo (ofState u) st' := by
    intro l u h1 h2
    obtain ⟨st', h3, h4⟩ := h.2.step h2 rfl
    exact ⟨st', .step l h.1 (Res.bind_eq_ok.2 ⟨(), h1, h4⟩), h3⟩
  cases hb with
  | act a ch _ hb =>
    obtain ⟨h0, hb⟩ := first_ok.1 hb
    rw [makes_toState h.2] at h0
    obtain ⟨o, h1, h2⟩ := Res.bind_eq_ok.1 hb
    cases o with
    | none => cases h2
    | some u =>
      cases h2
      exact key _ u h0 h1
  | sync a hb =>
    cases hb with
    | main _ ch u hp hu =>
      refine key _ u ?_ hu
      rw [← makes_toState h.2]
      obtain ⟨i, b, hp⟩ := hp
      have e : (toState kinds.length (fun i => kinds[i]?.getD false) m).pc = (m .main : MainData).pc := rfl
      rcases hp with hp | hp | hp <;> simp only [Run.makes, e, hp]
    | spurious _ i u hu => exact key _ u rfl hu

theorem making_refines {c : Config Agent Lock Var Val} (h : Reachable (makings tab kinds env) (initial kinds fs todo) c) :
    Inv (makings tab kinds env) c ∧ ∃ st, MakingMatches tab env kinds fs todo (abs (makings tab kinds env) c) st := by
  obtain ⟨rank, top, hl⟩ := making_laws tab kinds env
  obtain ⟨h1, h2⟩ := Inv.initial (makings tab kinds env) (initial kinds fs todo) (fun _ => rfl) (fun _ => rfl) (fun a => by
    cases a <;> rfl)
  exact h.bigs hl h1 (P := fun m => ∃ st, MakingMatches tab env kinds fs todo m st)
    ⟨_, .refl, .refl, h2.symm, rfl, fun _ => rfl⟩ fun m n ⟨st, hm⟩ hb => hm.big hb

end

end Locks

namespace MpiLocks

open Locks (Config Inv Big Laws abs first_ok Reachable.bigs)
open Run (Choice)

variable {tab : ConfigNode → Res Unit} {env : Run.Env} {kinds : List (List Bool)} {fs : FileSystem} {todo : List Run.Cmd}

theorem makes_private (tab : ConfigNode → Res Unit) (a : Agent) (ch : Choice) (m n : Mem)
    (h : (system kinds env).Same a m n) :
    makes tab (toState kinds m) (label ch a) = makes tab (toState kinds n) (label ch a) := by
  cases a with
  | main ix =>
    cases ix with
    | zero =>
      have e : m .master = n .master := h .master rfl
      have h1 : (toState kinds m).base.pc = (toState kinds n).base.pc := by show (m .master : MasterData).pc = _; rw [e]; rfl
      have h2 : (toState kinds m).base.todo = (toState kinds n).base.todo := by
        show (m .master : MasterData).todo = _; rw [e]; rfl
      simp only [label, makes, h1, h2]
      rfl
    | succ k =>
      have e : m (.of (k + 1) .worker) = n (.of (k + 1) .worker) := h (.of (k + 1) .worker) rfl
      have h1 : (toState kinds m).hand (k + 1) = (toState kinds n).hand (k + 1) := by
        show (m (.of (k + 1) .worker) : WorkerData).hand = _; rw [e]; rfl
      simp only [label, makes, h1]
      rfl
  | thread ix i => rfl

theorem making_laws (tab : ConfigNode → Res Unit) (kinds : List (List Bool)) (env : Run.Env) :
    ∃ rank top, Laws (making tab kinds env) rank top :=
  ⟨_, _, (laws kinds env).first fun a ch m n h => makes_private tab a ch m n h⟩

/-- What a step is in the other machine. -/
theorem making_flat {st st' : State} (h : Clean st) {l : Mpi.Label} (hm : makes tab st l = .ok ())
    (hs : step env st l = .ok (some st')) :
    flat st' = flat st ∨ Mpi.makingStep tab env (flat st) l = .ok (some (flat st')) := by
  have other : Mpi.makes tab (flat st) l = .ok () →
      flat st' = flat st ∨ Mpi.makingStep tab env (flat st) l = .ok (some (flat st')) := by
    intro h1
    have hf := step_flat env h l
    rw [hs] at hf
    cases hf with
    | stutter _ hf _ => exact Or.inl hf
    | move _ hr => exact Or.inr (Res.bind_eq_ok.2 ⟨(), h1, hr⟩)
  cases l with
  | master ch => exact other hm
  | worker ix =>
    by_cases hx : 0 < ix ∧ ix < st.base.nprocs
    · have hx' : 0 < ix ∧ ix < (flat st).nprocs := hx
      have stut : ∀ p' h', flatProc p' h' = flatProc (st.base.procs ix) (st.hand ix) →
          workerStep (st.base.procs ix) (st.hand ix) = .ok (some (p', h')) → flat st' = flat st := by
        intro p' h' he hw
        unfold step at hs
        simp only [if_pos hx, hw] at hs
        cases hs
        show flat ⟨st.base.setProc ix p', Function.update st.hand ix h'⟩ = _
        rw [flat_setProc, he]
        exact setProc_self (flat st) ix
      simp only [makes, if_pos hx] at hm
      have hp := h.probe ix
      generalize hh : st.hand ix = hd at hm hp stut
      have e : (flat st).procs ix = flatProc (st.base.procs ix) hd := by rw [← hh]; rfl
      cases hd with
      | none =>
        by_cases hpc : (st.base.procs ix).pc = .probe
        · left
          cases hb : (st.base.procs ix).inbox with
          | nil => exact stut _ _ rfl (by simp only [workerStep, hpc, hb])
          | cons m ms =>
            refine stut { st.base.procs ix with inbox := ms } (.got m) ?_ (by simp only [workerStep, hpc, hb])
            simp [flatProc, Hand.msgs, Hand.finisheds, Hand.readys, Hand.saveds, hb]
        · refine other ?_
          simp only [Mpi.makes, if_pos hx', e, flatProc_none]
          split
          · next h1 _ => exact absurd h1 hpc
          · rfl
      | got m =>
        have h1 := hp (by simp)
        refine other ?_
        have h2 : flatProc (st.base.procs ix) (.got m) = { st.base.procs ix with inbox := m :: (st.base.procs ix).inbox } := by
          simp [flatProc, Hand.msgs, Hand.finisheds, Hand.readys, Hand.saveds]
        simp only [Mpi.makes, if_pos hx', e, h2, h1]
        cases m with
        | config c => exact hm
        | _ => rfl
      | ready n =>
        have h1 := hp (by simp)
        left
        refine stut _ _ ?_ rfl
        simp [flatProc, Hand.msgs, Hand.finisheds, Hand.readys, Hand.saveds, h1]
      | saved s =>
        have h1 := hp (by simp)
        left
        refine stut _ _ ?_ rfl
        simp [flatProc, Hand.msgs, Hand.finisheds, Hand.readys, Hand.saveds, h1]
      | finished bs =>
        have h1 := hp (by simp)
        left
        refine stut _ _ ?_ rfl
        simp [flatProc, Hand.msgs, Hand.finisheds, Hand.readys, Hand.saveds, h1]
    · unfold step at hs
      simp only [if_neg hx] at hs
      cases hs
  | thread ix i => exact other rfl
  | spurious ix i => exact other rfl

/-- A state of the machine with large steps that has the same variables. -/
def MakingMatches (tab : ConfigNode → Res Unit) (env : Run.Env) (kinds : List (List Bool)) (fs : FileSystem)
    (todo : List Run.Cmd) (m : Mem) (st : State) : Prop :=
  Mpi.MakingReachable tab env (Mpi.initial kinds fs todo) (flat st) ∧ Matches env kinds fs todo m st

theorem MakingMatches.big {m n : Mem} {st : State} (h : MakingMatches tab env kinds fs todo m st)
    (hb : Big (making tab kinds env) m n) : ∃ st', MakingMatches tab env kinds fs todo n st' := by
  have key : ∀ l u, makes tab st l = .ok () → step env (toState kinds m) l = .ok (some u) →
      ∃ st', MakingMatches tab env kinds fs todo (ofState u) st' := by
    intro l u h1 h2
    rw [h.2.toState] at h2
    refine ⟨u, ?_, .step l h.2.1 h2, rfl⟩
    rcases making_flat (flat_reach h.2.1).1 h1 h2 with h3 | h3
    · rw [h3]
      exact h.1
    · exact .step l h.1 h3
  cases hb with
  | act a ch _ hb =>
    obtain ⟨h0, hb⟩ := first_ok.1 hb
    rw [h.2.toState] at h0
    obtain ⟨o, h1, h2⟩ := Res.bind_eq_ok.1 hb
    cases o with
    | none => cases h2
    | some u =>
      cases h2
      exact key _ u h0 h1
  | sync a hb =>
    cases hb with
    | master _ ch u hp hu =>
      refine key _ u ?_ hu
      rw [← h.2.toState]
      obtain ⟨i, b, hp⟩ := hp
      have e : (toState kinds m).base.pc = (m .master : MasterData).pc := rfl
      rcases hp with hp | hp | hp <;> simp only [makes, e, hp]
    | worker ix _ u hh _ hu =>
      refine key _ u ?_ hu
      rw [← h.2.toState]
      have e : (toState kinds m).hand ix = (m (.of ix .worker) : WorkerData).hand := rfl
      simp only [makes, e, hh]
      split <;> rfl
    | spurious _ ix i u hu => exact key _ u rfl hu

theorem making_refines {c : Config Agent Lock Var Val}
    (h : Locks.Reachable (making tab kinds env) (initial kinds fs todo) c) :
    Inv (making tab kinds env) c ∧ ∃ st, MakingMatches tab env kinds fs todo (abs (making tab kinds env) c) st := by
  obtain ⟨rank, top, hl⟩ := making_laws tab kinds env
  obtain ⟨h1, h2⟩ := Inv.initial (making tab kinds env) (initial kinds fs todo) (fun _ => rfl) (fun _ => rfl) (fun a => by
    cases a with
    | main ix =>
      cases ix with
      | zero => rfl
      | succ k =>
        show (if k + 1 < kinds.length then _ else _) = _
        split <;> rfl
    | thread ix i => rfl)
  exact h.bigs hl h1 (P := fun m => ∃ st, MakingMatches tab env kinds fs todo m st)
    ⟨start kinds fs todo, by rw [flat_start]; exact .refl, .refl, h2.symm⟩ fun m n ⟨st, hm⟩ hb => hm.big hb

end MpiLocks
end Hycu
