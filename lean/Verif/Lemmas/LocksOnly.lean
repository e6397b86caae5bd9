import Verif.Lemmas.LocksExist

/-!
Executions in which only some of the choices occur.
-/

namespace Hycu
namespace Locks

set_option linter.unusedSectionVars false

variable {A L X C : Type} {V : X → Type} [DecidableEq A] [DecidableEq L] [DecidableEq X] {S : System A L X C V}
  {rank : L → Nat} {top : Nat}

open Classical in
/-- Only some of the choices are possible. -/
noncomputable def System.only (S : System A L X C V) (good : C → Prop) : System A L X C V :=
  { S with act := fun a ch m => if good ch then S.act a ch m else .ok none }

variable {good : C → Prop}

theorem only_some {a : A} {ch : C} {m s : (x : X) → V x} (h : (S.only good).act a ch m = .ok (some s)) :
    good ch ∧ S.act a ch m = .ok (some s) := by
  simp only [System.only] at h
  split at h
  · exact ⟨‹_›, h⟩
  · cases h

theorem only_fails {a : A} {ch : C} {m : (x : X) → V x} (h : ∀ o, (S.only good).act a ch m ≠ .ok o) :
    good ch ∧ ∀ o, S.act a ch m ≠ .ok o := by
  simp only [System.only] at h
  split at h
  · exact ⟨‹_›, h⟩
  · exact absurd rfl (h none)

theorem only_act {a : A} {ch : C} {m : (x : X) → V x} (h : good ch) : (S.only good).act a ch m = S.act a ch m := if_pos h

theorem Laws.only (hl : Laws S rank top) (hg : ∀ a m, ¬ S.rest a m → ∃ ch, good ch ∧ S.act a ch m ≠ .ok none) :
    Laws (S.only good) rank top where
  plan_dep := hl.plan_dep
  reads_nodup := hl.reads_nodup
  read_guard := hl.read_guard
  extra_guard := hl.extra_guard
  rank_lt := hl.rank_lt
  rank_le := hl.rank_le
  held_dep := hl.held_dep
  held_nodup := hl.held_nodup
  rest_dep := hl.rest_dep
  act_frame a ch m n s hr hs hx h := by
    obtain ⟨h1, h2⟩ := only_some h
    obtain ⟨t, ht⟩ := hl.act_frame a ch m n s hr hs hx h2
    exact ⟨t, (only_act h1).trans ht.1, ht.2⟩
  act_fails a ch m n hr hs hx h := by
    obtain ⟨h1, h2⟩ := only_fails h
    rw [only_act h1]
    exact hl.act_fails a ch m n hr hs hx h2
  act_held a ch m s h := hl.act_held a ch m s (only_some h).2
  sync_frame := hl.sync_frame
  sync_shared := hl.sync_shared
  sync_other := hl.sync_other
  sync_held := hl.sync_held
  awake a m h := by
    obtain ⟨ch, h1, h2⟩ := hg a m h
    exact ⟨ch, by rw [only_act h1]; exact h2⟩
  busy := hl.busy

theorem holds_only (c : Config A L X V) (a : A) : holds (S.only good) c a = holds S c a := by
  unfold holds
  cases c.prog a <;> rfl

theorem Inv.only {c : Config A L X V} (hi : Inv S c) : Inv (S.only good) c where
  own a l := by rw [holds_only]; exact hi.own a l
  nodup a := by rw [holds_only]; exact hi.nodup a
  same := hi.same
  awake := hi.awake
  le := hi.le
  pending a ws reg ls h x hx := by rw [holds_only]; exact hi.pending a ws reg ls h x hx

theorem Step.of_only {a : A} {c d : Config A L X V} (h : Step (S.only good) a c d) : Step S a c d := by
  cases h with
  | enter reg h hr hp => exact .enter c reg h hr hp
  | acquire k reg l h hi hf => exact .acquire c k reg l h hi hf
  | read k reg x h hi => exact .read c k reg x h hi
  | compute k reg s ch h hk hs => exact .compute c k reg s ch h hk (only_some hs).2
  | write ws reg ls x h hx => exact .write c ws reg ls x h hx
  | release reg l ls h => exact .release c reg l ls h
  | exit reg h => exact .exit c reg h
  | sync m reg h hs => exact .sync c m reg h hs

theorem Scribble.of_only {c d : Config A L X V} (h : Scribble (S.only good) c d) : Scribble S c d := by
  cases h with
  | before a k reg x v h hx => exact .before c a k reg x v h hx
  | after a ws reg ls x v h hx => exact .after c a ws reg ls x v h hx

theorem Reachable.of_only {c d : Config A L X V} (h : Reachable (S.only good) c d) : Reachable S c d := by
  induction h with
  | refl => exact .refl
  | step a _ hs ih => exact .step a ih hs.of_only
  | scribble _ hs ih => exact .scribble ih hs.of_only

theorem Fails.of_only {c : Config A L X V} (h : Fails (S.only good) c) : Fails S c := by
  obtain ⟨a, k, reg, ch, h1, h2, h3⟩ := h
  exact ⟨a, k, reg, ch, h1, h2, (only_fails h3).2⟩

/-- An agent that can make a step can make a step with a good choice. -/
theorem Step.to_only (hl : Laws S rank top) (hg : ∀ a m, ¬ S.rest a m → ∃ ch, good ch ∧ S.act a ch m ≠ .ok none)
    {a : A} {c d : Config A L X V} (hi : Inv S c) (hf : ¬ Fails S c) (h : Step S a c d) : ∃ d, Step (S.only good) a c d := by
  cases h with
  | enter reg h hr hp => exact ⟨_, .enter c reg h hr hp⟩
  | acquire k reg l h hi hf => exact ⟨_, .acquire c k reg l h hi hf⟩
  | read k reg x h hi => exact ⟨_, .read c k reg x h hi⟩
  | compute k reg s ch h hk hs =>
    have hr : ¬ S.rest a reg := fun hr => hi.awake a k reg h (hl.rest_dep _ _ _ (hi.same a k reg h) hr)
    obtain ⟨ch', h1, h2⟩ := hg a reg hr
    cases he : S.act a ch' reg with
    | ok o =>
      cases o with
      | none => exact absurd he h2
      | some t => exact ⟨_, .compute c k reg t ch' h hk ((only_act h1).trans he)⟩
    | _ => exact absurd ⟨a, k, reg, ch', h, hk, fun o => by rw [he]; intro h; cases h⟩ hf
  | write ws reg ls x h hx => exact ⟨_, .write c ws reg ls x h hx⟩
  | release reg l ls h => exact ⟨_, .release c reg l ls h⟩
  | exit reg h => exact ⟨_, .exit c reg h⟩
  | sync m reg h hs => exact ⟨_, .sync c m reg h hs⟩

theorem Fair.reachable_only {sleeper : A → Prop} {c₀ : Config A L X V} {σ : Nat → Config A L X V} {who : Nat → Option A}
    (hf : Fair (S.only good) sleeper c₀ σ who) (n : Nat) : Reachable (S.only good) c₀ (σ n) := by
  induction n with
  | zero => rw [hf.start]; exact .refl
  | succ n ih =>
    cases hw : who n with
    | none =>
      rcases hf.other n hw with h | h
      · exact .scribble ih h
      · rw [h]; exact ih
    | some a => exact .step a ih (hf.step n a hw)

/-- An execution that is fair with good choices is fair. -/
theorem Fair.of_only (hl : Laws S rank top) (hg : ∀ a m, ¬ S.rest a m → ∃ ch, good ch ∧ S.act a ch m ≠ .ok none)
    {sleeper : A → Prop} {c₀ : Config A L X V} (hi : Inv S c₀) (hsafe : ∀ c, Reachable S c₀ c → ¬ Fails S c)
    {σ : Nat → Config A L X V} {who : Nat → Option A} (hf : Fair (S.only good) sleeper c₀ σ who) :
    Fair S sleeper c₀ σ who where
  start := hf.start
  step n a h := (hf.step n a h).of_only
  other n h := (hf.other n h).imp_left Scribble.of_only
  fair a h := hf.fair a fun n => by
    obtain ⟨m, h1, ⟨d, h2⟩, h3⟩ := h n
    have hr := (hf.reachable_only m).of_only
    exact ⟨m, h1, Step.to_only hl hg (hi.reachable hl hr) (hsafe _ hr) h2, h3⟩

variable {urgent : A → ((x : X) → V x) → Prop} {sleeper : A → Prop}

theorem Eager.only (he : Eager S sleeper urgent) : Eager (S.only good) sleeper urgent where
  dep := he.dep
  rest := he.rest
  act a ch m s hu h := he.act a ch m s hu (only_some h).2
  sync := he.sync
  stays_act := he.stays_act
  stays_sync := he.stays_sync

theorem Short.only {agents : List A} (hs : Short S agents) : Short (S.only good) agents :=
  ⟨hs.nodup, hs.absent, hs.plan, hs.held, hs.extra, hs.rests, hs.frees⟩

theorem Sleepers.only (hs : Sleepers S sleeper) : Sleepers (S.only good) sleeper := ⟨hs.held, hs.rests⟩

/-- There are fair executions in which no notification is lost and only good choices are made. -/
theorem exists_fair_only (hl : Laws S rank top) (hg : ∀ a m, ¬ S.rest a m → ∃ ch, good ch ∧ S.act a ch m ≠ .ok none)
    (he : Eager S sleeper urgent) (hsl : Sleepers S sleeper) {agents : List A} (hsh : Short S agents)
    {c₀ : Config A L X V} (hi : Inv S c₀) (hsafe : ∀ c, Reachable S c₀ c → ¬ Fails S c)
    (ho : ∀ a, c₀.prog a = .out) (hh : ∀ a, S.held a c₀.mem = []) (hu : ∀ a, ¬ urgent a c₀.mem) :
    ∃ σ who, Fair S sleeper c₀ σ who ∧ (∀ n a, who n = some a → Calm S urgent (σ n) a) ∧
      ∀ n, Reachable (S.only good) c₀ (σ n) := by
  obtain ⟨σ, who, h1, h2⟩ := exists_fair (S := S.only good) (hl.only hg) he.only hsl.only hsh.only hi.only
    (fun c hr hf => hsafe c hr.of_only hf.of_only) ho hh hu
  exact ⟨σ, who, h1.of_only hl hg hi hsafe, h2, h1.reachable_only⟩

/-- Statements about the private variables of agents that are kept by all sections, notifications and joins. -/
theorem Reachable.private (hl : Laws S rank top) {c₀ c : Config A L X V} (hi : Inv S c₀) {P : A → ((x : X) → V x) → Prop}
    (hdep : ∀ a m n, S.Same a m n → P a m → P a n)
    (hact : ∀ a ch m s, ¬ S.rest a m → S.act a ch m = .ok (some s) → P a m → P a s)
    (hsync : ∀ a b m s, S.sync a m s → P b m → P b s) (h : Reachable S c₀ c) (h0 : ∀ a, P a c₀.mem) : ∀ a, P a c.mem := by
  have hstore : ∀ {c : Config A L X V} {x : X} (v : V x) (_ : ∃ l, S.guard x = .inl l), (∀ a, P a c.mem) →
      ∀ a, P a (c.store x v).mem := by
    rintro c x v ⟨l, hg⟩ h a
    refine hdep a _ _ (fun y hy => ?_) (h a)
    refine (Function.update_of_ne ?_ _ _).symm
    rintro rfl
    rw [hg] at hy
    cases hy
  induction h with
  | refl => exact h0
  | @step c c' b hr hs ih =>
    have hi := hi.reachable hl hr
    cases hs with
    | enter reg h hr hp => exact ih
    | acquire k reg l h hi hf => exact ih
    | read k reg x h hi => exact ih
    | compute k reg s ch h hk hs =>
      intro a
      have hsame := hi.same b k reg h
      by_cases hab : a = b
      · subst hab
        have hr : ¬ S.rest a reg := fun hr => hi.awake a k reg h (hl.rest_dep _ _ _ hsame hr)
        refine hdep a s _ (fun x hx => (if_pos hx).symm) (hact a ch reg s hr hs (hdep a _ _ (fun x hx => ?_) (ih a)))
        exact (hsame x hx).symm
      · refine hdep a _ _ (fun x hx => (if_neg ?_).symm) (ih a)
        rw [hx]
        intro e
        cases e
        exact hab rfl
    | write ws reg ls x h hx =>
      obtain ⟨l, hg, _⟩ := hi.pending b ws reg ls h x hx
      exact hstore _ ⟨l, hg⟩ ih
    | release reg l ls h => exact ih
    | exit reg h => exact ih
    | sync m reg h hs => exact fun a => hsync b a _ _ hs (ih a)
  | @scribble c c' hr hs ih =>
    have hi := hi.reachable hl hr
    cases hs with
    | before a k reg x v h hx =>
      obtain ⟨l, hg, _⟩ := hi.read_owned hl h hx
      exact hstore v ⟨l, hg⟩ ih
    | after a ws reg ls x v h hx =>
      obtain ⟨l, hg, _⟩ := hi.pending a ws reg ls h x hx
      exact hstore v ⟨l, hg⟩ ih

end Locks
end Hycu
