import Verif.Lemmas.LocksDrain

/-!
Fair executions: mutexes become free again and again, sections are completed.
-/

namespace Hycu
namespace Locks

set_option linter.unusedSectionVars false

variable {A L X C : Type} {V : X → Type} [DecidableEq A] [DecidableEq L] [DecidableEq X] {S : System A L X C V}
  {rank : L → Nat} {top : Nat}

theorem Fair.reachable {sleeper : A → Prop} {c₀ : Config A L X V} {σ : Nat → Config A L X V} {who : Nat → Option A}
    (h : Fair S sleeper c₀ σ who) (n : Nat) : Reachable S c₀ (σ n) := by
  induction n with
  | zero => rw [h.start]; exact .refl
  | succ n ih =>
    cases hw : who n with
    | some a => exact .step a ih (h.step n a hw)
    | none =>
      rcases h.other n hw with h1 | h1
      · exact .scribble ih h1
      · rw [h1]; exact ih

/-- What is needed about agents that wait for notifications. -/
structure Sleepers (S : System A L X C V) (sleeper : A → Prop) : Prop where
  held : ∀ a m, sleeper a → S.held a m = []
  /-- notifications, wake-ups and joins are made by agents that rest -/
  rests : ∀ a m s, S.sync a m s → S.rest a m

/-- A fair execution in which nothing undefined happens. -/
structure Sane (S : System A L X C V) (sleeper : A → Prop) (agents : List A) (c₀ : Config A L X V)
    (σ : Nat → Config A L X V) (who : Nat → Option A) : Prop where
  run : Fair S sleeper c₀ σ who
  sleepers : Sleepers S sleeper
  short : Short S agents
  inv : Inv S c₀
  out : ∀ a, c₀.prog a = .out
  safe : ∀ c, Reachable S c₀ c → ¬ Fails S c

section

variable {sleeper : A → Prop} {agents : List A} {c₀ : Config A L X V} {σ : Nat → Config A L X V} {who : Nat → Option A}

theorem Sane.invs (h : Sane S sleeper agents c₀ σ who) (hl : Laws S rank top) (n : Nat) : Inv S (σ n) :=
  h.inv.reachable hl (h.run.reachable n)

/-- A step of another agent does not change where an agent is. -/
theorem step_prog {c c' : Config A L X V} {a b : A} (hs : Step S a c c') (hb : b ≠ a) : c'.prog b = c.prog b := by
  have key : ∀ p, Function.update c.prog a p b = c.prog b := fun p => Function.update_of_ne hb _ _
  cases hs <;> exact key _

theorem scribble_prog {c c' : Config A L X V} (hs : Scribble S c c') : c'.prog = c.prog := by
  cases hs <;> rfl

theorem scribble_owner {c c' : Config A L X V} (hs : Scribble S c c') : c'.owner = c.owner := by
  cases hs <;> rfl

/-- Intermediate values are stored in shared variables only. -/
theorem Inv.scribble_same (hl : Laws S rank top) {c c' : Config A L X V} (hi : Inv S c) (hs : Scribble S c c') (a : A) :
    S.Same a c'.mem c.mem := by
  have key : ∀ (x : X) (v : V x) (l : L), S.guard x = .inl l → S.Same a (c.store x v).mem c.mem := by
    intro x v l hg y hy
    refine Function.update_of_ne ?_ _ _
    rintro rfl
    rw [hg] at hy
    cases hy
  cases hs with
  | before b k reg x v h hx =>
    obtain ⟨l, hg, _⟩ := hi.read_owned hl h hx
    exact key x v l hg
  | after b ws reg ls x v h hx =>
    obtain ⟨l, hg, _⟩ := hi.write_owned h hx
    exact key x v l hg

/-- A step of another agent does not change the variables of an agent that does not rest. -/
theorem Inv.step_same (hl : Laws S rank top) {c c' : Config A L X V} (hi : Inv S c) {a b : A} (hb : b ≠ a)
    (hs : Step S a c c') (hr : ¬ S.rest b c.mem) : S.Same b c'.mem c.mem := by
  cases hs with
  | compute k reg s ch h hk hs =>
    intro x hx
    show (if S.guard x = .inr a then s x else c.mem x) = c.mem x
    rw [if_neg]
    rw [hx]
    intro h
    cases h
    exact hb rfl
  | write ws reg ls x h hx =>
    obtain ⟨l, hg, _⟩ := hi.write_owned h hx
    intro y hy
    refine Function.update_of_ne ?_ _ _
    rintro rfl
    rw [hg] at hy
    cases hy
  | sync m reg h hs =>
    rcases hl.sync_other a c.mem m hs b hb with h1 | ⟨h1, _⟩
    · exact h1
    · exact absurd h1 hr
  | _ => exact fun _ _ => rfl

theorem left_scribble (hl : Laws S rank top) {c c' : Config A L X V} (hi : Inv S c) (hs : Scribble S c c') (a : A) :
    left S c' a = left S c a := by
  unfold left
  rw [scribble_prog hs, owes_same hl (hi.scribble_same hl hs a)]

/-- While an agent makes no step, it stays where it is. -/
theorem Fair.stays (h : Fair S sleeper c₀ σ who) {a : A} {n m : Nat} (hm : n ≤ m)
    (hw : ∀ k, n ≤ k → k < m → who k ≠ some a) : (σ m).prog a = (σ n).prog a := by
  induction m, hm using Nat.le_induction with
  | base => rfl
  | succ m hm ih =>
    rw [← ih fun k h1 h2 => hw k h1 (by omega)]
    cases hk : who m with
    | none =>
      rcases h.other m hk with h1 | h1
      · rw [scribble_prog h1]
      · rw [h1]
    | some b => exact step_prog (h.step m b hk) (by rintro rfl; exact hw m hm (by omega) hk)

/-- An agent in a section, or in front of one, can make a step unless it waits for a mutex. -/
theorem Sane.able (h : Sane S sleeper agents c₀ σ who) (hl : Laws S rank top) {a : A} {n : Nat}
    (hp : (σ n).prog a ≠ .out ∨ ¬ S.rest a (σ n).mem)
    (hf : ∀ k reg l, (σ n).prog a = .entering k reg → (S.plan a reg)[k]? = some (.acquire l) → (σ n).owner l = none) :
    Able S sleeper (σ n) a := by
  have hi := h.invs hl n
  refine ⟨?_, fun _ ho => hp.resolve_left fun h => h ho⟩
  cases hq : (σ n).prog a with
  | out => exact ⟨_, .enter _ _ hq (hp.resolve_left fun h => h hq) fun _ _ => rfl⟩
  | entering k reg =>
    cases hx : (S.plan a reg)[k]? with
    | none =>
      have hk : (S.plan a reg).length = k := by
        have h1 := hi.le _ _ _ hq
        rw [List.getElem?_eq_none_iff] at hx
        omega
      obtain ⟨ch, hch⟩ := hl.awake a reg (hi.not_rest hl hq)
      cases ha : S.act a ch reg with
      | ok o =>
        cases o with
        | none => exact absurd ha hch
        | some s => exact ⟨_, .compute _ k reg s ch hq hk ha⟩
      | _ => exact absurd ⟨a, k, reg, ch, hq, hk, fun o => by rw [ha]; intro h; cases h⟩ (h.safe _ (h.run.reachable n))
    | some i =>
      cases i with
      | read x => exact ⟨_, .read _ k reg x hq hx⟩
      | acquire l => exact ⟨_, .acquire _ k reg l hq hx (hf k reg l hq hx)⟩
  | leaving ws reg ls =>
    cases ws with
    | cons x ws => exact ⟨_, .write _ _ reg ls x hq List.mem_cons_self⟩
    | nil =>
      cases ls with
      | nil => exact ⟨_, .exit _ reg hq⟩
      | cons l ls => exact ⟨_, .release _ reg l ls hq⟩

/-- Who has a mutex keeps it until it becomes free. -/
theorem step_owner {c c' : Config A L X V} {a b : A} {l : L} (hs : Step S a c c') (ho : c.owner l = some b) :
    c'.owner l = some b ∨ c'.owner l = none := by
  cases hs with
  | acquire k reg l' h hi hf =>
    left
    show Function.update c.owner l' (some a) l = some b
    rw [Function.update_of_ne (by rintro rfl; rw [hf] at ho; cases ho)]
    exact ho
  | release reg l' ls h =>
    by_cases he : l = l'
    · subst he
      exact Or.inr (Function.update_self ..)
    · left
      show Function.update c.owner l' none l = some b
      rw [Function.update_of_ne he]
      exact ho
  | _ => exact Or.inl ho

/-- An agent that cannot stop makes a step: it is in a section or in front of one, or makes a notification; if it waits for
a mutex, then this becomes free again and again. -/
theorem Sane.moves (h : Sane S sleeper agents c₀ σ who) (hl : Laws S rank top) {a : A} {n : Nat}
    (hp : ∀ m, n ≤ m → (σ m).prog a ≠ .out ∨ ¬ S.rest a (σ m).mem ∨ (¬ sleeper a ∧ ∃ s, S.sync a (σ m).mem s))
    (hf : ∀ m k reg l, n ≤ m → (σ m).prog a = .entering k reg → (S.plan a reg)[k]? = some (.acquire l) →
      ∀ j, ∃ i, j ≤ i ∧ (σ i).owner l = none) : ∃ m, n ≤ m ∧ who m = some a := by
  by_contra hcon
  have hno : ∀ m, n ≤ m → who m ≠ some a := fun m hm hw => hcon ⟨m, hm, hw⟩
  have hq : ∀ m, n ≤ m → (σ m).prog a = (σ n).prog a := fun m hm => h.run.stays hm fun k h1 _ => hno k h1
  refine absurd (h.run.fair a (fun j => ?_) n) hcon
  have able : ∀ m, n ≤ m → (∀ k reg l, (σ m).prog a = .entering k reg → (S.plan a reg)[k]? = some (.acquire l) →
      (σ m).owner l = none) → Able S sleeper (σ m) a := by
    intro m hm hfree
    by_cases hc : (σ m).prog a ≠ .out ∨ ¬ S.rest a (σ m).mem
    · exact h.able hl hc hfree
    · rw [not_or, not_not, not_not] at hc
      rcases hp m hm with h1 | h1 | ⟨h1, s, h2⟩
      · exact absurd hc.1 h1
      · exact absurd hc.2 h1
      · exact ⟨⟨_, .sync _ s s hc.1 h2⟩, fun hs => absurd hs h1⟩
  by_cases hw : ∃ k reg l, (σ n).prog a = .entering k reg ∧ (S.plan a reg)[k]? = some (.acquire l)
  · obtain ⟨k, reg, l, h1, h2⟩ := hw
    obtain ⟨i, hi, ho⟩ := hf n k reg l le_rfl h1 h2 (max j n)
    refine ⟨i, le_trans (le_max_left _ _) hi, able i (le_trans (le_max_right _ _) hi) fun k' reg' l' h3 h4 => ?_⟩
    rw [hq i (le_trans (le_max_right _ _) hi), h1] at h3
    cases h3
    rw [h2] at h4
    cases h4
    exact ho
  · refine ⟨max j n, le_max_left _ _, able _ (le_max_right _ _) fun k reg l h1 h2 => ?_⟩
    rw [hq _ (le_max_right _ _)] at h1
    exact absurd ⟨k, reg, l, h1, h2⟩ hw

/-- Something that decreases whenever an agent makes a step, and never increases, cannot be there forever. -/
theorem no_descent {f : Nat → Nat} {p : Nat → Prop} {n : Nat} (h1 : ∀ m, n ≤ m → f (m + 1) ≤ f m)
    (h2 : ∀ m, n ≤ m → p m → f (m + 1) < f m) (h3 : ∀ m, n ≤ m → ∃ k, m ≤ k ∧ p k) : False := by
  have hle : ∀ m k, n ≤ m → m ≤ k → f k ≤ f m := by
    intro m k hm hk
    induction k, hk using Nat.le_induction with
    | base => exact le_rfl
    | succ k hk ih => exact (h1 k (by omega)).trans ih
  have key : ∀ j, ∃ m, n ≤ m ∧ f m + j ≤ f n := by
    intro j
    induction j with
    | zero => exact ⟨n, le_rfl, le_rfl⟩
    | succ j ih =>
      obtain ⟨m, hm, hj⟩ := ih
      obtain ⟨k, hk, hp⟩ := h3 m hm
      have := h2 k (by omega) hp
      have := hle m k hm hk
      exact ⟨k + 1, by omega, by omega⟩
  obtain ⟨m, hm, hj⟩ := key (f n + 1)
  omega

theorem Sane.left_le (h : Sane S sleeper agents c₀ σ who) (hl : Laws S rank top) {a : A} {n : Nat}
    (hw : who n ≠ some a) : left S (σ (n + 1)) a = left S (σ n) a := by
  cases hk : who n with
  | none =>
    rcases h.run.other n hk with h1 | h1
    · exact left_scribble hl (h.invs hl n) h1 a
    · rw [h1]
  | some b => exact left_other hl (h.invs hl n) (by rintro rfl; exact hw hk) (h.run.step n b hk)

/-- Mutexes become free again and again. -/
theorem Sane.free (h : Sane S sleeper agents c₀ σ who) (hl : Laws S rank top) (l : L) (n : Nat) :
    ∃ m, n ≤ m ∧ (σ m).owner l = none := by
  generalize hr : top - rank l = r
  induction r using Nat.strong_induction_on generalizing l n with
  | _ r ih =>
    by_contra hcon
    have hown : ∀ m, n ≤ m → (σ m).owner l ≠ none := fun m hm ho => hcon ⟨m, hm, ho⟩
    obtain ⟨b, hb⟩ := Option.ne_none_iff_exists'.1 (hown n le_rfl)
    have hb : ∀ m, n ≤ m → (σ m).owner l = some b := by
      intro m hm
      induction m, hm using Nat.le_induction with
      | base => exact hb
      | succ m hm ihm =>
        cases hk : who m with
        | none =>
          rcases h.run.other m hk with h1 | h1
          · rw [scribble_owner h1]; exact ihm
          · rw [h1]; exact ihm
        | some a => exact (step_owner (h.run.step m a hk) ihm).resolve_right (hown _ (by omega))
    have hbusy : ∀ m, n ≤ m → (σ m).prog b ≠ .out ∨ S.held b (σ m).mem ≠ [] := by
      intro m hm
      by_cases ho : (σ m).prog b = .out
      · exact Or.inr (List.ne_nil_of_mem ((h.invs hl m).held_of_owner ho (hb m hm)))
      · exact Or.inl ho
    refine no_descent (f := fun m => left S (σ m) b) (p := fun m => who m = some b) (n := n) (fun m hm => ?_)
      (fun m hm hw => left_lt hl h.short (h.invs hl m) (hbusy m hm) (h.run.step m b hw)) fun m hm => ?_
    · by_cases hw : who m = some b
      · exact (left_lt hl h.short (h.invs hl m) (hbusy m hm) (h.run.step m b hw)).le
      · exact (h.left_le hl hw).le
    · refine h.moves hl (fun k hk => ?_) fun k j reg l' hk h1 h2 => ?_
      · rcases hbusy k (by omega) with h1 | h1
        · exact Or.inl h1
        · have hrest := h.short.rests b _ h1
          exact Or.inr (Or.inr ⟨fun hs => h1 (h.sleepers.held b _ hs), hl.busy b _ h1 hrest⟩)
      · have hi := h.invs hl k
        have hm : l ∈ holds S (σ k) b := (hi.own b l).2 (hb k (by omega))
        have h3 := hl.rank_lt _ _ _ _ h2 l (by
          unfold holds at hm
          rw [h1, ← hl.held_dep _ _ _ (hi.same _ _ _ h1)] at hm
          exact hm)
        have h4 := hl.rank_le l'
        exact fun i => ih (top - rank l') (by omega) l' i rfl

/-- An agent that does not stop makes steps. -/
theorem Sane.steps (h : Sane S sleeper agents c₀ σ who) (hl : Laws S rank top) {a : A} {n : Nat}
    (hp : ∀ m, n ≤ m → (σ m).prog a ≠ .out ∨ ¬ S.rest a (σ m).mem ∨ (¬ sleeper a ∧ ∃ s, S.sync a (σ m).mem s)) :
    ∃ m, n ≤ m ∧ who m = some a := h.moves hl hp fun _ _ _ l _ _ _ j => h.free hl l j

/-- In a step of an execution an agent computes the effect of its section. -/
def Computes (S : System A L X C V) (σ : Nat → Config A L X V) (who : Nat → Option A) (a : A) (n : Nat) : Prop :=
  who n = some a ∧ ∃ k reg, (σ n).prog a = .entering k reg ∧ (S.plan a reg).length = k

/-- In a step of an execution an agent makes a notification, or a join, or wakes up. -/
def Signals (S : System A L X C V) (σ : Nat → Config A L X V) (who : Nat → Option A) (a : A) (n : Nat) : Prop :=
  who n = some a ∧ (σ n).prog a = .out ∧ S.rest a (σ n).mem

/-- Where an agent is, counted backwards from the next computation. -/
def until' : Prog L X V → Nat
  | .out => 50
  | .entering k _ => 40 - k
  | .leaving ws _ ls => 60 + ws.length + ls.length

/-- Steps that are not computations or notifications lead to the next one. -/
theorem Sane.until_lt (h : Sane S sleeper agents c₀ σ who) {a : A} {n : Nat} (hw : who n = some a)
    (h1 : ¬ Computes S σ who a n) (h2 : ¬ Signals S σ who a n) :
    until' ((σ (n + 1)).prog a) < until' ((σ n).prog a) := by
  have hs := h.run.step n a hw
  generalize σ (n + 1) = c' at hs
  have key : ∀ p, Function.update (σ n).prog a p a = p := fun p => Function.update_self ..
  cases hs with
  | enter reg hq hr hp =>
    show until' (Function.update (σ n).prog a _ a) < _
    rw [key, hq]
    show 40 - 0 < 50
    omega
  | acquire k reg l hq hk =>
    show until' (Function.update (σ n).prog a _ a) < _
    rw [key, hq]
    have h2 := h.short.plan a reg
    have : k < (S.plan a reg).length := (List.getElem?_eq_some_iff.1 hk).1
    show 40 - (k + 1) < 40 - k
    omega
  | read k reg x hq hk =>
    show until' (Function.update (σ n).prog a _ a) < _
    rw [key, hq]
    have h2 := h.short.plan a reg
    have : k < (S.plan a reg).length := (List.getElem?_eq_some_iff.1 hk).1
    show 40 - (k + 1) < 40 - k
    omega
  | compute k reg s ch hq hk hs => exact absurd ⟨hw, k, reg, hq, hk⟩ h1
  | write ws reg ls x hq hx =>
    show until' (Function.update (σ n).prog a _ a) < _
    rw [key, hq]
    have h1 : (ws.filter fun y => y ≠ x).length < ws.length :=
      List.length_filter_lt_length_iff_exists.2 ⟨x, hx, by simp⟩
    show 60 + _ + _ < 60 + _ + _
    omega
  | release reg l ls hq =>
    show until' (Function.update (σ n).prog a _ a) < _
    rw [key, hq]
    show 60 + 0 + ls.length < 60 + 0 + (ls.length + 1)
    omega
  | exit reg hq =>
    show until' (Function.update (σ n).prog a _ a) < _
    rw [key, hq]
    show 50 < 60 + 0 + 0
    omega
  | sync m reg hq hs => exact absurd ⟨hw, hq, h.sleepers.rests _ _ _ hs⟩ h2

/-- An agent that does not stop completes a section, or makes a notification. -/
theorem Sane.acts (h : Sane S sleeper agents c₀ σ who) (hl : Laws S rank top) {a : A} {n : Nat}
    (hp : ∀ m, n ≤ m → (∀ k, n ≤ k → k < m → ¬ Computes S σ who a k ∧ ¬ Signals S σ who a k) →
      (σ m).prog a ≠ .out ∨ ¬ S.rest a (σ m).mem ∨ (¬ sleeper a ∧ ∃ s, S.sync a (σ m).mem s)) :
    ∃ m, n ≤ m ∧ (Computes S σ who a m ∨ Signals S σ who a m) ∧
      ∀ k, n ≤ k → k < m → ¬ Computes S σ who a k ∧ ¬ Signals S σ who a k := by
  have hex : ∃ m, n ≤ m ∧ (Computes S σ who a m ∨ Signals S σ who a m) := by
    by_contra hcon
    have hno : ∀ m, n ≤ m → ¬ Computes S σ who a m ∧ ¬ Signals S σ who a m := fun m hm =>
      ⟨fun hc => hcon ⟨m, hm, Or.inl hc⟩, fun hc => hcon ⟨m, hm, Or.inr hc⟩⟩
    refine no_descent (f := fun m => until' ((σ m).prog a)) (p := fun m => who m = some a) (n := n) (fun m hm => ?_)
      (fun m hm hw => h.until_lt hw (hno m hm).1 (hno m hm).2) fun m hm =>
        h.steps hl fun k hk => hp k (by omega) fun j hj _ => hno j hj
    by_cases hw : who m = some a
    · exact (h.until_lt hw (hno m hm).1 (hno m hm).2).le
    · refine le_of_eq (congrArg until' ?_)
      exact h.run.stays (Nat.le_succ m) fun k h1 h2 => by
        obtain rfl : k = m := by omega
        exact hw
  classical
  obtain ⟨h1, h2⟩ := Nat.find_spec hex
  refine ⟨Nat.find hex, h1, h2, fun k hk hlt => ?_⟩
  have := Nat.find_min hex hlt
  rw [not_and, not_or] at this
  exact this hk

/-- An agent computes or makes a notification. -/
def Acts (S : System A L X C V) (σ : Nat → Config A L X V) (who : Nat → Option A) (a : A) (n : Nat) : Prop :=
  Computes S σ who a n ∨ Signals S σ who a n

theorem Inv.abs_rest (hl : Laws S rank top) {c : Config A L X V} {a : A} : S.rest a (abs S c) ↔ S.rest a c.mem :=
  ⟨hl.rest_dep _ _ _ fun _ hx => abs_private hx, hl.rest_dep _ _ _ fun _ hx => (abs_private hx).symm⟩

theorem Laws.abs_sync (hl : Laws S rank top) {c : Config A L X V} {a : A} (h : ∃ s, S.sync a (abs S c) s) :
    ∃ s, S.sync a c.mem s := by
  classical
  obtain ⟨s, h⟩ := h
  refine ⟨fun x => if ∃ b, S.guard x = .inr b then s x else c.mem x,
    hl.sync_frame a (abs S c) c.mem s _ h (fun x b hx => abs_private hx) (fun x b hx => ?_) fun x l hx => ?_⟩
  · exact if_pos ⟨b, hx⟩
  · refine if_neg ?_
    rw [hx]
    simp

/-- What happens in a step of a fair execution. -/
theorem Sane.event (h : Sane S sleeper agents c₀ σ who) (hl : Laws S rank top) (n : Nat) :
    (abs S (σ (n + 1)) = abs S (σ n) ∧ ∀ a, ¬ Acts S σ who a n) ∨
    (∃ a ch, Computes S σ who a n ∧ ¬ S.rest a (abs S (σ n)) ∧ S.act a ch (abs S (σ n)) = .ok (some (abs S (σ (n + 1))))) ∨
    ∃ a, Signals S σ who a n ∧ S.sync a (abs S (σ n)) (abs S (σ (n + 1))) := by
  have hi := h.invs hl n
  cases hw : who n with
  | none =>
    refine Or.inl ⟨?_, fun a ha => ?_⟩
    · rcases h.run.other n hw with h1 | h1
      · exact (hi.scribble hl h1).2
      · rw [h1]
    · rcases ha with ⟨h1, _⟩ | ⟨h1, _⟩ <;> rw [hw] at h1 <;> cases h1
  | some a =>
    have hs := h.run.step n a hw
    have hno : ∀ q, (σ n).prog a = q → (∀ k reg, q = .entering k reg → (S.plan a reg).length ≠ k) →
        (q = .out → ¬ S.rest a (σ n).mem) → ∀ b, ¬ Acts S σ who b n := by
      intro q hq h1 h2 b hb
      have hab : b = a := by
        rcases hb with ⟨h3, _⟩ | ⟨h3, _⟩ <;> rw [hw] at h3 <;> cases h3 <;> rfl
      subst hab
      rcases hb with ⟨_, k, reg, h4, h5⟩ | ⟨_, h4, h5⟩
      · exact h1 k reg (hq ▸ h4) h5
      · exact h2 (hq ▸ h4) h5
    generalize σ (n + 1) = c' at hs
    cases hs with
    | enter reg hq hr hp =>
      refine Or.inl ⟨?_, hno _ hq (fun _ _ h => by cases h) fun _ => hr⟩
      refine abs_go a _ fun x l hx ho => ?_
      rw [hq]
      simp [Prog.value, reads]
    | acquire k reg l hq hk hf =>
      refine Or.inl ⟨(hi.acquire hl hq hk hf).2, hno _ hq (fun _ _ h he => ?_) fun h => by cases h⟩
      cases h
      have := (List.getElem?_eq_some_iff.1 hk).1
      omega
    | read k reg x hq hk =>
      refine Or.inl ⟨(hi.read hl hq hk).2, hno _ hq (fun _ _ h he => ?_) fun h => by cases h⟩
      cases h
      have := (List.getElem?_eq_some_iff.1 hk).1
      omega
    | compute k reg s ch hq hk hs =>
      exact Or.inr (Or.inl ⟨a, ch, ⟨hw, k, reg, hq, hk⟩, (hi.compute hl hq hk hs).2⟩)
    | write ws reg ls x hq hx =>
      exact Or.inl ⟨(hi.write hl hq hx).2, hno _ hq (fun _ _ h => by cases h) fun h => by cases h⟩
    | release reg l ls hq =>
      exact Or.inl ⟨(hi.release hq).2, hno _ hq (fun _ _ h => by cases h) fun h => by cases h⟩
    | exit reg hq =>
      refine Or.inl ⟨?_, hno _ hq (fun _ _ h => by cases h) fun h => by cases h⟩
      refine abs_go a _ fun x l hx ho => ?_
      rw [hq]
      simp [Prog.value]
    | sync m r hq hs => exact Or.inr (Or.inr ⟨a, ⟨hw, hq, h.sleepers.rests _ _ _ hs⟩, (hi.sync hl r hq hs).2⟩)

theorem Sane.acts_unique {a b : A} {n : Nat} (ha : Acts S σ who a n) (hb : Acts S σ who b n) : a = b := by
  have h1 : who n = some a := ha.elim (fun h => h.1) fun h => h.1
  have h2 : who n = some b := hb.elim (fun h => h.1) fun h => h.1
  rw [h1] at h2
  cases h2
  rfl

/-- The variables of an agent that does not rest are changed by itself only. -/
theorem Sane.same (h : Sane S sleeper agents c₀ σ who) (hl : Laws S rank top) {a : A} {n : Nat}
    (hr : ¬ S.rest a (abs S (σ n))) (hn : ¬ Acts S σ who a n) : S.Same a (abs S (σ (n + 1))) (abs S (σ n)) := by
  rcases h.event hl n with ⟨h1, _⟩ | ⟨b, ch, h1, h2, h3⟩ | ⟨b, h1, h2⟩
  · rw [h1]
    exact fun _ _ => rfl
  · have hb : a ≠ b := by
      rintro rfl
      exact hn (Or.inl h1)
    intro x hx
    obtain ⟨t, ht, _, _, hfr⟩ := hl.act_frame b ch _ _ _ h2 (fun _ _ => rfl) (fun _ _ => rfl) h3
    rw [h3] at ht
    cases ht
    refine hfr x (by rw [hx]; simpa using hb) fun hx' => ?_
    rcases List.mem_append.1 hx' with hx' | hx'
    · obtain ⟨k, _, hk⟩ := reads_take (k := (S.plan b (abs S (σ n))).length) (by rwa [List.take_length])
      obtain ⟨l, hg, _⟩ := hl.read_guard _ _ _ _ hk
      rw [hx] at hg
      cases hg
    · obtain ⟨l, hg, _⟩ := hl.extra_guard _ _ _ hx'
      rw [hx] at hg
      cases hg
  · have hb : a ≠ b := by
      rintro rfl
      exact hn (Or.inr h1)
    rcases hl.sync_other b _ _ h2 a hb with h3 | ⟨h3, _⟩
    · exact h3
    · exact absurd h3 hr

theorem Sane.same_until (h : Sane S sleeper agents c₀ σ who) (hl : Laws S rank top) {a : A} {n m : Nat}
    (hr : ¬ S.rest a (abs S (σ n))) (hm : n ≤ m) (hn : ∀ k, n ≤ k → k < m → ¬ Acts S σ who a k) :
    S.Same a (abs S (σ m)) (abs S (σ n)) ∧ ¬ S.rest a (abs S (σ m)) := by
  induction m, hm using Nat.le_induction with
  | base => exact ⟨fun _ _ => rfl, hr⟩
  | succ m hm ih =>
    obtain ⟨h1, h2⟩ := ih fun k hk hlt => hn k hk (by omega)
    have h3 := h.same hl h2 (hn m hm (by omega))
    exact ⟨fun x hx => (h3 x hx).trans (h1 x hx), fun h4 => h2 (hl.rest_dep _ _ _ h3 h4)⟩

/-- An agent that does not rest completes a section. -/
theorem Sane.computes (h : Sane S sleeper agents c₀ σ who) (hl : Laws S rank top) {a : A} {n : Nat}
    (hr : ¬ S.rest a (abs S (σ n))) : ∃ m, n ≤ m ∧ Computes S σ who a m ∧ ∀ k, n ≤ k → k < m → ¬ Acts S σ who a k := by
  obtain ⟨m, h1, h2, h3⟩ := h.acts hl (a := a) (n := n) fun m hm hno => Or.inr (Or.inl fun h4 =>
    (h.same_until hl hr hm fun k hk hlt hx => hx.elim (hno k hk hlt).1 (hno k hk hlt).2).2 ((Inv.abs_rest hl).2 h4))
  refine ⟨m, h1, h2.resolve_right fun ⟨_, _, h4⟩ => ?_, fun k hk hlt hx => hx.elim (h3 k hk hlt).1 (h3 k hk hlt).2⟩
  exact (h.same_until hl hr h1 fun k hk hlt hx => hx.elim (h3 k hk hlt).1 (h3 k hk hlt).2).2 ((Inv.abs_rest hl).2 h4)

/-- An agent that can make a notification, or end a join, does so. -/
theorem Sane.signals (h : Sane S sleeper agents c₀ σ who) (hl : Laws S rank top) {a : A} {n : Nat} (ha : ¬ sleeper a)
    (hs : ∀ m, n ≤ m → (∀ k, n ≤ k → k < m → ¬ Acts S σ who a k) → ∃ s, S.sync a (abs S (σ m)) s) :
    ∃ m, n ≤ m ∧ Signals S σ who a m ∧ ∀ k, n ≤ k → k < m → ¬ Acts S σ who a k := by
  obtain ⟨m, h1, h2, h3⟩ := h.acts hl (a := a) (n := n) fun m hm hno => Or.inr (Or.inr ⟨ha, hl.abs_sync
    (hs m hm fun k hk hlt hx => hx.elim (hno k hk hlt).1 (hno k hk hlt).2)⟩)
  have h4 : ∀ k, n ≤ k → k < m → ¬ Acts S σ who a k := fun k hk hlt hx => hx.elim (h3 k hk hlt).1 (h3 k hk hlt).2
  refine ⟨m, h1, h2.resolve_left fun ⟨_, k, reg, h5, _⟩ => ?_, h4⟩
  obtain ⟨s, h6⟩ := hl.abs_sync (hs m h1 h4)
  exact (h.invs hl m).awake _ _ _ h5 (h.sleepers.rests _ _ _ h6)

end

end Locks
end Hycu
