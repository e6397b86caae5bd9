import Verif.Lemmas.LocksWhole
import Verif.Spec.Locks

/-!
Accesses to shared variables; critical sections end.
-/

namespace Hycu
namespace Locks

set_option linter.unusedSectionVars false

variable {A L X C : Type} {V : X → Type} [DecidableEq A] [DecidableEq L] [DecidableEq X] {S : System A L X C V}
  {rank : L → Nat} {top : Nat}

/-- A step that changes a shared variable accesses it. -/
theorem Laws.stores (hl : Laws S rank top) {c c' : Config A L X V} {a : A} {x : X} (hx : ∃ l, S.guard x = .inl l)
    (hs : Step S a c c') (hne : c'.mem x ≠ c.mem x) : Accesses S c a x := by
  obtain ⟨l, hx⟩ := hx
  cases hs with
  | write ws reg ls y h hy =>
    by_cases he : x = y
    · subst he
      unfold Accesses
      rw [h]
      exact hy
    · exact absurd (Function.update_of_ne he _ _) hne
  | compute k reg s ch h hk hs =>
    refine absurd (if_neg ?_) hne
    rw [hx]
    simp
  | sync m reg h hs => exact absurd (hl.sync_shared _ _ _ hs x l hx) hne
  | _ => exact absurd rfl hne

/-- A step that does not access a shared variable is possible whatever its value is, and does the same. -/
theorem Laws.loads (hl : Laws S rank top) {c c' : Config A L X V} {a : A} {x : X} (hx : ∃ l, S.guard x = .inl l)
    (hs : Step S a c c') (hn : ¬ Accesses S c a x) (v : V x) : Step S a (c.store x v) (c'.store x v) := by
  obtain ⟨l, hx⟩ := hx
  have hp : ∀ (m : (x : X) → V x) y d, S.guard y = .inr d → Function.update m x v y = m y := fun m y d hy =>
    Function.update_of_ne (by rintro rfl; rw [hx] at hy; cases hy) _ _
  cases hs with
  | enter reg h hr hreg =>
    exact .enter (c.store x v) reg h (fun h => hr (hl.rest_dep _ _ _ (fun y hy => hp _ y _ hy) h)) fun y hy => by
      rw [hreg y hy]
      exact (hp _ y _ hy).symm
  | acquire k reg l h hi hf => exact .acquire (c.store x v) k reg l h hi hf
  | read k reg y h hi =>
    have hne : y ≠ x := by
      rintro rfl
      unfold Accesses at hn
      rw [h] at hn
      exact hn (Or.inl hi)
    have := Step.read (c.store x v) k reg y h hi
    rw [show (c.store x v).mem y = c.mem y from Function.update_of_ne hne _ _] at this
    exact this
  | compute k reg s ch h hk hs =>
    have := Step.compute (c.store x v) k reg s ch h hk hs
    convert this using 1
    show (⟨_, _, _⟩ : Config A L X V) = ⟨_, _, _⟩
    refine congrArg (fun m => (⟨m, c.owner, _⟩ : Config A L X V)) ?_
    funext y
    by_cases he : y = x
    · subst he
      show Function.update _ y v y = if S.guard y = .inr a then s y else Function.update c.mem y v y
      rw [Function.update_self, Function.update_self, if_neg (by rw [hx]; simp)]
    · show Function.update _ x v y = if S.guard y = .inr a then s y else Function.update c.mem x v y
      rw [Function.update_of_ne he, Function.update_of_ne he]
      rfl
  | write ws reg ls y h hy =>
    have hne : y ≠ x := by
      rintro rfl
      unfold Accesses at hn
      rw [h] at hn
      exact hn hy
    have := Step.write (S := S) (c.store x v) ws reg ls y h hy
    convert this using 1
    show (⟨_, _, _⟩ : Config A L X V) = ⟨_, _, _⟩
    exact congrArg (fun m => (⟨m, c.owner, _⟩ : Config A L X V)) (Function.update_comm hne.symm _ _ _).symm
  | release reg l ls h => exact .release (c.store x v) reg l ls h
  | exit reg h => exact .exit (c.store x v) reg h
  | sync m reg h hs =>
    have e : ∀ n : (x : X) → V x, S.held a (Function.update n x v) = S.held a n := fun n =>
      hl.held_dep _ _ _ fun y hy => hp n y a hy
    have := Step.sync (c.store x v) (Function.update m x v) reg h (hl.sync_frame a c.mem _ m _ hs
      (fun y d hy => (hp _ y d hy).symm) (fun y d hy => hp _ y d hy) fun y l' hy => ?_)
    · rw [e m, show S.held a (c.store x v).mem = S.held a c.mem from e c.mem] at this
      exact this
    · by_cases he : y = x
      · subst he
        rw [Function.update_self]
        exact (Function.update_self ..).symm
      · rw [Function.update_of_ne he, hl.sync_shared _ _ _ hs y l' hy]
        exact (Function.update_of_ne he _ _).symm

/-- A shared variable is accessed while its mutex is held. -/
theorem Inv.owned (hl : Laws S rank top) {c : Config A L X V} (hi : Inv S c) {a : A} {x : X} (ha : Accesses S c a x) :
    ∃ l, S.guard x = .inl l ∧ c.owner l = some a := by
  unfold Accesses at ha
  split at ha
  · exact ha.elim
  · next k reg hp =>
    rcases ha with ha | ha
    · exact hi.next_owned hl hp ha
    · exact hi.read_owned hl hp ha
  · next ws reg ls hp => exact hi.write_owned hp ha

theorem Inv.reachable (hl : Laws S rank top) {c₀ c : Config A L X V} (hi : Inv S c₀) (h : Reachable S c₀ c) : Inv S c := by
  induction h with
  | refl => exact hi
  | step a _ hs ih => exact (ih.step hl hs).1
  | scribble _ hs ih => exact (ih.scribble hl hs).1

/-! ### The end of critical sections -/

/-- What is demanded in addition: there are finitely many agents, sections are short, and an agent that holds a mutex
between two sections releases it in its next step. -/
structure Short (S : System A L X C V) (agents : List A) : Prop where
  nodup : agents.Nodup
  absent : ∀ a, a ∉ agents → ∀ m, S.rest a m ∧ ¬ ∃ s, S.sync a m s
  plan : ∀ a m, (S.plan a m).length ≤ 5
  held : ∀ a m, (S.held a m).length ≤ 1
  extra : ∀ a m, (S.extra a m).length ≤ 1
  rests : ∀ a m, S.held a m ≠ [] → S.rest a m
  frees : ∀ a m s, S.sync a m s → S.held a s = []

/-- What remains to be done in a section. -/
def remains : Prog L X V → Nat
  | .out => 0
  | .entering k _ => 40 - k
  | .leaving ws _ ls => 1 + ws.length + ls.length

/-- The notification that remains to be made. -/
def owes (S : System A L X C V) (m : (x : X) → V x) (a : A) : Nat := if S.held a m = [] then 0 else 10

def remaining (S : System A L X C V) (agents : List A) (c : Config A L X V) : Nat :=
  (agents.map fun a => remains (c.prog a) + owes S c.mem a).sum

theorem owes_le (m : (x : X) → V x) (a : A) : owes S m a ≤ 10 := by
  unfold owes
  split <;> omega

theorem owes_same (hl : Laws S rank top) {m n : (x : X) → V x} {a : A} (h : S.Same a m n) : owes S m a = owes S n a := by
  unfold owes
  rw [hl.held_dep a m n h]

theorem Short.out {agents : List A} (hf : Short S agents) {c₀ c : Config A L X V} (h0 : ∀ a, c₀.prog a = .out)
    (h : Reachable S c₀ c) {a : A} (ha : a ∉ agents) : c.prog a = .out := by
  induction h with
  | refl => exact h0 a
  | @step c c' b _ hs ih =>
    by_cases hb : b = a
    · subst hb
      cases hs with
      | enter reg h hr hp => exact absurd (hf.absent b ha c.mem).1 hr
      | sync m reg h hs => exact absurd ⟨_, hs⟩ (hf.absent b ha c.mem).2
      | acquire k reg l h => rw [ih] at h; cases h
      | read k reg l h => rw [ih] at h; cases h
      | compute k reg s ch h => rw [ih] at h; cases h
      | write ws reg ls x h => rw [ih] at h; cases h
      | release reg l ls h => rw [ih] at h; cases h
      | exit reg h => rw [ih] at h; cases h
    · have key : ∀ p, Function.update c.prog b p a = .out := fun p => by
        rw [Function.update_of_ne (Ne.symm hb)]
        exact ih
      cases hs <;> exact key _
  | scribble _ hs ih => cases hs <;> exact ih

theorem sum_lt {f g : A → Nat} {a : A} : ∀ {l : List A}, l.Nodup → a ∈ l → (∀ b, b ≠ a → f b = g b) → f a < g a →
    (l.map f).sum < (l.map g).sum := by
  intro l hn ha hfg hlt
  induction l with
  | nil => cases ha
  | cons b l ih =>
    rw [List.nodup_cons] at hn
    simp only [List.map_cons, List.sum_cons]
    by_cases hab : b = a
    · subst hab
      have : l.map f = l.map g := List.map_congr_left fun k hk => hfg k (by rintro rfl; exact hn.1 hk)
      rw [this]
      omega
    · have := ih hn.2 ((List.mem_cons.1 ha).resolve_left (Ne.symm hab))
      rw [hfg b hab]
      omega

/-- What remains to be done by an agent. -/
def left (S : System A L X C V) (c : Config A L X V) (a : A) : Nat := remains (c.prog a) + owes S c.mem a

/-- The steps of other agents change nothing about it. -/
theorem left_other (hl : Laws S rank top) {c c' : Config A L X V} (hi : Inv S c) {a b : A} (hb : b ≠ a)
    (hs : Step S a c c') : left S c' b = left S c b := by
  have other : ∀ {m : (x : X) → V x} {p : Prog L X V} {o : L → Option A}, owes S m b = owes S c.mem b →
      left S ⟨m, o, Function.update c.prog a p⟩ b = left S c b := by
    intro m p o ho
    show remains (Function.update c.prog a p b) + owes S m b = _
    rw [Function.update_of_ne hb, ho]
    rfl
  cases hs with
  | compute k reg s ch h hk hs =>
    refine other (owes_same hl fun x hx => ?_)
    show (if S.guard x = .inr a then s x else c.mem x) = c.mem x
    rw [if_neg]
    rw [hx]
    intro h
    cases h
    exact hb rfl
  | write ws reg ls x h hx =>
    obtain ⟨l, hg, _⟩ := hi.write_owned h hx
    refine other (owes_same hl fun y hy => Function.update_of_ne ?_ _ _)
    rintro rfl
    rw [hg] at hy
    cases hy
  | sync m reg h hs =>
    refine other ?_
    rcases hl.sync_other a c.mem m hs b hb with h1 | ⟨_, h1⟩
    · exact owes_same hl h1
    · unfold owes
      rw [h1]
  | _ => exact other rfl

/-- Every step of an agent that is in a section, or holds a mutex, brings the end of its section nearer. -/
theorem left_lt (hl : Laws S rank top) {agents : List A} (hf : Short S agents) {c c' : Config A L X V} (hi : Inv S c)
    {a : A} (ha : c.prog a ≠ .out ∨ S.held a c.mem ≠ []) (hs : Step S a c c') : left S c' a < left S c a := by
  have other : ∀ {m : (x : X) → V x} {p : Prog L X V} {o : L → Option A},
      remains p + owes S m a < remains (c.prog a) + owes S c.mem a →
      left S ⟨m, o, Function.update c.prog a p⟩ a < left S c a := by
    intro m p o hlt
    show remains (Function.update c.prog a p a) + owes S m a < _
    rw [Function.update_self]
    exact hlt
  cases hs with
  | enter reg h hr hp =>
    rcases ha with ha | ha
    · exact absurd h ha
    · exact absurd (hf.rests a c.mem ha) hr
  | acquire k reg l h hk =>
    refine other ?_
    have h2 := hf.plan a reg
    have : k < (S.plan a reg).length := (List.getElem?_eq_some_iff.1 hk).1
    rw [h]
    show 40 - (k + 1) + owes S c.mem a < 40 - k + owes S c.mem a
    omega
  | read k reg x h hk =>
    refine other ?_
    have h2 := hf.plan a reg
    have : k < (S.plan a reg).length := (List.getElem?_eq_some_iff.1 hk).1
    rw [h]
    show 40 - (k + 1) + owes S c.mem a < 40 - k + owes S c.mem a
    omega
  | compute k reg s ch h hk hs =>
    refine other ?_
    · have h2 := hf.plan a reg
      have h3 := hf.held a reg
      have h4 := hf.extra a reg
      rw [h]
      have h5 := owes_le (S := S) (c.setPrivate S a s).mem a
      have h6 : (S.touched a reg).length ≤ 6 := by
        unfold System.touched
        rw [List.length_append]
        have : (reads (S.plan a reg)).length ≤ _ := List.length_filterMap_le _ _
        omega
      have h7 : ((S.held a reg ++ locks (S.plan a reg)).filter fun l => l ∉ S.held a s).length ≤ 6 := by
        refine (List.length_filter_le _ _).trans ?_
        rw [List.length_append]
        have : (locks (S.plan a reg)).length ≤ _ := List.length_filterMap_le _ _
        omega
      show 1 + _ + _ + _ < 40 - k + _
      omega
  | write ws reg ls x h hx =>
    obtain ⟨l, hg, _⟩ := hi.write_owned h hx
    have hsame : owes S (c.store x (reg x)).mem a = owes S c.mem a := owes_same hl fun y hy => by
      refine Function.update_of_ne ?_ _ _
      rintro rfl
      rw [hg] at hy
      cases hy
    refine other ?_
    have h1 : (ws.filter fun y => y ≠ x).length < ws.length :=
      List.length_filter_lt_length_iff_exists.2 ⟨x, hx, by simp⟩
    rw [h, hsame]
    show 1 + _ + _ + _ < 1 + _ + _ + _
    omega
  | release reg l ls h =>
    refine other ?_
    rw [h]
    show 1 + 0 + ls.length + owes S c.mem a < 1 + 0 + (ls.length + 1) + owes S c.mem a
    omega
  | exit reg h =>
    refine other ?_
    rw [h]
    show 0 + _ < 1 + 0 + 0 + _
    omega
  | sync m reg h hs =>
    rcases ha with ha | ha
    · exact absurd h ha
    · refine other ?_
      · have h1 : owes S m a = 0 := if_pos (hf.frees a c.mem m hs)
        have h2 : owes S c.mem a = 10 := if_neg ha
        have h3 : ((S.held a c.mem).filter fun l => l ∉ S.held a m).length ≤ 1 :=
          (List.length_filter_le _ _).trans (hf.held _ _)
        rw [h, h1, h2]
        show 1 + 0 + _ + 0 < 0 + 10
        omega

/-- Every step of an agent that is in a section, or holds a mutex, brings the end of the sections nearer. -/
theorem remaining_lt (hl : Laws S rank top) {agents : List A} (hf : Short S agents) {c c' : Config A L X V} (hi : Inv S c)
    {a : A} (hm : a ∈ agents) (ha : c.prog a ≠ .out ∨ S.held a c.mem ≠ []) (hs : Step S a c c') :
    remaining S agents c' < remaining S agents c :=
  sum_lt hf.nodup hm (fun _ hb => left_other hl hi hb hs) (left_lt hl hf hi ha hs)

theorem Drains.first {c c' c'' : Config A L X V} {a : A}
    (ha : c.prog a ≠ .out ∨ ∃ l, c.owner l = some a) (hs : Step S a c c') (h : Drains S c' c'') : Drains S c c'' := by
  induction h with
  | refl => exact .step a .refl ha hs
  | step b _ hb h ih => exact .step b ih hb h

/-- An agent between two sections that owns a mutex holds it. -/
theorem Inv.held_of_owner {c : Config A L X V} (hi : Inv S c) {a : A} {l : L} (ho : c.prog a = .out)
    (h : c.owner l = some a) : l ∈ S.held a c.mem := by
  have := (hi.own a l).2 h
  unfold holds at this
  rw [ho] at this
  change l ∈ S.held a c.mem ++ [] at this
  rwa [List.append_nil] at this

/-- An agent that is not there neither is in a section nor holds a mutex. -/
theorem Short.mem {agents : List A} (hl : Laws S rank top) (hf : Short S agents) {c₀ c : Config A L X V}
    (h0 : ∀ a, c₀.prog a = .out) (h : Reachable S c₀ c) {a : A} (ha : c.prog a ≠ .out ∨ S.held a c.mem ≠ []) :
    a ∈ agents := by
  by_contra hn
  rcases ha with ha | ha
  · exact ha (hf.out h0 h hn)
  · exact (hf.absent a hn c.mem).2 (hl.busy a c.mem ha (hf.absent a hn c.mem).1)

/-- All sections can be brought to an end without beginning new ones. -/
theorem Short.drains {agents : List A} (hl : Laws S rank top) (hf : Short S agents) {c₀ c : Config A L X V} (hi : Inv S c₀)
    (h0 : ∀ a, c₀.prog a = .out) (h : Reachable S c₀ c) (hx : ∀ c', Reachable S c₀ c' → ¬ Fails S c') :
    ∃ c', Drains S c c' ∧ (∀ a, c'.prog a = .out) ∧ ∀ l, c'.owner l = none := by
  generalize hn : remaining S agents c = n
  induction n using Nat.strong_induction_on generalizing c with
  | _ n ih =>
    have hc := hi.reachable hl h
    have step : ∀ b c', Step S b c c' → (c.prog b ≠ .out ∨ S.held b c.mem ≠ []) →
        ∃ c'', Drains S c c'' ∧ (∀ a, c''.prog a = .out) ∧ ∀ l, c''.owner l = none := by
      intro b c' hs hb
      obtain ⟨c'', h1, h2⟩ := ih _ (hn ▸ remaining_lt hl hf hc (hf.mem hl h0 h hb) hb hs) (.step b h hs) rfl
      refine ⟨c'', .first ?_ hs h1, h2⟩
      rcases hb with hb | hb
      · exact Or.inl hb
      · obtain ⟨l, hl⟩ := List.exists_mem_of_ne_nil _ hb
        exact Or.inr ⟨l, (hc.own b l).1 (List.mem_append_left _ hl)⟩
    by_cases ho : ∀ a, c.prog a = .out
    · by_cases hp : ∃ a, S.held a c.mem ≠ []
      · obtain ⟨a, hp⟩ := hp
        obtain ⟨s, hs⟩ := hl.busy a c.mem hp (hf.rests a c.mem hp)
        exact step a _ (.sync c s c.mem (ho a) hs) (Or.inr hp)
      · refine ⟨c, .refl, ho, fun l => ?_⟩
        cases hw : c.owner l with
        | none => rfl
        | some a => exact absurd ⟨a, List.ne_nil_of_mem (hc.held_of_owner (ho a) hw)⟩ hp
    · push Not at ho
      obtain ⟨a, ha⟩ := ho
      rcases hc.progress hl ha with h' | ⟨b, c', hs, hb⟩
      · exact absurd h' (hx c h)
      · exact step b c' hs hb

/-- There are finitely many steps of this kind. -/
theorem Short.finite {agents : List A} (hl : Laws S rank top) (hf : Short S agents) {c₀ c : Config A L X V} (hi : Inv S c₀)
    (h0 : ∀ a, c₀.prog a = .out) (h : Reachable S c₀ c) :
    ¬ ∃ (σ : Nat → Config A L X V) (who : Nat → A), σ 0 = c ∧
      ∀ n, ((σ n).prog (who n) ≠ .out ∨ ∃ l, (σ n).owner l = some (who n)) ∧ Step S (who n) (σ n) (σ (n + 1)) := by
  rintro ⟨σ, who, he, hs⟩
  have hr : ∀ n, Reachable S c₀ (σ n) := by
    intro n
    induction n with
    | zero => rw [he]; exact h
    | succ n ih => exact .step _ ih (hs n).2
  have hlt : ∀ n, remaining S agents (σ (n + 1)) < remaining S agents (σ n) := by
    intro n
    have hb : (σ n).prog (who n) ≠ .out ∨ S.held (who n) (σ n).mem ≠ [] := by
      rcases (hs n).1 with h1 | ⟨l, h1⟩
      · exact Or.inl h1
      · by_cases ho : (σ n).prog (who n) = .out
        · exact Or.inr (List.ne_nil_of_mem ((hi.reachable hl (hr n)).held_of_owner ho h1))
        · exact Or.inl ho
    exact remaining_lt hl hf (hi.reachable hl (hr n)) (hf.mem hl h0 (hr n) hb) hb (hs n).2
  have hbound : ∀ n, remaining S agents (σ n) + n ≤ remaining S agents (σ 0) := by
    intro n
    induction n with
    | zero => exact Nat.le_refl _
    | succ n ih =>
      have := hlt n
      omega
  have := hbound (remaining S agents (σ 0) + 1)
  omega

end Locks
end Hycu
