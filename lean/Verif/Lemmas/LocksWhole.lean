import Verif.Lemmas.Locks

/-!
Sections without interruptions.
-/

namespace Hycu
namespace Locks

variable {A L X C : Type} {V : X → Type} [DecidableEq A] [DecidableEq L] [DecidableEq X]

variable {S : System A L X C V} {rank : L → Nat} {top : Nat}

set_option linter.unusedSectionVars false

theorem Reachable.trans {c₀ c c' : Config A L X V} (h : Reachable S c₀ c) (h' : Reachable S c c') : Reachable S c₀ c' := by
  induction h' with
  | refl => exact h
  | step a _ hs ih => exact .step a ih hs
  | scribble _ hs ih => exact .scribble ih hs

theorem Reachable.one {c c' : Config A L X V} {a : A} (h : Step S a c c') : Reachable S c c' := .step a .refl h

theorem go_go (c : Config A L X V) (a : A) (p q : Prog L X V) : (c.go a p).go a q = c.go a q := by
  unfold Config.go
  rw [Function.update_idem]

/-- Steps of one agent inside of a section. -/
inductive Within (S : System A L X C V) (a : A) (c : Config A L X V) : Config A L X V → Prop
  | refl : Within S a c c
  | step {d e : Config A L X V} (h : Within S a c d) (hp : d.prog a ≠ .out) (hs : Step S a d e) : Within S a c e

theorem Within.trans {a : A} {c d e : Config A L X V} (h : Within S a c d) (h' : Within S a d e) : Within S a c e := by
  induction h' with
  | refl => exact h
  | step _ hp hs ih => exact .step ih hp hs

theorem Within.one {a : A} {c d : Config A L X V} (h : Step S a c d) {p : Prog L X V} (hp : c.prog a = p) (ho : p ≠ .out) :
    Within S a c d := .step .refl (by rw [hp]; exact ho) h

theorem Within.reachable {a : A} {c d : Config A L X V} (h : Within S a c d) : Reachable S c d := by
  induction h with
  | refl => exact .refl
  | step _ _ hs ih => exact .step a ih hs

/-- The instructions in front of the computation, if all mutexes are free. -/
theorem before (hl : Laws S rank top) {c : Config A L X V} {a : A}
    (hf : ∀ l ∈ locks (S.plan a c.mem), c.owner l = none) (k : Nat) (hk : k ≤ (S.plan a c.mem).length) :
    Within S a (c.go a (.entering 0 c.mem)) { c.go a (.entering k c.mem) with
      owner := fun l => if l ∈ locks ((S.plan a c.mem).take k) then some a else c.owner l } := by
  induction k with
  | zero => exact .refl
  | succ k ih =>
    refine (ih (by omega)).trans ?_
    set d : Config A L X V := { c.go a (.entering k c.mem) with
      owner := fun l => if l ∈ locks ((S.plan a c.mem).take k) then some a else c.owner l } with hd
    have hp : d.prog a = .entering k c.mem := go_prog ..
    have hi : (S.plan a c.mem)[k]? = some ((S.plan a c.mem)[k]) := List.getElem?_eq_getElem hk
    cases hx : (S.plan a c.mem)[k] with
    | acquire l =>
      rw [hx] at hi
      have hnot : l ∉ locks ((S.plan a c.mem).take k) := fun h =>
        absurd (hl.rank_lt _ _ _ _ hi l (List.mem_append_right _ h)) (Nat.lt_irrefl _)
      have hmem : l ∈ locks (S.plan a c.mem) :=
        List.mem_filterMap.2 ⟨_, List.mem_of_getElem? hi, rfl⟩
      have h := Within.one (Step.acquire d k c.mem l hp hi (by
        rw [hd]
        show (if l ∈ locks ((S.plan a c.mem).take k) then some a else c.owner l) = none
        rw [if_neg hnot]
        exact hf l hmem)) hp (by simp)
      convert h using 1
      rw [hd]
      unfold Config.go
      simp only [Function.update_idem, Config.mk.injEq, true_and, and_true]
      funext l'
      simp only [take_get hi, locks_append, show locks [(Instr.acquire l : Instr L X)] = [l] from rfl]
      by_cases he : l' = l
      · subst he
        rw [if_pos (by simp), Function.update_self]
      · rw [Function.update_of_ne he]
        simp only [List.mem_append, List.mem_singleton, he, or_false]
    | read x =>
      rw [hx] at hi
      have h := Within.one (Step.read d k c.mem x hp hi) hp (by simp)
      convert h using 1
      rw [hd]
      unfold Config.go
      simp only [Function.update_idem, Config.mk.injEq, true_and]
      refine ⟨?_, ?_⟩
      · funext l'
        simp only [take_get hi, locks_append, show locks [(Instr.read x : Instr L X)] = [] from rfl, List.append_nil]
      · rw [Function.update_eq_self]

/-- The results are written. -/
theorem writing {a : A} (reg : (x : X) → V x) (ls : List L) (n : Nat) : ∀ (ws : List X) (c : Config A L X V), ws.length ≤ n →
    c.prog a = .leaving ws reg ls →
    Within S a c { c.go a (.leaving [] reg ls) with mem := fun x => if x ∈ ws then reg x else c.mem x } := by
  induction n with
  | zero =>
    intro ws c hn h
    obtain rfl : ws = [] := List.length_eq_zero_iff.1 (by omega)
    convert Within.refl (S := S) (a := a) (c := c) using 1
    unfold Config.go
    rw [← h, Function.update_eq_self]
    simp
  | succ n ih =>
    intro ws c hn h
    cases ws with
    | nil =>
      convert Within.refl (S := S) (a := a) (c := c) using 1
      unfold Config.go
      rw [← h, Function.update_eq_self]
      simp
    | cons x ws =>
      refine (Within.one (Step.write c (x :: ws) reg ls x h List.mem_cons_self) h (by simp)).trans ?_
      have hlen : ((x :: ws).filter fun y => y ≠ x).length ≤ n := by
        rw [List.filter_cons_of_neg (by simp)]
        have := List.length_filter_le (fun y => decide (y ≠ x)) ws
        simp only [List.length_cons] at hn
        omega
      have h2 := ih _ ((c.store x (reg x)).go a (.leaving ((x :: ws).filter fun y => y ≠ x) reg ls)) hlen (go_prog ..)
      convert h2 using 1
      unfold Config.go Config.store
      simp only [Function.update_idem, Config.mk.injEq, and_true]
      funext y
      by_cases hy : y = x
      · subst hy
        simp
      · simp [hy]

/-- Mutexes are released. -/
theorem releasing {a : A} (reg : (x : X) → V x) : ∀ (ls : List L) (c : Config A L X V),
    c.prog a = .leaving [] reg ls → ∃ o, Within S a c { c.go a .out with owner := o } := by
  intro ls
  induction ls with
  | nil =>
    intro c h
    exact ⟨c.owner, .one (.exit c reg h) h (by simp)⟩
  | cons l ls ih =>
    intro c h
    obtain ⟨o, ho⟩ := ih { c.go a (.leaving [] reg ls) with owner := Function.update c.owner l none } (go_prog ..)
    refine ⟨o, (Within.one (.release c reg l ls h) h (by simp)).trans ?_⟩
    convert ho using 1
    unfold Config.go
    simp only [Function.update_idem]

/-- A section without interruptions. -/
theorem section_within (hl : Laws S rank top) {c : Config A L X V} {a : A} {ch : C} {s : (x : X) → V x} (ho : c.prog a = .out)
    (hr : ¬ S.rest a c.mem) (hf : ∀ l ∈ locks (S.plan a c.mem), c.owner l = none) (hs : S.act a ch c.mem = .ok (some s)) :
    ∃ c', Step S a c (c.go a (.entering 0 c.mem)) ∧ Within S a (c.go a (.entering 0 c.mem)) c' ∧ c'.mem = s ∧
      c'.prog = c.prog := by
  have h1 := before hl hf _ (Nat.le_refl _)
  set d : Config A L X V := { c.go a (.entering (S.plan a c.mem).length c.mem) with
    owner := fun l => if l ∈ locks ((S.plan a c.mem).take (S.plan a c.mem).length) then some a else c.owner l } with hd
  have h2 := Step.compute d (S.plan a c.mem).length c.mem s ch (go_prog ..) rfl hs
  set e := (d.setPrivate S a s).go a (.leaving (S.touched a c.mem) s
    ((S.held a c.mem ++ locks (S.plan a c.mem)).filter fun l => l ∉ S.held a s)) with he
  have h3 := writing (S := S) (a := a) s ((S.held a c.mem ++ locks (S.plan a c.mem)).filter fun l => l ∉ S.held a s) _
    (S.touched a c.mem) e (Nat.le_refl _) (go_prog ..)
  set f : Config A L X V := { e.go a (.leaving [] s ((S.held a c.mem ++ locks (S.plan a c.mem)).filter fun l => l ∉ S.held a s)) with
    mem := fun x => if x ∈ S.touched a c.mem then s x else e.mem x } with hf'
  obtain ⟨o, h4⟩ := releasing (S := S) s _ f (go_prog ..)
  refine ⟨_, .enter c c.mem ho hr fun _ _ => rfl, ((h1.trans (.one h2 (go_prog ..) (by simp))).trans h3).trans h4, ?_, ?_⟩
  · obtain ⟨t, ht, _, _, hfr⟩ := hl.act_frame a ch c.mem c.mem s hr (fun _ _ => rfl) (fun _ _ => rfl) hs
    rw [hs] at ht
    cases ht
    show (fun x => if x ∈ S.touched a c.mem then s x else e.mem x) = s
    funext x
    split
    · rfl
    · next hx =>
      show (if S.guard x = .inr a then s x else c.mem x) = s x
      split
      · rfl
      · next hg => exact (hfr x hg hx).symm
  · show Function.update (Function.update (Function.update (Function.update c.prog a _) a _) a _) a _ = c.prog
    rw [Function.update_idem, Function.update_idem, Function.update_idem, ← ho, Function.update_eq_self]

@[inherit_doc section_within]
theorem whole (hl : Laws S rank top) {c : Config A L X V} {a : A} {ch : C} {s : (x : X) → V x} (ho : c.prog a = .out)
    (hr : ¬ S.rest a c.mem) (hf : ∀ l ∈ locks (S.plan a c.mem), c.owner l = none) (hs : S.act a ch c.mem = .ok (some s)) :
    ∃ c', Reachable S c c' ∧ c'.mem = s ∧ c'.prog = c.prog := by
  obtain ⟨c', h1, h2, h3⟩ := section_within hl ho hr hf hs
  exact ⟨c', (Reachable.one h1).trans h2.reachable, h3⟩

/-- A notification or a join, and the release of the mutexes. -/
theorem sync_within {c : Config A L X V} {a : A} {m : (x : X) → V x} (ho : c.prog a = .out) (hs : S.sync a c.mem m) :
    ∃ d c', Step S a c d ∧ Within S a d c' ∧ c'.mem = m ∧ c'.prog = c.prog := by
  have h1 := Step.sync c m m ho hs
  obtain ⟨o, h2⟩ := releasing (S := S) m _ _ (go_prog { c with mem := m } a
    (.leaving [] m ((S.held a c.mem).filter fun l => l ∉ S.held a m)))
  refine ⟨_, _, h1, h2, rfl, ?_⟩
  show Function.update (Function.update c.prog a _) a _ = c.prog
  rw [Function.update_idem, ← ho, Function.update_eq_self]

@[inherit_doc sync_within]
theorem syncing {c : Config A L X V} {a : A} {m : (x : X) → V x} (ho : c.prog a = .out) (hs : S.sync a c.mem m) :
    ∃ c', Reachable S c c' ∧ c'.mem = m ∧ c'.prog = c.prog := by
  obtain ⟨d, c', h1, h2, h3⟩ := sync_within ho hs
  exact ⟨c', (Reachable.one h1).trans h2.reachable, h3⟩

end Locks
end Hycu
