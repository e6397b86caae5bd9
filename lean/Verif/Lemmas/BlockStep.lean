import Verif.Lemmas.BlockInit

/-
`step_` is the step of an odometer.
-/

namespace Hycu
namespace BlockIterator

/-- Wheel of a range. -/
def blockWheel (bl : OMap Nat (Nat × Nat × Nat)) (px : Nat) : Wheel where
  px := px
  first := ((bl.find? px).getD (0, 0, 0)).1
  next := fun t =>
    let b := (bl.find? px).getD (0, 0, 0)
    if u32 (t.getD px 0 + b.2.2) ≥ b.2.1 then none else some (u32 (t.getD px 0 + b.2.2))
  digits := fun _ =>
    let b := (bl.find? px).getD (0, 0, 0)
    (List.range ((b.2.1 - b.1 + b.2.2 - 1) / b.2.2)).map fun k => b.1 + k * b.2.2

/-- Wheel of a set. -/
def setWheel (sets : OMap Nat (List Nat)) (px : Nat) : Wheel where
  px := px
  first := 0
  next := fun t =>
    if u32 (t.getD px 0 + 1) ≥ ((sets.find? px).getD []).length then none
    else some (u32 (t.getD px 0 + 1))
  digits := fun _ => List.range ((sets.find? px).getD []).length

/-- Wheel of a dependent set. -/
def depWheel (deps : OMap Nat (Nat × OMap Nat (List Nat))) (px : Nat) : Wheel where
  px := px
  first := 0
  next := fun t =>
    let d := (deps.find? px).getD (0, [])
    if u32 (t.getD px 0 + 1) ≥ ((d.2.find? (t.getD d.1 0)).getD []).length then none
    else some (u32 (t.getD px 0 + 1))
  digits := fun t =>
    let d := (deps.find? px).getD (0, [])
    List.range ((d.2.find? (t.getD d.1 0)).getD []).length

/-- Where the odometer stands after overflow. -/
def resetW : List Wheel → List Nat → List Nat
  | [], t => t
  | w :: ws, t => resetW ws (t.set w.px w.first)

/-- The outcome of a step in terms of the odometer. -/
def finish (it : BlockIterator) (ws : List Wheel) : BlockIterator :=
  match stepW ws it.position with
  | some t => { it with position := t }
  | none => { it with position := resetW ws it.position, hasReachedEnd := true }

theorem finish_cons_none {it : BlockIterator} {w : Wheel} {ws : List Wheel}
    (h : w.next it.position = none) :
    finish it (w :: ws) = finish { it with position := it.position.set w.px w.first } ws := by
  simp only [finish, stepW, h, resetW]

theorem finish_cons_some {it : BlockIterator} {w : Wheel} {ws : List Wheel} {x : Nat}
    (h : w.next it.position = some x) :
    finish it (w :: ws) = { it with position := it.position.set w.px x } := by
  simp only [finish, stepW, h]

theorem rd_eq_getD {t : List Nat} {i : Nat} (h : i < t.length) : rd t i = .ok (t.getD i 0) := by
  rw [rd_of_lt h]
  simp [h]

theorem stepBlocks_eq (it : BlockIterator) (l : List Nat) (hl : l ≠ [])
    (hp : ∀ i ∈ l, i < it.position.length) :
    stepBlocks it l = .ok (finish it (l.map (blockWheel it.blocks))) := by
  induction l generalizing it with
  | nil => exact absurd rfl hl
  | cons px rest ih =>
    simp only [stepBlocks, rd_eq_getD (hp px (by simp)), Res.bind_ok, List.map_cons]
    split
    · rename_i h
      rw [finish_cons_none (by simp only [blockWheel]; rw [if_pos h])]
      cases rest with
      | nil =>
        simp only [List.isEmpty_nil, if_true, List.map_nil, finish, stepW, resetW, blockWheel]
      | cons a rest =>
        simp only [List.isEmpty_cons, Bool.false_eq_true, if_false]
        rw [ih _ (by simp) (by
          intro i hi
          simp only [List.length_set]
          exact hp i (by simp [hi]))]
        rfl
    · rename_i h
      rw [finish_cons_some (by simp only [blockWheel]; rw [if_neg h])]
      rfl

theorem stepSets_eq (it : BlockIterator) (l : List Nat) (hl : l ≠ [])
    (hp : ∀ i ∈ l, i < it.position.length) (hb : ∀ i ∈ it.orderBlocks, i < it.position.length) :
    stepSets it l = .ok (finish it (l.map (setWheel it.sets) ++
      it.orderBlocks.map (blockWheel it.blocks))) := by
  induction l generalizing it with
  | nil => exact absurd rfl hl
  | cons px rest ih =>
    simp only [stepSets, rd_eq_getD (hp px (by simp)), Res.bind_ok, List.map_cons, List.cons_append]
    split
    · rename_i h
      rw [finish_cons_none (by simp only [setWheel]; rw [if_pos h])]
      cases rest with
      | nil =>
        simp only [List.isEmpty_nil, Bool.not_true, Bool.false_eq_true, if_false, List.map_nil,
          List.nil_append]
        split
        · rename_i hne
          rw [stepBlocks_eq _ _ (by simpa using hne) (by simpa using hb)]
          rfl
        · rename_i hne
          have hne : it.orderBlocks = [] := by simpa using hne
          simp only [hne, List.map_nil, finish, stepW, resetW, setWheel]
      | cons a rest =>
        simp only [List.isEmpty_cons, Bool.not_false, if_true]
        rw [ih _ (by simp) (by
          intro i hi
          simp only [List.length_set]
          exact hp i (by simp [hi])) (by simpa using hb)]
        rfl
    · rename_i h
      rw [finish_cons_some (by simp only [setWheel]; rw [if_neg h])]
      rfl

theorem stepDeps_eq (it : BlockIterator) (l : List Nat) (hl : l ≠ [])
    (hp : ∀ i ∈ l, i < it.position.length) (hb : ∀ i ∈ it.orderBlocks, i < it.position.length)
    (hs : ∀ i ∈ it.orderSets, i < it.position.length)
    (hc : ∀ i ∈ l, ∃ j M, it.deps.find? i = some (j, M) ∧ j ≠ i ∧ j < it.position.length) :
    stepDeps it l = .ok (finish it (l.map (depWheel it.deps) ++
      (it.orderSets.map (setWheel it.sets) ++ it.orderBlocks.map (blockWheel it.blocks)))) := by
  induction l generalizing it with
  | nil => exact absurd rfl hl
  | cons px rest ih =>
    obtain ⟨j, M, hf, hj, hjl⟩ := hc px (by simp)
    have hget : (it.position.set px (u32 (it.position.getD px 0 + 1))).getD j 0 =
        it.position.getD j 0 := by
      simp only [List.getD_eq_getElem?_getD]
      rw [List.getElem?_set_ne (Ne.symm hj)]
    have hrd : rd (it.position.set px (u32 (it.position.getD px 0 + 1))) j =
        .ok (it.position.getD j 0) := by
      rw [rd_eq_getD (by rw [List.length_set]; exact hjl), hget]
    simp only [stepDeps, rd_eq_getD (hp px (by simp)), Res.bind_ok, List.map_cons, List.cons_append,
      hf, Option.getD_some, hrd]
    split
    · rename_i h
      rw [finish_cons_none (by simp only [depWheel, hf, Option.getD_some]; rw [if_pos h])]
      cases rest with
      | nil =>
        simp only [List.isEmpty_nil, Bool.not_true, Bool.false_eq_true, if_false, List.map_nil,
          List.nil_append, List.set_set]
        split
        · rename_i hne
          rw [stepSets_eq _ _ (by simpa using hne) (by simpa using hs) (by simpa using hb)]
          rfl
        · rename_i hne
          have hne : it.orderSets = [] := by simpa using hne
          simp only [hne, List.map_nil, List.nil_append]
          split
          · rename_i hne
            rw [stepBlocks_eq _ _ (by simpa using hne) (by simpa using hb)]
            rfl
          · rename_i hne
            have hne : it.orderBlocks = [] := by simpa using hne
            simp only [hne, List.map_nil, finish, stepW, resetW, depWheel]
      | cons a rest =>
        simp only [List.isEmpty_cons, Bool.not_false, if_true, List.set_set]
        rw [ih _ (by simp) (by
          intro i hi
          simp only [List.length_set]
          exact hp i (by simp [hi])) (by simpa using hb) (by simpa using hs) (by
          intro i hi
          simp only [List.length_set]
          exact hc i (by simp [hi]))]
        rfl
    · rename_i h
      rw [finish_cons_some (by simp only [depWheel, hf, Option.getD_some]; rw [if_neg h])]
      rfl

/-- All wheels of an iterator, least significant first. -/
def wheels (it : BlockIterator) : List Wheel :=
  it.orderDeps.map (depWheel it.deps) ++
    (it.orderSets.map (setWheel it.sets) ++ it.orderBlocks.map (blockWheel it.blocks))

/-- What the constructor establishes and `step` keeps. -/
structure Shape (it : BlockIterator) : Prop where
  orderSets_eq : it.orderSets = it.sets.map Prod.fst
  orderDeps_eq : it.orderDeps = it.deps.map Prod.fst
  nonempty : it.orderDeps ≠ [] ∨ it.orderSets ≠ [] ∨ it.orderBlocks ≠ []
  lt_blocks : ∀ i ∈ it.orderBlocks, i < it.position.length
  lt_sets : ∀ i ∈ it.orderSets, i < it.position.length
  lt_deps : ∀ i ∈ it.orderDeps, i < it.position.length
  coupled : ∀ i ∈ it.orderDeps, ∃ j M, it.deps.find? i = some (j, M) ∧ j ≠ i ∧
    j < it.position.length

theorem step_eq (it : BlockIterator) (hs : Shape it) (he : it.hasReachedEnd = false) :
    it.step = .ok (finish it it.wheels) := by
  unfold step wheels
  simp only [he, Bool.false_eq_true, if_false]
  split
  · rename_i h
    rw [stepDeps_eq it it.orderDeps (by rw [hs.orderDeps_eq]; simpa using h) hs.lt_deps hs.lt_blocks
      hs.lt_sets hs.coupled]
  · rename_i h
    have hd : it.orderDeps = [] := by rw [hs.orderDeps_eq]; simpa using h
    rw [hd]
    simp only [List.map_nil, List.nil_append]
    split
    · rename_i h
      rw [stepSets_eq it it.orderSets (by rw [hs.orderSets_eq]; simpa using h) hs.lt_sets hs.lt_blocks]
    · rename_i h
      have hse : it.orderSets = [] := by rw [hs.orderSets_eq]; simpa using h
      rw [hse]
      simp only [List.map_nil, List.nil_append]
      rw [stepBlocks_eq it it.orderBlocks ?_ hs.lt_blocks]
      rcases hs.nonempty with h | h | h
      · exact absurd hd h
      · exact absurd hse h
      · exact h

theorem length_stepW {ws : List Wheel} {t t' : List Nat} (h : stepW ws t = some t') :
    t'.length = t.length := by
  induction ws generalizing t with
  | nil => cases h
  | cons w ws ih =>
    unfold stepW at h
    split at h
    · cases h; rw [List.length_set]
    · rw [ih h, List.length_set]

theorem Shape.withPosition {it : BlockIterator} (hs : Shape it) {t : List Nat}
    (h : t.length = it.position.length) : Shape { it with position := t } where
  orderSets_eq := hs.orderSets_eq
  orderDeps_eq := hs.orderDeps_eq
  nonempty := hs.nonempty
  lt_blocks := by simpa [h] using hs.lt_blocks
  lt_sets := by simpa [h] using hs.lt_sets
  lt_deps := by simpa [h] using hs.lt_deps
  coupled := by simpa [h] using hs.coupled

/-- The visiting loop runs along the trace of the odometer. -/
theorem visits_trace {α : Type} (visit : BlockIterator → Res α) (it : BlockIterator)
    (hs : Shape it) (he : it.hasReachedEnd = false) {s : List Nat} {L : List (List Nat)}
    (hlen : s.length = it.position.length) (htr : Trace (stepW it.wheels) s L)
    (g : List Nat → α) (hv : ∀ t ∈ L, visit { it with position := t } = .ok (g t)) :
    ∀ n, L.length < n → visits visit n { it with position := s } = .ok (L.map g) := by
  induction htr with
  | @last t ht =>
    intro n hn
    obtain ⟨m, rfl⟩ : ∃ m, n = m + 2 := ⟨n - 2, by simp at hn; omega⟩
    unfold visits
    rw [if_neg (by simp [isEnd, he]), hv t (by simp), Res.bind_ok]
    rw [step_eq _ (hs.withPosition hlen) he]
    simp only [finish, Res.bind_ok]
    have : stepW (wheels { it with position := t }) t = none := ht
    rw [this]
    simp [visits, isEnd]
  | @cons t t' l ht htr ih =>
    intro n hn
    obtain ⟨m, rfl⟩ : ∃ m, n = m + 1 := ⟨n - 1, by simp at hn; omega⟩
    unfold visits
    rw [if_neg (by simp [isEnd, he]), hv t (by simp), Res.bind_ok]
    rw [step_eq _ (hs.withPosition hlen) he]
    simp only [finish, Res.bind_ok]
    have : stepW (wheels { it with position := t }) t = some t' := ht
    rw [this]
    simp only
    rw [ih (by rw [length_stepW ht, hlen]) (fun u hu => hv u (by simp [hu])) m (by simp at hn; omega)]
    simp

/-- `n` calls of `step`. -/
def stepN : Nat → BlockIterator → Res BlockIterator
  | 0, it => .ok it
  | n + 1, it => do
    let it' ← it.step
    stepN n it'

theorem stepN_trace (it : BlockIterator) (hs : Shape it) (he : it.hasReachedEnd = false)
    {s : List Nat} {L : List (List Nat)} (hlen : s.length = it.position.length)
    (htr : Trace (stepW it.wheels) s L) :
    (∀ k, (hk : k < L.length) → stepN k { it with position := s } = .ok { it with position := L[k] }) ∧
    ∀ k, L.length ≤ k → ∃ t, stepN k { it with position := s } =
      .ok { it with position := t, hasReachedEnd := true } := by
  have hfix : ∀ (k : Nat) (j : BlockIterator), j.hasReachedEnd = true → stepN k j = .ok j := by
    intro k
    induction k with
    | zero => intro j _; rfl
    | succ k ih =>
      intro j hj
      have : j.step = .ok j := by unfold step; rw [if_pos hj]
      simp only [stepN, this, Res.bind_ok]
      exact ih j hj
  induction htr with
  | @last t ht =>
    constructor
    · intro k hk
      simp at hk
      subst hk
      rfl
    · intro k hk
      obtain ⟨m, rfl⟩ : ∃ m, k = m + 1 := ⟨k - 1, by simp at hk; omega⟩
      simp only [stepN]
      rw [step_eq _ (hs.withPosition hlen) he]
      simp only [finish, Res.bind_ok]
      have : stepW (wheels { it with position := t }) t = none := ht
      rw [this]
      exact ⟨_, hfix _ _ rfl⟩
  | @cons t t' l ht htr ih =>
    have hst : ∀ m, stepN (m + 1) { it with position := t } =
        stepN m { it with position := t' } := by
      intro m
      simp only [stepN]
      rw [step_eq _ (hs.withPosition hlen) he]
      simp only [finish, Res.bind_ok]
      have : stepW (wheels { it with position := t }) t = some t' := ht
      rw [this]
    obtain ⟨h1, h2⟩ := ih (by rw [length_stepW ht, hlen])
    constructor
    · intro k hk
      cases k with
      | zero => rfl
      | succ k =>
        rw [hst, h1 k (by simpa using hk)]
        simp
    · intro k hk
      obtain ⟨m, rfl⟩ : ∃ m, k = m + 1 := ⟨k - 1, by simp at hk; omega⟩
      rw [hst]
      exact h2 m (by simpa using hk)

end BlockIterator
end Hycu
