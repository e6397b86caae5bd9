import Verif.Lemmas.Pos
import Verif.Lemmas.PoolDone

/-!
Executions in which every thread makes a step again and again, or is not able to again and again: with additional steps that
have no effect they are executions in the sense of `Run.Exec`.
-/

namespace Hycu
namespace Run

variable {env : Env} {st₀ : State}

/-- The destructor is called from the main loop. -/
theorem leaving_from {st st' : State} {l : Label} (hs : step env st l = .ok (some st'))
    (hl : st'.pc.leaving = true) : st'.todo = st.todo ∧ (st.pc.leaving = true ∨ st'.pc = .wait .exit) := by
  have hafter : ∀ k, (afterSave k).leaving = true → k = .exit := by
    intro k hk
    cases k <;> first | rfl | cases hk
  have ht := step_trans hs
  generalize l.actor = a at ht
  clear hs
  cases ht with
  | mainEnd hpc ht => exact ⟨rfl, Or.inr rfl⟩
  | mainConfig hpc c rest ht create v hv =>
    obtain ⟨f, ok⟩ := v
    cases ok
    · exact ⟨rfl, Or.inr rfl⟩
    · cases hl
  | mainAssign hpc b rest ht now => cases now <;> cases hl
  | wait k hpc a ha =>
    refine ⟨rfl, Or.inl ?_⟩
    rw [hpc]
    dsimp only at hl
    split at hl
    · cases k <;> first | rfl | cases hl
    · exact hl
  | saveNone k hpc hf => exact ⟨rfl, Or.inl (by rw [hpc, hafter k hl]; rfl)⟩
  | saveLost k hpc f hf h => exact ⟨rfl, Or.inl (by rw [hpc, hafter k hl]; rfl)⟩
  | saveStart k hpc f hf hv d hd id hid => exact ⟨rfl, Or.inl (by rw [hpc]; cases k <;> first | rfl | cases hl)⟩
  | writeEnd k hpc => exact ⟨rfl, Or.inl (by rw [hpc, hafter k hl]; rfl)⟩
  | writeLost k n c ws hpc h => exact ⟨rfl, Or.inl (by rw [hpc]; cases k <;> first | rfl | cases hl)⟩
  | write k n c ws hpc f hf d hd => exact ⟨rfl, Or.inl (by rw [hpc]; cases k <;> first | rfl | cases hl)⟩
  | fillReady hpc =>
    unfold fillReadyStep at hl
    simp only at hl
    split at hl <;> cases hl
  | shutdown i hpc hi => exact ⟨rfl, Or.inl (by rw [hpc]; rfl)⟩
  | shutdownEnd i hpc hi => exact ⟨rfl, Or.inl (by rw [hpc]; rfl)⟩
  | shutNotify i hpc =>
    refine ⟨?_, Or.inl (by rw [hpc]; rfl)⟩
    show (wake st i).todo = _
    unfold wake
    split <;> rfl
  | join i hpc hp => exact ⟨rfl, Or.inl (by rw [hpc]; rfl)⟩
  | newStoreInvalid | newStore | update | skip | fill | noFill | fillFinished | takeOpencl | takeCpu | notify | insert => cases hl
  | checkDone | checkWait | checkPop | doze | pop | compute | report | spurious => exact ⟨rfl, Or.inl hl⟩

theorem Exec.todo_nil {σ : Nat → State} {ls : Nat → Label} (h : Exec env st₀ σ ls)
    (h0 : st₀.pc.leaving = false) (hc : ∀ n, (σ n).pc = .wait .exit → (σ n).todo = []) (n : Nat)
    (hl : (σ n).pc.leaving = true) : (σ n).todo = [] := by
  induction n with
  | zero =>
    rw [h.start, h0] at hl
    cases hl
  | succ n ih =>
    rcases h.next n with h1 | ⟨_, h1⟩
    · obtain ⟨h2, h3 | h3⟩ := leaving_from h1 hl
      · rw [h2]
        exact ih h3
      · exact hc _ h3
    · rw [h1] at hl ⊢
      exact ih hl

/-- Threads in turn. -/
noncomputable def turnLabel (st : State) : Nat → Label
  | 0 => .master ⟨false, true, newId st⟩
  | i + 1 => .thread i

/-- Steps that are not possible lose no notification. -/
theorem alert_of_none {st : State} {j : Nat} (h : step env st (turnLabel st j) = .ok none) : Alert st (turnLabel st j) := by
  cases j with
  | succ i => trivial
  | zero =>
    intro i hi
    change masterStep st _ = _ at h
    unfold masterStep at h
    rcases hi with hi | ⟨b, hi⟩ <;> rw [hi] at h <;> cases h

/-- A step of the main thread in which a name is needed has found one. -/
theorem fresh_of_some {st st' : State} {ch : Choice} (h : masterStep st ch = .ok (some st')) {f : FileStoreObj} {d : Dir}
    {k : Cont} (hpc : st.pc = .save k) (hf : st.fileStore = some f) (hv : f.valid = true)
    (hd : st.fs f.config.resultPath = some d) : FileStore.fresh d ch.id = true := by
  unfold masterStep at h
  rw [hpc] at h
  simp only [saveStep, hf] at h
  rw [if_pos hv, hd] at h
  simp only at h
  split at h
  · assumption
  · cases h

theorem skip_step (env : Env) (st : State) : step env st (.thread st.size) = .ok none := if_neg (lt_irrefl _)

/-- The labels of a thread. -/
def Has : Option Nat → Label → Prop
  | none, l => ∃ ch, l = .master ch
  | some i, l => l = .thread i

/-- The turn of a thread. -/
def turnOf : Option Nat → Nat
  | none => 0
  | some i => i + 1

theorem has_turn (t : Option Nat) (st : State) : Has t (turnLabel st (turnOf t)) := by
  cases t with
  | none => exact ⟨_, rfl⟩
  | some i => rfl

open Classical in
/-- With additional steps without effect all threads are scheduled again and again. -/
theorem exec_of_weak {b : Nat → State} {mv : Nat → Option Label} (h0 : b 0 = st₀)
    (hs : ∀ n l, mv n = some l → step env (b n) l = .ok (some (b (n + 1)))) (hn : ∀ n, mv n = none → b (n + 1) = b n)
    (hw : ∀ t : Option Nat, (∀ i, t = some i → i < st₀.size) → ∀ n, ∃ m, n ≤ m ∧ ((∃ l, mv m = some l ∧ Has t l) ∨
      step env (b m) (turnLabel (b m) (turnOf t)) = .ok none)) (ha : ∀ n l, mv n = some l → Alert (b n) l) :
    ∃ σ ls, Exec env st₀ σ ls ∧ (∀ n, Alert (σ n) (ls n)) ∧ Renewing σ ls ∧
      (∀ n, ∃ m, n ≤ m ∧ σ m = b n) ∧ ∀ m, ∃ n, σ m = b n := by
  let try' : Nat → Nat → Label := fun n j =>
    if step env (b n) (turnLabel (b n) j) = .ok none then turnLabel (b n) j else .thread (b n).size
  have htry : ∀ n j, step env (b n) (try' n j) = .ok none ∧ Alert (b n) (try' n j) := by
    intro n j
    by_cases h : step env (b n) (turnLabel (b n) j) = .ok none
    · have e : try' n j = turnLabel (b n) j := if_pos h
      rw [e]
      exact ⟨h, alert_of_none h⟩
    · have e : try' n j = .thread (b n).size := if_neg h
      rw [e]
      exact ⟨skip_step env (b n), trivial⟩
  let σ : Nat → State := fun m => b (pos m).1
  let ls : Nat → Label := fun m => if (pos m).2 < (pos m).1 then try' (pos m).1 (pos m).2
    else (mv (pos m).1).getD (.thread (b (pos m).1).size)
  have hlt : ∀ {n j : Nat}, j < n → ∃ m, n ≤ m ∧ σ m = b n ∧ ls m = try' n j := by
    intro n j hj
    obtain ⟨m, h1, h2⟩ := pos_at hj.le
    refine ⟨m, h1, by show b (pos m).1 = _; rw [h2], ?_⟩
    show (if _ then _ else _) = _
    rw [h2, if_pos hj]
  have heq : ∀ {n : Nat} {l : Label}, mv n = some l → ∃ m, n ≤ m ∧ σ m = b n ∧ ls m = l := by
    intro n l hl
    obtain ⟨m, h1, h2⟩ := pos_at (le_refl n)
    refine ⟨m, h1, by show b (pos m).1 = _; rw [h2], ?_⟩
    show (if _ then _ else _) = _
    rw [h2, if_neg (lt_irrefl n), hl]
    rfl
  have hturn : ∀ t : Option Nat, (∀ i, t = some i → i < st₀.size) → ∀ n, ∃ m, n ≤ m ∧ Has t (ls m) ∧
      (step env (σ m) (ls m) = .ok none → ls m = turnLabel (σ m) (turnOf t)) := by
    intro t ht n
    obtain ⟨i, h1, h2⟩ := hw t ht (max n (turnOf t + 1))
    have hi : n ≤ i ∧ turnOf t < i := ⟨(le_max_left _ _).trans h1, (le_max_right _ _).trans h1⟩
    rcases h2 with ⟨l, h2, h3⟩ | h2
    · obtain ⟨m, h4, h5, h6⟩ := heq h2
      refine ⟨m, hi.1.trans h4, by rw [h6]; exact h3, fun h7 => ?_⟩
      rw [h5, h6, hs i l h2] at h7
      cases h7
    · obtain ⟨m, h4, h5, h6⟩ := hlt hi.2
      have h7 : try' i (turnOf t) = turnLabel (b i) (turnOf t) := if_pos h2
      exact ⟨m, hi.1.trans h4, by rw [h6, h7]; exact has_turn t _, fun _ => by rw [h5, h6, h7]⟩
  have hnext : ∀ m, step env (σ m) (ls m) = .ok (some (σ (m + 1))) ∨
      (step env (σ m) (ls m) = .ok none ∧ σ (m + 1) = σ m) := by
    intro m
    by_cases hp : (pos m).2 < (pos m).1
    · refine Or.inr ⟨?_, ?_⟩
      · have e : ls m = try' (pos m).1 (pos m).2 := if_pos hp
        rw [e]
        exact (htry _ _).1
      · show b (pos (m + 1)).1 = b (pos m).1
        rw [pos, if_pos hp]
    · have e1 : ls m = (mv (pos m).1).getD (.thread (b (pos m).1).size) := if_neg hp
      have e2 : σ (m + 1) = b ((pos m).1 + 1) := by
        show b (pos (m + 1)).1 = _
        rw [pos, if_neg hp]
      rw [e1, e2]
      cases hm : mv (pos m).1 with
      | some l => exact Or.inl (hs _ l hm)
      | none => exact Or.inr ⟨skip_step env _, hn _ hm⟩
  refine ⟨σ, ls, ⟨by rw [← h0]; rfl, hnext, fun i hi n => ?_, fun n => ?_⟩, fun m => ?_, fun n => ?_, fun n => ?_,
    fun m => ⟨(pos m).1, rfl⟩⟩
  · obtain ⟨m, h3, h4, _⟩ := hturn (some i) (fun j hj => by cases hj; exact hi) n
    exact ⟨m, h3, h4⟩
  · obtain ⟨m, h3, h4, _⟩ := hturn none (fun j hj => by cases hj) n
    exact ⟨m, h3, h4⟩
  · by_cases hp : (pos m).2 < (pos m).1
    · have e : ls m = try' (pos m).1 (pos m).2 := if_pos hp
      rw [e]
      exact (htry _ _).2
    · have e : ls m = (mv (pos m).1).getD (.thread (b (pos m).1).size) := if_neg hp
      rw [e]
      cases hm : mv (pos m).1 with
      | some l => exact ha _ l hm
      | none => trivial
  · obtain ⟨m, h3, ⟨ch, h4⟩, h5⟩ := hturn none (fun j hj => by cases hj) n
    refine ⟨m, h3, ch, h4, fun k f d h6 h7 h8 h9 => ?_⟩
    rcases hnext m with h | ⟨h, _⟩
    · rw [h4] at h
      exact fresh_of_some h h6 h7 h8 h9
    · have := h5 h
      rw [h4] at this
      cases this
      exact newId_fresh h7 h9
  · obtain ⟨m, h1, h2⟩ := pos_start n
    exact ⟨m, h1, by show b (pos m).1 = _; rw [h2]⟩

end Run
end Hycu
