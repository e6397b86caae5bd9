import Verif.Lemmas.Pos
import Verif.Lemmas.MpiSched

/-!
Executions in which every thread makes a step again and again, or is not able to again and again: with additional steps that
have no effect they are executions in the sense of `Mpi.Exec`.
-/

namespace Hycu
namespace Mpi

open Run (FileStoreObj Choice Env)

variable {env : Env} {st₀ : State}

/-- The labels of a turn. -/
def Turn.has : Turn → Label → Prop
  | .thread ix i, l => l = .thread ix i
  | .master, l => ∃ ch, l = .master ch
  | .worker ix, l => l = .worker ix

/-- Threads that exist. -/
def Turn.exist (st : State) : Turn → Prop
  | .thread ix i => ix < st.nprocs ∧ i < (st.procs ix).size
  | .master => True
  | .worker ix => 0 < ix ∧ ix < st.nprocs

theorem Turn.has_label (t : Turn) (st : State) : t.has (t.label st) := by
  cases t with
  | master => exact ⟨_, rfl⟩
  | _ => rfl

/-- Steps that are not possible lose no notification. -/
theorem alert_of_none {st : State} {t : Turn} (ht : t.exist st) (h : step env st (t.label st) = .ok none) :
    Alert st (t.label st) := by
  cases t with
  | thread ix i => trivial
  | master =>
    intro i hi
    change masterStep st _ = _ at h
    unfold masterStep at h
    rcases hi with hi | ⟨b, hi⟩ <;> rw [hi] at h <;> cases h
  | worker ix =>
    intro i hi
    change (if 0 < ix ∧ ix < st.nprocs then (st.procs ix).workerStep.bind _ else _) = _ at h
    have ht : 0 < ix ∧ ix < st.nprocs := ht
    rw [if_pos ht] at h
    unfold Proc.workerStep at h
    rcases hi with hi | hi <;> rw [hi] at h <;> cases h

theorem fresh_of_save {st st' : State} {f : FileStoreObj} {id : Nat} {s : List Char × List Char} {ix : Nat} {k : Run.Cont}
    {d : Dir} (h : fileSave st f id s ix k = some st') (hv : f.valid = true) (hd : st.fs f.config.resultPath = some d) :
    FileStore.fresh d id = true := by
  unfold fileSave at h
  rw [if_pos hv, hd] at h
  simp only at h
  split at h
  · assumption
  · cases h

/-- A step of the master in which a name is needed has found one. -/
theorem fresh_of_some {st st' : State} {ch : Choice} (h : masterStep st ch = .ok (some st')) {f : FileStoreObj} {d : Dir}
    (hpc : (∃ k, st.pc = .save k) ∨ ∃ ix k, st.pc = .saveRecv ix k) (hf : st.fileStore = some f) (hv : f.valid = true)
    (hd : st.fs f.config.resultPath = some d) : FileStore.fresh d ch.id = true := by
  unfold masterStep at h
  rcases hpc with ⟨k, hpc⟩ | ⟨ix, k, hpc⟩
  · rw [hpc] at h
    simp only [saveStep, hf] at h
    exact fresh_of_save (Res.ok.inj h) hv hd
  · rw [hpc] at h
    simp only [saveRecvStep, hf] at h
    split at h
    · cases h
    · exact fresh_of_save (Res.ok.inj h) hv hd

open Classical in
/-- With additional steps without effect all threads are scheduled again and again. -/
theorem exec_of_weak {b : Nat → State} {mv : Nat → Option Label} (h0 : b 0 = st₀)
    (hs : ∀ n l, mv n = some l → step env (b n) l = .ok (some (b (n + 1)))) (hn : ∀ n, mv n = none → b (n + 1) = b n)
    (hw : ∀ t : Turn, t.exist st₀ → ∀ n, ∃ m, n ≤ m ∧ ((∃ l, mv m = some l ∧ t.has l) ∨
      step env (b m) (t.label (b m)) = .ok none)) (ha : ∀ n l, mv n = some l → Alert (b n) l) :
    ∃ σ ls, Exec env st₀ σ ls ∧ (∀ n, Alert (σ n) (ls n)) ∧ Renewing σ ls ∧
      ((∀ n ch, mv n = some (.master ch) → ch.create = true) → Creating ls) ∧
      (∀ n, ∃ m, n ≤ m ∧ σ m = b n) ∧ ∀ m, ∃ n, σ m = b n := by
  have hshape : ∀ n, (b n).nprocs = st₀.nprocs ∧ ∀ q, ((b n).procs q).size = (st₀.procs q).size := by
    intro n
    induction n with
    | zero => rw [h0]; exact ⟨rfl, fun _ => rfl⟩
    | succ n ih =>
      cases hm : mv n with
      | none => rw [hn n hm]; exact ih
      | some l =>
        have := (step_move (hs n l hm)).shape
        exact ⟨this.1.trans ih.1, fun q => (this.2 q).trans (ih.2 q)⟩
  have hexist : ∀ {t : Turn} n, t.exist st₀ → t.exist (b n) := by
    intro t n ht
    cases t with
    | thread ix i => exact ⟨by rw [(hshape n).1]; exact ht.1, by rw [(hshape n).2]; exact ht.2⟩
    | master => trivial
    | worker ix => exact ⟨ht.1, by rw [(hshape n).1]; exact ht.2⟩
  let try' : Nat → Nat → Label := fun n j =>
    if step env (b n) ((turn j).label (b n)) = .ok none ∧ Alert (b n) ((turn j).label (b n)) then (turn j).label (b n)
    else skip (b n)
  have htry : ∀ n j, step env (b n) (try' n j) = .ok none ∧ Alert (b n) (try' n j) ∧
      ∀ ch, try' n j = .master ch → ch.create = true := by
    intro n j
    by_cases h : step env (b n) ((turn j).label (b n)) = .ok none ∧ Alert (b n) ((turn j).label (b n))
    · have e : try' n j = (turn j).label (b n) := if_pos h
      rw [e]
      exact ⟨h.1, h.2, fun ch hc => label_create hc⟩
    · have e : try' n j = skip (b n) := if_neg h
      rw [e]
      exact ⟨skip_step env (b n), trivial, fun ch hc => by cases hc⟩
  let σ : Nat → State := fun m => b (pos m).1
  let ls : Nat → Label := fun m => if (pos m).2 < (pos m).1 then try' (pos m).1 (pos m).2
    else (mv (pos m).1).getD (skip (b (pos m).1))
  have hlt : ∀ {n j : Nat}, j < n → ∃ m, n ≤ m ∧ σ m = b n ∧ ls m = try' n j := by
    intro n j hj
    obtain ⟨m, h1, h2⟩ := pos_at hj.le
    refine ⟨m, h1, by show b (pos m).1 = _; rw [h2], ?_⟩
    show (if _ then _ else _) = _
    rw [h2, if_pos hj]
  have heq : ∀ {n : Nat} {l : Label}, mv n = some l → ∃ m, n ≤ m ∧ σ m = b n ∧ ls m = l := by
    intro n l hl
    obtain ⟨m, h1, h2⟩ := pos_at (le_refl n)
    refine ⟨m, h1, by show b (pos m).1 = _; rw [h2], ?_⟩
    show (if _ then _ else _) = _
    rw [h2, if_neg (lt_irrefl n), hl]
    rfl
  have hturn : ∀ t : Turn, t.exist st₀ → ∀ n, ∃ m, n ≤ m ∧ t.has (ls m) ∧
      (step env (σ m) (ls m) = .ok none → ls m = t.label (σ m)) := by
    intro t ht n
    obtain ⟨k, _, hk⟩ := turn_recurs t (by
      rintro rfl
      exact absurd ht.1 (lt_irrefl 0)) 0
    obtain ⟨i, h1, h2⟩ := hw t ht (max n (k + 1))
    have hi : n ≤ i ∧ k < i := ⟨(le_max_left _ _).trans h1, (le_max_right _ _).trans h1⟩
    rcases h2 with ⟨l, h2, h3⟩ | h2
    · obtain ⟨m, h4, h5, h6⟩ := heq h2
      refine ⟨m, hi.1.trans h4, by rw [h6]; exact h3, fun h7 => ?_⟩
      rw [h5, h6, hs i l h2] at h7
      cases h7
    · obtain ⟨m, h4, h5, h6⟩ := hlt hi.2
      have h7 : try' i k = t.label (b i) := by
        show (if _ then _ else _) = _
        rw [hk, if_pos ⟨h2, alert_of_none (hexist i ht) h2⟩]
      exact ⟨m, hi.1.trans h4, by rw [h6, h7]; exact t.has_label _, fun _ => by rw [h5, h6, h7]⟩
  have hnext : ∀ m, step env (σ m) (ls m) = .ok (some (σ (m + 1))) ∨
      (step env (σ m) (ls m) = .ok none ∧ σ (m + 1) = σ m) := by
    intro m
    by_cases hp : (pos m).2 < (pos m).1
    · refine Or.inr ⟨?_, ?_⟩
      · have e : ls m = try' (pos m).1 (pos m).2 := if_pos hp
        rw [e]
        exact (htry _ _).1
      · show b (pos (m + 1)).1 = b (pos m).1
        rw [pos, if_pos hp]
    · have e1 : ls m = (mv (pos m).1).getD (skip (b (pos m).1)) := if_neg hp
      have e2 : σ (m + 1) = b ((pos m).1 + 1) := by
        show b (pos (m + 1)).1 = _
        rw [pos, if_neg hp]
      rw [e1, e2]
      cases hm : mv (pos m).1 with
      | some l => exact Or.inl (hs _ l hm)
      | none => exact Or.inr ⟨skip_step env _, hn _ hm⟩
  refine ⟨σ, ls, ⟨by rw [← h0]; rfl, fun m => ?_, fun ix i h1 h2 n => ?_, fun ix h1 h2 n => ?_, fun n => ?_⟩, fun m => ?_,
    fun n => ?_, fun hc m ch h => ?_, fun n => ?_, ?_⟩
  · exact hnext m
  · obtain ⟨m, h3, h4, _⟩ := hturn (.thread ix i) ⟨h1, h2⟩ n
    exact ⟨m, h3, h4⟩
  · obtain ⟨m, h3, h4, _⟩ := hturn (.worker ix) ⟨h1, h2⟩ n
    exact ⟨m, h3, h4⟩
  · obtain ⟨m, h3, h4, _⟩ := hturn .master trivial n
    exact ⟨m, h3, h4⟩
  · by_cases hp : (pos m).2 < (pos m).1
    · have e : ls m = try' (pos m).1 (pos m).2 := if_pos hp
      rw [e]
      exact (htry _ _).2.1
    · have e : ls m = (mv (pos m).1).getD (skip (b (pos m).1)) := if_neg hp
      rw [e]
      cases hm : mv (pos m).1 with
      | some l => exact ha _ l hm
      | none => trivial
  · obtain ⟨m, h3, ⟨ch, h4⟩, h5⟩ := hturn .master trivial n
    refine ⟨m, h3, ch, h4, fun f d h6 h7 h8 h9 => ?_⟩
    rcases hnext m with h | ⟨h, _⟩
    · rw [h4] at h
      exact fresh_of_some h h6 h7 h8 h9
    · have := h5 h
      rw [h4] at this
      cases this
      exact newId_fresh h7 h9
  · by_cases hp : (pos m).2 < (pos m).1
    · have e : ls m = try' (pos m).1 (pos m).2 := if_pos hp
      rw [e] at h
      exact (htry _ _).2.2 ch h
    · have e : ls m = (mv (pos m).1).getD (skip (b (pos m).1)) := if_neg hp
      rw [e] at h
      cases hm : mv (pos m).1 with
      | some l =>
        rw [hm] at h
        exact hc _ ch (by rw [hm]; exact congrArg some h)
      | none => rw [hm] at h; cases h
  · obtain ⟨m, h1, h2⟩ := pos_start n
    exact ⟨m, h1, by show b (pos m).1 = _; rw [h2]⟩
  · exact fun m => ⟨(pos m).1, rfl⟩

end Mpi
end Hycu
