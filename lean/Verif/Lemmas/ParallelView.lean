import Verif.Lemmas.ParallelStep
import Verif.Lemmas.ParallelDir
import Verif.Lemmas.DamageCount
import Verif.Lemmas.MpiSafe

/-!
A run, seen without the other runs.
-/

namespace Hycu
namespace Parallel

open Run (Cmd Cont Env FileStoreObj Input Sect program Open since KeptIn CompleteIn)

namespace Prog

variable {s : Prog} {F G : FileSystem} {p : List Char}

@[simp] theorem fs_withFs : (s.withFs F).fs = F := by cases s <;> rfl
@[simp] theorem todo_withFs : (s.withFs F).todo = s.todo := by cases s <;> rfl
@[simp] theorem stage_withFs : (s.withFs F).stage = s.stage := by cases s <;> rfl
@[simp] theorem target_withFs : (s.withFs F).target = s.target := by cases s <;> rfl
@[simp] theorem writing_withFs : (s.withFs F).writing = s.writing := by cases s <;> rfl
@[simp] theorem withFs_withFs : (s.withFs F).withFs G = s.withFs G := by cases s <;> rfl
@[simp] theorem withFs_fs : s.withFs s.fs = s := by cases s <;> rfl
@[simp] theorem complete_withFs : (s.withFs F).complete = s.complete := by cases s <;> rfl
@[simp] theorem start_withFs {todo : List Cmd} {pool : Pool} : (start G todo pool).withFs F = start F todo pool := by
  cases pool <;> rfl
@[simp] theorem start_fs {todo : List Cmd} {pool : Pool} : (start F todo pool).fs = F := by cases pool <;> rfl
@[simp] theorem start_todo {todo : List Cmd} {pool : Pool} : (start F todo pool).todo = todo := by cases pool <;> rfl
@[simp] theorem start_stage {todo : List Cmd} {pool : Pool} : (start F todo pool).stage = 0 := by cases pool <;> rfl
@[simp] theorem start_target {todo : List Cmd} {pool : Pool} : (start F todo pool).target = none := by cases pool <;> rfl

/-- The states of one run. -/
inductive Reach (env : Env) (s₀ : Prog) : Prog → Prop
  | refl : Reach env s₀ s₀
  | step {s s' : Prog} (l : Move) (h : Reach env s₀ s) (hs : s.step env l = .ok (some s')) : Reach env s₀ s'

end Prog

/-- The file system with another directory. -/
def setAt (F : FileSystem) (p : List Char) (x : Option Dir) : FileSystem := fun q => if q = p then x else F q

@[simp] theorem setAt_same (F : FileSystem) (p : List Char) (x : Option Dir) : setAt F p x p = x := if_pos rfl

theorem setAt_ne (F : FileSystem) {p q : List Char} (x : Option Dir) (h : q ≠ p) : setAt F p x q = F q := if_neg h

theorem set_eq_setAt (F : FileSystem) (p : List Char) (d : Dir) : F.set p d = setAt F p (some d) := rfl

theorem setAt_comm (F : FileSystem) {p q : List Char} (x y : Option Dir) (h : p ≠ q) :
    setAt (setAt F p x) q y = setAt (setAt F q y) p x := by
  funext r
  unfold setAt
  by_cases h1 : r = q
  · by_cases h2 : r = p
    · exact absurd (h2.symm.trans h1) h
    · simp [h1, Ne.symm h]
  · simp [h1]

theorem setAt_setAt (F : FileSystem) (p : List Char) (x y : Option Dir) : setAt (setAt F p x) p y = setAt F p y := by
  funext r
  unfold setAt
  by_cases h1 : r = p <;> simp [h1]

theorem setAt_self (F : FileSystem) (p : List Char) : setAt F p (F p) = F := by
  funext r
  unfold setAt
  by_cases h1 : r = p <;> simp [h1]

def cmdPath : Cmd → Option (List Char)
  | .config c => some c.resultPath
  | _ => none

/-- The directories of the configurations that are still to come. -/
def cmdPaths (todo : List Cmd) : List (List Char) := todo.filterMap cmdPath

/-- The directory is still to come, and the configuration has not come to a stage. -/
def Before (k : Nat) (p : List Char) (s : Prog) : Prop :=
  p ∈ cmdPaths s.todo ∧ ∀ c rest, s.todo = .config c :: rest → c.resultPath = p → s.stage < k

theorem Before.mono {k k' : Nat} (hk : k ≤ k') {p : List Char} {s : Prog} (h : Before k p s) : Before k' p s :=
  ⟨h.1, fun c rest h1 h2 => (h.2 c rest h1 h2).trans_le hk⟩

@[simp] theorem before_withFs {k : Nat} {p : List Char} {s : Prog} {F : FileSystem} :
    Before k p (s.withFs F) ↔ Before k p s := by
  unfold Before
  simp

/-- A run goes on. -/
def Goes (s s' : Prog) : Prop := (s'.todo = s.todo ∧ s.stage ≤ s'.stage) ∨ ∃ c, s.todo = c :: s'.todo

section

variable {env : Env} {s s' : Prog} {l : Move} {k : Nat} {p : List Char}

theorem Access.goes (h : Access env s l s') : Goes s s' := by
  have key : Keeps s s' → Goes s s' := by
    rintro (⟨h1, h2, _⟩ | ⟨c, h1, _⟩)
    · exact Or.inl ⟨h1, h2⟩
    · exact Or.inr ⟨c, h1⟩
  cases h with
  | quiet hf hk ht h => exact key hk
  | verify c rest hc h0 hc' h1 ht hf h => exact Or.inl ⟨hc', by omega⟩
  | refuse c rest hc h0 hc' h1 ht hn hf h => exact Or.inl ⟨hc', by omega⟩
  | load c rest hc h0 hc' h1 ht hf h => exact Or.inl ⟨hc', by omega⟩
  | save p id d hp hd hi hf hk ht h => exact key hk
  | lost p hp hn hf hk ht h => exact key hk
  | write p n c d hw hp hd hf hk ht h => exact key hk

theorem Goes.nodup (h : Goes s s') (hn : (cmdPaths s.todo).Nodup) :
    (cmdPaths s'.todo).Nodup ∧ ∀ p ∈ cmdPaths s'.todo, p ∈ cmdPaths s.todo := by
  rcases h with ⟨h, _⟩ | ⟨c, h⟩
  · rw [h]
    exact ⟨hn, fun _ hp => hp⟩
  · rw [h] at hn ⊢
    have h1 : (cmdPaths s'.todo).Sublist (cmdPaths (c :: s'.todo)) := (List.sublist_cons_self _ _).filterMap _
    exact ⟨hn.sublist h1, fun p hp => h1.subset hp⟩

/-- A directory that is still to come has been to come before. -/
theorem Goes.before (h : Goes s s') (hn : (cmdPaths s.todo).Nodup) (hb : Before k p s') : Before k p s := by
  rcases h with ⟨h, h2⟩ | ⟨c, h⟩
  · refine ⟨h ▸ hb.1, fun c rest h3 h4 => h2.trans_lt (hb.2 c rest (h.trans h3) h4)⟩
  · refine ⟨?_, fun c' rest h3 h4 => ?_⟩
    · rw [h]
      exact ((List.sublist_cons_self _ _).filterMap _).subset hb.1
    · rw [h] at h3
      cases h3
      rw [h] at hn
      have h5 : cmdPaths (.config c' :: s'.todo) = c'.resultPath :: cmdPaths s'.todo := rfl
      rw [h5, List.nodup_cons] at hn
      exact absurd (h4 ▸ hb.1) hn.1

theorem Prog.Reach.goes {s₀ : Prog} (hn : (cmdPaths s₀.todo).Nodup) (h : Prog.Reach env s₀ s) :
    (cmdPaths s.todo).Nodup ∧ (∀ p ∈ cmdPaths s.todo, p ∈ cmdPaths s₀.todo) := by
  induction h with
  | refl => exact ⟨hn, fun _ hp => hp⟩
  | step l _ hs ih =>
    have h1 := (access hs).goes.nodup ih.1
    exact ⟨h1.1, fun p hp => ih.2 p (h1.2 p hp)⟩

/-- The directory that is written is not to come any more. -/
theorem Access.target (h : Access env s l s') (hn : (cmdPaths s.todo).Nodup)
    (ht : ∀ p, s.target = some p → ¬ Before 2 p s) : ∀ p, s'.target = some p → ¬ Before 2 p s' := by
  intro p hp hb
  have key : s'.target = s.target → False := fun h1 => ht p (h1 ▸ hp) (h.goes.before hn hb)
  cases h with
  | load c rest hc h0 hc' h1 ht' hf h =>
    rw [ht'] at hp
    have := hb.2 c rest (hc'.trans hc) (Option.some.inj hp)
    omega
  | _ => exact key ‹_›

theorem Prog.Reach.target {G₀ : FileSystem} {todo : List Cmd} {pool : Pool} (hn : (cmdPaths todo).Nodup)
    (h : Prog.Reach env (.start G₀ todo pool) s) : ∀ p, s.target = some p → ¬ Before 2 p s := by
  induction h with
  | refl => simp
  | step l h hs ih => exact (access hs).target (h.goes (by simpa using hn)).1 ih

/-- As long as a directory is to come, any other content could have been in it. -/
theorem Prog.Reach.late {G₀ : FileSystem} {todo : List Cmd} {pool : Pool} (hn : (cmdPaths todo).Nodup) {x : Option Dir}
    (h : Prog.Reach env (.start G₀ todo pool) s) (hb : Before (if x.isSome then 2 else 1) p s) :
    Prog.Reach env (.start (setAt G₀ p x) todo pool) (s.withFs (setAt s.fs p x)) := by
  induction h with
  | refl =>
    simp only [Prog.start_withFs, Prog.start_fs]
    exact .refl
  | @step s s' l h hs ih =>
    have hac := access hs
    have hnd := (h.goes (by simpa using hn)).1
    have hb1 := hac.goes.before hnd hb
    refine .step l (ih hb1) ?_
    have hk2 : (if x.isSome then 2 else 1) ≤ 2 := by split <;> omega
    have htn : ∀ q, s.target = some q → q ≠ p := by
      rintro q hq rfl
      exact h.target hn q hq (hb1.mono hk2)
    cases hac with
    | quiet hf hk ht h =>
      rw [hf]
      exact h _
    | verify c rest hc h0 hc' h1 ht hf h =>
      by_cases hp : c.resultPath = p
      · subst hp
        have h2 := hb.2 c rest (hc'.trans hc) rfl
        have h3 : x.isSome = true := by
          by_contra h3
          rw [if_neg h3] at h2
          omega
        have h4 := h (setAt s.fs c.resultPath x) (Or.inl (by simpa using h3))
        rw [h4]
        congr 3
        unfold opened
        rw [if_pos (by simpa using h3), hf]
        unfold opened
        split
        · rfl
        · rw [set_eq_setAt, setAt_setAt]
      · have h2 : setAt s.fs p x c.resultPath = s.fs c.resultPath := setAt_ne _ _ hp
        have h4 := h (setAt s.fs p x) (by
          rw [h2]
          cases s.fs c.resultPath <;> simp)
        rw [h4]
        congr 3
        unfold opened
        rw [h2, hf]
        unfold opened
        split
        · rfl
        · rw [set_eq_setAt, set_eq_setAt, setAt_comm _ _ _ (Ne.symm hp)]
    | refuse c rest hc h0 hc' h1 ht hn hf h =>
      have hp : c.resultPath ≠ p := fun hp => by
        have := hb.2 c rest (hc'.trans hc) hp
        omega
      rw [hf]
      exact h _ ((setAt_ne _ _ hp).trans hn)
    | load c rest hc h0 hc' h1 ht hf h =>
      have hp : c.resultPath ≠ p := fun hp => by
        have := hb.2 c rest (hc'.trans hc) hp
        omega
      rw [hf]
      exact h _ (setAt_ne _ _ hp)
    | save q id d hp hd hi hf hk ht h =>
      rw [hf]
      exact h _ d ((setAt_ne _ _ (htn q hp)).trans hd) hi
    | lost q hp hn hf hk ht h =>
      rw [hf]
      exact h _ ((setAt_ne _ _ (htn q hp)).trans hn)
    | write q n c d hw hp hd hf hk ht h =>
      rw [h _ d ((setAt_ne _ _ (htn q hp)).trans hd), hf, set_eq_setAt, set_eq_setAt, setAt_comm _ _ _ (Ne.symm (htn q hp))]

end

/-! ### The two machines -/

section

variable {env : Env} {result : ConfigNode → Block → StoreMap} {ss : List Sect} {pool : Pool} {G₀ : FileSystem} {s : Prog}

theorem reach_cases (h : Prog.Reach env (.start G₀ (program ss) pool) s) :
    (∃ kinds st, pool = .threaded kinds ∧ s = .threaded st ∧ Run.Reachable env (Run.initial kinds G₀ (program ss)) st) ∨
    ∃ kinds st, pool = .mpi kinds ∧ s = .mpi st ∧ Mpi.Reachable env (Mpi.initial kinds G₀ (program ss)) st := by
  induction h with
  | refl =>
    cases pool with
    | threaded kinds => exact Or.inl ⟨kinds, _, rfl, rfl, .refl⟩
    | mpi kinds => exact Or.inr ⟨kinds, _, rfl, rfl, .refl⟩
  | step l _ hs ih =>
    rcases ih with ⟨kinds, st, h1, rfl, h2⟩ | ⟨kinds, st, h1, rfl, h2⟩
    · cases l with
      | mpi l => cases hs
      | threaded l =>
        obtain ⟨o, h3, h4⟩ := Res.bind_eq_ok.1 hs
        cases o with
        | none => cases h4
        | some st' =>
          cases h4
          exact Or.inl ⟨kinds, st', h1, rfl, .step l h2 h3⟩
    · cases l with
      | threaded l => cases hs
      | mpi l =>
        obtain ⟨o, h3, h4⟩ := Res.bind_eq_ok.1 hs
        cases o with
        | none => cases h4
        | some st' =>
          cases h4
          exact Or.inr ⟨kinds, st', h1, rfl, .step l h2 h3⟩

theorem reach_kept (hi : Input env ss result) (hp : pool.Possible) (ho : Open ss G₀)
    (h : Prog.Reach env (.start G₀ (program ss) pool) s) : ∀ x ∈ ss, KeptIn (since G₀) result s.fs x := by
  rcases reach_cases h with ⟨kinds, st, rfl, rfl, h2⟩ | ⟨kinds, st, rfl, rfl, h2⟩
  · exact (Run.DataInvIn.reachable hi hp (ho.kept hi) h2).dies hi ((Run.Good.init env hp G₀ hi.blocks).reachable h2) .between
  · exact (Mpi.DataInvIn.reachable hi hp.1 hp.2 (ho.kept hi) h2).dies hi .between

theorem reach_complete (hi : Input env ss result) (hp : pool.Possible) (ho : Open ss G₀)
    (h : Prog.Reach env (.start G₀ (program ss) pool) s) (hc : s.complete) :
    ∀ x ∈ ss, CompleteIn (since G₀) result s.fs x := by
  rcases reach_cases h with ⟨kinds, st, rfl, rfl, h2⟩ | ⟨kinds, st, rfl, rfl, h2⟩
  · exact (Run.DataInvIn.reachable hi hp (ho.kept hi) h2).finished hi ((Run.Good.init env hp G₀ hi.blocks).reachable h2)
      (Run.all_done hp hi.blocks h2 (by rw [hc.1]; rfl)).2.1 hc.1 hc.2
  · exact (Mpi.DataInvIn.reachable hi hp.1 hp.2 (ho.kept hi) h2).finished hi ((Mpi.Inv.start hi hp.1 hp.2).reachable h2)
      hc.1 hc.2

theorem reach_safe (hi : Input env ss result) (hp : pool.Possible) (ho : Open ss G₀)
    (h : Prog.Reach env (.start G₀ (program ss) pool) s) (l : Move) : ∃ o, s.step env l = .ok o := by
  rcases reach_cases h with ⟨kinds, st, rfl, rfl, h2⟩ | ⟨kinds, st, rfl, rfl, h2⟩
  · cases l with
    | mpi l => exact ⟨none, rfl⟩
    | threaded l =>
      obtain ⟨o, ho⟩ := Run.step_ok (Run.DataInvIn.reachable hi hp (ho.kept hi) h2) hi
        ((Run.Good.init env hp G₀ hi.blocks).reachable h2) l
      exact ⟨o.map .threaded, by show Res.bind _ _ = _; rw [ho]; rfl⟩
  · cases l with
    | threaded l => exact ⟨none, rfl⟩
    | mpi l =>
      obtain ⟨o, ho⟩ := Mpi.step_ok (Mpi.DataInvIn.reachable hi hp.1 hp.2 (ho.kept hi) h2) hi
        ((Mpi.Inv.start hi hp.1 hp.2).reachable h2) l
      exact ⟨o.map .mpi, by show Res.bind _ _ = _; rw [ho]; rfl⟩

end

end Parallel
end Hycu
