import Verif.Spec.Making

/-!
What steps do to the jobs of threads, and to the list of calls.
-/

namespace Hycu
namespace Run

variable {tab : ConfigNode → Res Unit} {env : Env} {st st' : State}

/-- The tables of a thread are as before, its jobs as well, except for new ones with these tables. -/
def Thread.Goes (t t' : Thread) : Prop := t'.tables = t.tables ∧ ∀ j ∈ t'.given, j ∈ t.given ∨ j.tables = t.tables

theorem Thread.Goes.refl (t : Thread) : t.Goes t := ⟨rfl, fun _ h => Or.inl h⟩

theorem goes_set {f : Nat → Thread} {i : Nat} {t : Thread} (h : (f i).Goes t) (k : Nat) :
    (f k).Goes (Function.update f i t k) := by
  by_cases hk : k = i
  · subst hk
    rw [Function.update_self]
    exact h
  · rw [Function.update_of_ne hk]
    exact .refl _

theorem goes_wake (st : State) (i k : Nat) : (st.thr k).Goes ((wake st i).thr k) := by
  unfold wake
  split
  · rename_i h
    refine goes_set (t := { st.thr i with phase := .check }) ⟨rfl, fun j hj => ?_⟩ k
    left
    unfold Thread.given at hj ⊢
    rw [h]
    exact hj
  · exact .refl _

theorem wake_stays (st : State) (i : Nat) : (wake st i).size = st.size ∧ (wake st i).todo = st.todo := by
  unfold wake
  split <;> exact ⟨rfl, rfl⟩

theorem threadStep_goes {i : Nat} (h : threadStep env st i = .ok (some st')) :
    st'.size = st.size ∧ st'.todo = st.todo ∧ ∀ k, (st.thr k).Goes (st'.thr k) := by
  unfold threadStep at h
  cases hp : (st.thr i).phase <;> simp only [hp] at h
  case check =>
    have key : ∀ t : Thread, t = { st.thr i with phase := .done } ∨ t = { st.thr i with phase := .wait } ∨
        t = { st.thr i with phase := .pop } → (st.thr i).Goes t := by
      rintro t (rfl | rfl | rfl) <;> refine ⟨rfl, fun j hj => Or.inl ?_⟩ <;>
      · unfold Thread.given at hj ⊢
        rw [hp]
        exact hj
    split at h
    · cases h
      exact ⟨rfl, rfl, goes_set (key _ (.inl rfl))⟩
    · split at h
      · cases h
        exact ⟨rfl, rfl, goes_set (key _ (.inr (.inl rfl)))⟩
      · cases h
        exact ⟨rfl, rfl, goes_set (key _ (.inr (.inr rfl)))⟩
  case wait =>
    cases h
    refine ⟨rfl, rfl, goes_set ⟨rfl, fun j hj => Or.inl ?_⟩⟩
    unfold Thread.given at hj ⊢
    rw [hp]
    exact hj
  case sleep => cases h
  case pop =>
    cases hq : (st.thr i).queue with
    | nil => simp only [hq] at h; cases h
    | cons j q =>
      simp only [hq] at h
      cases h
      refine ⟨rfl, rfl, goes_set ⟨rfl, fun j' hj => Or.inl ?_⟩⟩
      unfold Thread.given at hj ⊢
      rw [hp, hq]
      rcases List.mem_append.1 hj with hj | hj
      · exact List.mem_append_left _ (List.mem_cons_of_mem _ hj)
      · rw [List.mem_singleton.1 hj]
        exact List.mem_append_left _ List.mem_cons_self
  case compute j =>
    cases ht : j.tables with
    | none => simp only [ht] at h; cases h
    | some tb =>
      simp only [ht] at h
      cases hc : env.compute tb.cfg j.block with
      | ok m =>
        rw [hc] at h
        cases hf : Store.flushToStatic st.static m j.block with
        | ok p =>
          rw [Res.bind_ok, hf] at h
          cases h
          refine ⟨rfl, rfl, goes_set ⟨rfl, fun j' hj => Or.inl ?_⟩⟩
          unfold Thread.given at hj ⊢
          rw [hp]
          exact hj
        | _ => rw [Res.bind_ok, hf] at h; cases h
      | _ => rw [hc] at h; cases h
  case report j =>
    cases hf : st.pool.finishedBlock j.block with
    | ok p =>
      rw [hf] at h
      cases h
      refine ⟨rfl, rfl, goes_set ⟨rfl, fun j' hj => Or.inl ?_⟩⟩
      unfold Thread.given at hj ⊢
      rcases List.mem_append.1 hj with hj | hj
      · exact List.mem_append_left _ hj
      · cases hj
    | _ => rw [hf] at h; cases h
  case done => cases h

theorem flushFinished_keeps (h : flushFinished st = .ok st') : st'.size = st.size ∧ st'.todo = st.todo ∧ st'.thr = st.thr := by
  unfold flushFinished at h
  cases ha : eraseFinished st.pool.finished st.assigned with
  | ok a => rw [ha] at h; cases h; exact ⟨rfl, rfl, rfl⟩
  | _ => rw [ha] at h; cases h

/-- A step of the main thread other than that which makes tables. -/
theorem masterStep_goes {ch : Choice} (h : masterStep st ch = .ok (some st')) : st'.size = st.size ∧
    ((st.pc = .update ∧ ∃ c rest, st.todo = .config c :: rest ∧ st' = updateStep st c rest) ∨
      ((∀ k, (st.thr k).Goes (st'.thr k)) ∧ (st'.todo = st.todo ∨ ∃ b, st.todo = .assign b :: st'.todo))) := by
  have same : st'.size = st.size → st'.todo = st.todo → st'.thr = st.thr → st'.size = st.size ∧
      ((st.pc = .update ∧ ∃ c rest, st.todo = .config c :: rest ∧ st' = updateStep st c rest) ∨
      ((∀ k, (st.thr k).Goes (st'.thr k)) ∧ (st'.todo = st.todo ∨ ∃ b, st.todo = .assign b :: st'.todo))) :=
    fun h1 h2 h3 => ⟨h1, Or.inr ⟨fun k => h3 ▸ .refl _, Or.inl h2⟩⟩
  unfold masterStep at h
  cases hp : st.pc <;> simp only [hp] at h
  case main =>
    rw [← hp]
    unfold mainStep at h
    split at h
    · cases h; exact same rfl rfl rfl
    · rename_i c _ _
      cases hv : c.verify st.fs (.ok ch.create) with
      | ok v => rw [hv] at h; cases h; exact same rfl rfl rfl
      | _ => rw [hv] at h; cases h
    · cases h; exact same rfl rfl rfl
  case wait k =>
    rw [← hp]
    unfold waitStep at h
    cases hf : flushFinished st with
    | ok s =>
      rw [hf] at h
      cases h
      obtain ⟨h1, h2, h3⟩ := flushFinished_keeps hf
      exact same h1 h2 h3
    | _ => rw [hf] at h; cases h
  case save k =>
    rw [← hp]
    have h := Res.ok.inj h
    unfold saveStep at h
    split at h
    · cases h; exact same rfl rfl rfl
    · dsimp only at h
      split at h
      · split at h
        · cases h; exact same rfl rfl rfl
        · split at h
          · cases h; exact same rfl rfl rfl
          · cases h
      · cases h; exact same rfl rfl rfl
  case write ws k =>
    rw [← hp]
    cases ws with
    | nil => cases h; exact same rfl rfl rfl
    | cons w ws =>
      simp only at h
      have h := Option.some.inj (Res.ok.inj h)
      unfold writeStep at h
      split at h
      · cases h; exact same rfl rfl rfl
      · split at h <;> cases h <;> exact same rfl rfl rfl
  case newStore =>
    rw [← hp]
    split at h
    · rename_i c _ _
      unfold newStoreStep at h
      split at h
      · cases h; exact same rfl rfl rfl
      · rename_i d _
        cases hr : FileStore.initialRecord d with
        | ok r => rw [hr] at h; cases h; exact same rfl rfl rfl
        | _ => rw [hr] at h; cases h
    · cases h
  case update =>
    split at h
    · rename_i c rest ht
      cases h
      exact ⟨rfl, Or.inl ⟨rfl, c, rest, ht, rfl⟩⟩
    · cases h
  case contains =>
    rw [← hp]
    split at h
    · rename_i b rest ht
      unfold containsStep at h
      split at h
      · cases h
      · split at h
        · cases h
          exact ⟨rfl, Or.inr ⟨fun k => .refl _, Or.inr ⟨b, ht⟩⟩⟩
        · split at h <;> cases h <;> exact same rfl rfl rfl
    · cases h
  case fillFinished =>
    rw [← hp]
    cases hf : flushFinished st with
    | ok s =>
      rw [hf] at h
      cases h
      obtain ⟨h1, h2, h3⟩ := flushFinished_keeps hf
      exact same h1 h2 h3
    | _ => rw [hf] at h; cases h
  case fillReady => rw [← hp]; cases h; exact same rfl rfl rfl
  case take =>
    split at h
    · rename_i b rest ht
      have push : ∀ i k, (st.thr k).Goes
          (Function.update st.thr i { st.thr i with queue := (st.thr i).queue ++ [⟨b, (st.thr i).tables⟩] } k) := by
        intro i k
        refine goes_set (t := { st.thr i with queue := (st.thr i).queue ++ [⟨b, (st.thr i).tables⟩] })
          ⟨rfl, fun j hj => ?_⟩ k
        unfold Thread.given at hj ⊢
        rcases List.mem_append.1 hj with hj | hj
        · rcases List.mem_append.1 hj with hj | hj
          · exact Or.inl (List.mem_append_left _ hj)
          · rw [List.mem_singleton.1 hj]
            exact Or.inr rfl
        · exact Or.inl (List.mem_append_right _ hj)
      unfold takeStep at h
      split at h
      · cases ha : st.pool.assign (fun i => (st.thr i).opencl) b true with
        | ok p =>
          rw [ha] at h
          cases h
          exact ⟨rfl, Or.inr ⟨push p.2, Or.inr ⟨b, ht⟩⟩⟩
        | _ => rw [ha] at h; cases h
      · cases ha : st.pool.assign (fun i => (st.thr i).opencl) b false with
        | ok p =>
          rw [ha] at h
          cases h
          exact ⟨rfl, Or.inr ⟨push p.2, Or.inr ⟨b, ht⟩⟩⟩
        | _ => rw [ha] at h; cases h
    · cases h
  case notify i b =>
    cases h
    exact ⟨(wake_stays st i).1, Or.inr ⟨goes_wake st i, Or.inl (wake_stays st i).2⟩⟩
  case insert b => rw [← hp]; cases h; exact same rfl rfl rfl
  case shutdown i =>
    split at h
    · cases h
      exact ⟨rfl, Or.inr ⟨goes_set ⟨rfl, fun j hj => Or.inl hj⟩, Or.inl rfl⟩⟩
    · rw [← hp]; cases h; exact same rfl rfl rfl
  case shutNotify i =>
    cases h
    exact ⟨(wake_stays st i).1, Or.inr ⟨goes_wake st i, Or.inl (wake_stays st i).2⟩⟩
  case join i =>
    split at h
    · rw [← hp]; cases h; exact same rfl rfl rfl
    · cases h
  case finished => cases h

/-- A step either sets new tables in all threads, or not. -/
theorem step_goes {l : Label} (h : step env st l = .ok (some st')) : st'.size = st.size ∧
    (((∃ ch, l = .master ch) ∧ st.pc = .update ∧ ∃ c rest, st.todo = .config c :: rest ∧ st' = updateStep st c rest) ∨
      ((∀ k, (st.thr k).Goes (st'.thr k)) ∧ (st'.todo = st.todo ∨ ∃ b, st.todo = .assign b :: st'.todo))) := by
  cases l with
  | thread i =>
    simp only [step] at h
    split at h
    · obtain ⟨h1, h2, h3⟩ := threadStep_goes h
      exact ⟨h1, Or.inr ⟨h3, Or.inl h2⟩⟩
    · cases h
  | master ch =>
    obtain ⟨h1, h2 | h2⟩ := masterStep_goes h
    · exact ⟨h1, Or.inl ⟨⟨ch, rfl⟩, h2⟩⟩
    · exact ⟨h1, Or.inr h2⟩
  | spurious i =>
    simp only [step] at h
    split at h
    · cases h
      exact ⟨(wake_stays st i).1, Or.inr ⟨goes_wake st i, Or.inl (wake_stays st i).2⟩⟩
    · cases h

/-- A step of the machine with tables: the tables are made, and the step is as before. -/
theorem makingStep_ok {l : Label} (h : makingStep tab env st l = .ok (some st')) :
    makes tab st l = .ok () ∧ step env st l = .ok (some st') := by
  unfold makingStep at h
  cases hm : makes tab st l with
  | ok u => rw [hm] at h; exact ⟨rfl, h⟩
  | _ => rw [hm] at h; cases h

theorem MakingReachable.reachable {st₀ : State} (h : MakingReachable tab env st₀ st) : Reachable env st₀ st := by
  induction h with
  | refl => exact .refl
  | step l _ hs ih => exact .step l ih (makingStep_ok hs).2

/-- The tables of all threads and of all jobs have been made. -/
def Made (tab : ConfigNode → Res Unit) (st : State) : Prop := ∀ i < st.size,
  (∀ tb, (st.thr i).tables = some tb → tab tb.cfg = .ok ()) ∧ ∀ j ∈ (st.thr i).given, j.Made tab

theorem Made.step {l : Label} (hst : Made tab st) (h : makingStep tab env st l = .ok (some st')) : Made tab st' := by
  obtain ⟨hm, h⟩ := makingStep_ok h
  obtain ⟨h1, ⟨⟨ch, rfl⟩, h2, c, rest, h3, rfl⟩ | ⟨h2, -⟩⟩ := step_goes h
  · intro i hi
    refine ⟨fun tb htb => ?_, (hst i hi).2⟩
    have hs : st.size ≠ 0 := by
      have : i < st.size := hi
      omega
    simp only [makes, h2, h3, makeAll, if_neg hs] at hm
    cases Option.some.inj htb
    exact hm
  · intro i hi
    obtain ⟨ha, hb⟩ := hst i (h1 ▸ hi)
    obtain ⟨hc, hd⟩ := h2 i
    refine ⟨fun tb htb => ha tb (hc ▸ htb), fun j hj => ?_⟩
    rcases hd j hj with hj | hj
    · exact hb j hj
    · exact fun tb htb => ha tb (hj ▸ htb)

theorem Made.reachable {st₀ : State} (h₀ : Made tab st₀) (h : MakingReachable tab env st₀ st) : Made tab st := by
  induction h with
  | refl => exact h₀
  | step l _ hs ih => exact ih.step hs

theorem made_initial (kinds : List Bool) (fs : FileSystem) (todo : List Cmd) : Made tab (initial kinds fs todo) := by
  intro i _
  constructor
  · intro tb h
    cases h
  · intro j hj
    simp [initial, Thread.given] at hj

/-- Configurations that are no longer to be announced have had their tables made. -/
theorem todo_made {st₀ : State} (hs : st₀.size ≠ 0) (h : MakingReachable tab env st₀ st) :
    st.size = st₀.size ∧ ∀ c, .config c ∈ st₀.todo → .config c ∈ st.todo ∨ tab c = .ok () := by
  induction h with
  | refl => exact ⟨rfl, fun c hc => Or.inl hc⟩
  | step l _ hs' ih =>
    obtain ⟨hm, h⟩ := makingStep_ok hs'
    obtain ⟨h1, h2⟩ := step_goes h
    refine ⟨h1.trans ih.1, fun c hc => ?_⟩
    rcases ih.2 c hc with hc | hc
    · obtain ⟨⟨ch, rfl⟩, h2, c', rest, h3, rfl⟩ | ⟨-, h2 | ⟨b, h2⟩⟩ := h2
      · rw [h3] at hc
        rcases List.mem_cons.1 hc with hc | hc
        · cases hc
          simp only [makes, h2, h3, makeAll, ih.1, if_neg hs] at hm
          exact Or.inr hm
        · exact Or.inl hc
      · exact Or.inl (h2 ▸ hc)
      · rw [h2] at hc
        rcases List.mem_cons.1 hc with hc | hc
        · cases hc
        · exact Or.inl hc
    · exact Or.inr hc

/-- The list of calls gets shorter. -/
theorem todo_mem {l : Label} (h : step env st l = .ok (some st')) {x : Cmd} (hx : x ∈ st'.todo) : x ∈ st.todo := by
  obtain ⟨-, ⟨-, -, c, rest, h3, rfl⟩ | ⟨-, h2 | ⟨b, h2⟩⟩⟩ := step_goes h
  · rw [h3]
    exact List.mem_cons_of_mem _ hx
  · exact h2 ▸ hx
  · rw [h2]
    exact List.mem_cons_of_mem _ hx

theorem Reachable.todo_mem {st₀ : State} (h : Reachable env st₀ st) {x : Cmd} (hx : x ∈ st.todo) : x ∈ st₀.todo := by
  induction h with
  | refl => exact hx
  | step l _ hs ih => exact ih (Run.todo_mem hs hx)

theorem makes_ok (ht : ∀ c, .config c ∈ st.todo → tab c = .ok ()) (l : Label) : makes tab st l = .ok () := by
  cases l with
  | master ch =>
    simp only [makes]
    split
    · rename_i c rest _ h
      unfold makeAll
      split
      · rfl
      · exact ht c (h ▸ List.mem_cons_self)
    · rfl
  | _ => rfl

end Run

namespace Mpi

open Run (Thread Job Cmd Choice goes_set)

variable {tab : ConfigNode → Res Unit} {env : Run.Env} {st st' : State} {p p' : Proc}

/-- Number of threads and jobs of a process go on; only messages with `ok` are new. -/
structure Proc.Goes (ok : Msg → Prop) (p p' : Proc) : Prop where
  size : p'.size = p.size
  thr : ∀ k, (p.thr k).Goes (p'.thr k)
  inbox : ∀ m ∈ p'.inbox, m ∈ p.inbox ∨ ok m

theorem Proc.Goes.refl {ok : Msg → Prop} (p : Proc) : p.Goes ok p := ⟨rfl, fun _ => .refl _, fun _ h => Or.inl h⟩

theorem Proc.goes_same {ok : Msg → Prop} (h1 : p'.size = p.size) (h2 : p'.thr = p.thr) (h3 : p'.inbox = p.inbox) :
    p.Goes ok p' := ⟨h1, fun _ => h2 ▸ .refl _, fun _ h => Or.inl (h3 ▸ h)⟩

theorem Proc.goes_send {ok : Msg → Prop} {m : Msg} (h : ok m) : p.Goes ok (p.send m) :=
  ⟨rfl, fun _ => .refl _, fun m' h' => by
    rcases List.mem_append.1 h' with h' | h'
    · exact Or.inl h'
    · rw [List.mem_singleton.1 h']
      exact Or.inr h⟩

theorem Proc.goes_wake {ok : Msg → Prop} (i : Nat) : p.Goes ok (p.wake i) := by
  unfold Proc.wake
  split
  · rename_i h
    refine ⟨rfl, goes_set (t := { p.thr i with phase := .check }) ⟨rfl, fun j hj => ?_⟩, fun _ h => Or.inl h⟩
    left
    unfold Thread.given at hj ⊢
    rw [h]
    exact hj
  · exact .refl _

theorem Proc.goes_stop {ok : Msg → Prop} (i : Nat) : p.Goes ok (p.stop i) :=
  ⟨rfl, goes_set ⟨rfl, fun _ hj => Or.inl hj⟩, fun _ h => Or.inl h⟩

theorem Proc.goes_assign {ok : Msg → Prop} {b : Block} {o : Bool} {r : Proc × Nat} (h : p.assign b o = .ok r) :
    p.Goes ok r.1 := by
  unfold Proc.assign at h
  cases ha : p.pool.assign (fun i => (p.thr i).opencl) b o with
  | ok q =>
    rw [ha] at h
    cases h
    refine ⟨rfl, goes_set ⟨rfl, fun j hj => ?_⟩, fun _ h => Or.inl h⟩
    unfold Thread.given at hj ⊢
    rcases List.mem_append.1 hj with hj | hj
    · rcases List.mem_append.1 hj with hj | hj
      · exact Or.inl (List.mem_append_left _ hj)
      · rw [List.mem_singleton.1 hj]
        exact Or.inr rfl
    · exact Or.inl (List.mem_append_right _ hj)
  | _ => rw [ha] at h; cases h

theorem Proc.goes_thread {ok : Msg → Prop} {i : Nat} (h : p.threadStep env i = .ok (some p')) : p.Goes ok p' := by
  unfold Proc.threadStep at h
  cases hp : (p.thr i).phase <;> simp only [hp] at h
  case check =>
    have key : ∀ t : Thread, t = { p.thr i with phase := .done } ∨ t = { p.thr i with phase := .wait } ∨
        t = { p.thr i with phase := .pop } → (p.thr i).Goes t := by
      rintro t (rfl | rfl | rfl) <;> refine ⟨rfl, fun j hj => Or.inl ?_⟩ <;>
      · unfold Thread.given at hj ⊢
        rw [hp]
        exact hj
    split at h
    · cases h
      exact ⟨rfl, goes_set (key _ (.inl rfl)), fun _ h => Or.inl h⟩
    · split at h
      · cases h
        exact ⟨rfl, goes_set (key _ (.inr (.inl rfl))), fun _ h => Or.inl h⟩
      · cases h
        exact ⟨rfl, goes_set (key _ (.inr (.inr rfl))), fun _ h => Or.inl h⟩
  case wait =>
    cases h
    refine ⟨rfl, goes_set ⟨rfl, fun j hj => Or.inl ?_⟩, fun _ h => Or.inl h⟩
    unfold Thread.given at hj ⊢
    rw [hp]
    exact hj
  case sleep => cases h
  case pop =>
    cases hq : (p.thr i).queue with
    | nil => simp only [hq] at h; cases h
    | cons j q =>
      simp only [hq] at h
      cases h
      refine ⟨rfl, goes_set ⟨rfl, fun j' hj => Or.inl ?_⟩, fun _ h => Or.inl h⟩
      unfold Thread.given at hj ⊢
      rw [hp, hq]
      rcases List.mem_append.1 hj with hj | hj
      · exact List.mem_append_left _ (List.mem_cons_of_mem _ hj)
      · rw [List.mem_singleton.1 hj]
        exact List.mem_append_left _ List.mem_cons_self
  case compute j =>
    cases ht : j.tables with
    | none => simp only [ht] at h; cases h
    | some tb =>
      simp only [ht] at h
      cases hc : env.compute tb.cfg j.block with
      | ok m =>
        rw [hc] at h
        cases hf : Store.flushToStatic p.static m j.block with
        | ok r =>
          rw [Res.bind_ok, hf] at h
          cases h
          refine ⟨rfl, goes_set ⟨rfl, fun j' hj => Or.inl ?_⟩, fun _ h => Or.inl h⟩
          unfold Thread.given at hj ⊢
          rw [hp]
          exact hj
        | _ => rw [Res.bind_ok, hf] at h; cases h
      | _ => rw [hc] at h; cases h
  case report j =>
    cases hf : p.pool.finishedBlock j.block with
    | ok r =>
      rw [hf] at h
      cases h
      refine ⟨rfl, goes_set ⟨rfl, fun j' hj => Or.inl ?_⟩, fun _ h => Or.inl h⟩
      unfold Thread.given at hj ⊢
      rcases List.mem_append.1 hj with hj | hj
      · exact List.mem_append_left _ hj
      · cases hj
    | _ => rw [hf] at h; cases h
  case done => cases h

/-- A step of a worker: it handles a configuration, or not. -/
theorem Proc.goes_worker {ok : Msg → Prop} (h : p.workerStep = .ok (some p')) :
    (p.pc = .probe ∧ ∃ c ms, p.inbox = .config c :: ms ∧ p' = { p with inbox := ms }.update c) ∨ p.Goes ok p' := by
  unfold Proc.workerStep at h
  split at h
  · rename_i hp
    split at h
    · cases h
    · rename_i m ms hi
      have drop : ∀ q : Proc, { p with inbox := ms }.Goes ok q → p.Goes ok q := fun q hq =>
        ⟨hq.size, hq.thr, fun m' hm => (hq.inbox m' hm).imp (fun h => by rw [hi]; exact List.mem_cons_of_mem _ h) id⟩
      cases m with
      | config c =>
        cases h
        exact Or.inl ⟨hp, c, ms, hi, rfl⟩
      | assign o b =>
        right
        simp only [Proc.handle] at h
        cases ha : Proc.assign { p with inbox := ms } b o with
        | ok r =>
          rw [ha] at h
          cases h
          have := Proc.goes_assign (ok := ok) ha
          exact drop _ ⟨this.size, this.thr, this.inbox⟩
        | _ => rw [ha] at h; cases h
      | _ =>
        right
        cases h
        exact drop _ (Proc.goes_same rfl rfl rfl)
  · rename_i i _
    cases h
    have := Proc.goes_wake (p := p) (ok := ok) i
    exact Or.inr ⟨this.size, this.thr, this.inbox⟩
  · rename_i i _
    split at h
    · cases h
      have := Proc.goes_stop (p := p) (ok := ok) i
      exact Or.inr ⟨this.size, this.thr, this.inbox⟩
    · cases h
      exact Or.inr (Proc.goes_same rfl rfl rfl)
  · rename_i i _
    cases h
    have := Proc.goes_wake (p := p) (ok := ok) i
    exact Or.inr ⟨this.size, this.thr, this.inbox⟩
  · split at h
    · cases h
      exact Or.inr (Proc.goes_same rfl rfl rfl)
    · cases h
  · cases h

/-- Messages that can be sent in a state: a configuration only where the master sends it, and that of the current call. -/
def sent (st : State) (m : Msg) : Prop := ∀ c, m = .config c → .config c ∈ st.todo ∧ ∃ ix, st.pc = .configSend ix

/-- All processes go on; the list of calls is the same, or the current call has been made. -/
structure Goes (st st' : State) : Prop where
  nprocs : st'.nprocs = st.nprocs
  procs : ∀ ix, (st.procs ix).Goes (sent st) (st'.procs ix)
  todo : st'.todo = st.todo ∨ (∃ b, st.todo = .assign b :: st'.todo) ∨
    ∃ ix c, st.pc = .configSend ix ∧ st.todo = .config c :: st'.todo
  sends : ∀ ix, st'.pc = .configSend ix → (∃ ix', st.pc = .configSend ix') ∧ st'.todo = st.todo

theorem goes_setProc {ok : Msg → Prop} {f : Nat → Proc} {ix : Nat} (h : (f ix).Goes ok p) (k : Nat) :
    (f k).Goes ok (Function.update f ix p k) := by
  by_cases hk : k = ix
  · subst hk
    rw [Function.update_self]
    exact h
  · rw [Function.update_of_ne hk]
    exact .refl _

theorem sent_of_ne {m : Msg} (h : ∀ c, m ≠ .config c) : sent st m := fun c hc => absurd hc (h c)

theorem finishedBlocks_keeps {ix : Nat} {bs : List Block} (h : finishedBlocks st ix bs = .ok st') :
    st'.nprocs = st.nprocs ∧ st'.procs = st.procs ∧ st'.todo = st.todo := by
  unfold finishedBlocks at h
  cases ha : Run.eraseFinished bs (st.assigned ix) with
  | ok a => rw [ha] at h; cases h; exact ⟨rfl, rfl, rfl⟩
  | _ => rw [ha] at h; cases h

theorem fileSave_keeps {f : Run.FileStoreObj} {id : Nat} {s : List Char × List Char} {ix : Nat} {k : Run.Cont}
    (h : fileSave st f id s ix k = some st') :
    st'.nprocs = st.nprocs ∧ st'.procs = st.procs ∧ st'.todo = st.todo ∧ ∀ j, st'.pc ≠ .configSend j := by
  unfold fileSave at h
  split at h
  · split at h
    · cases h; exact ⟨rfl, rfl, rfl, fun _ => by simp⟩
    · split at h
      · cases h; exact ⟨rfl, rfl, rfl, fun _ => by simp⟩
      · cases h
  · cases h; exact ⟨rfl, rfl, rfl, fun _ => by simp⟩

theorem afterSave_ne (k : Run.Cont) (ix : Nat) : afterSave k ≠ .configSend ix := by cases k <;> simp [afterSave]

theorem afterFlush_ne (k : Caller) (ix : Nat) : afterFlush k ≠ .configSend ix := by cases k <;> simp [afterFlush]

theorem passBlock_goes {ix : Nat} {b : Block} {o : Bool} (h : passBlock st ix b o = .ok st') : st'.nprocs = st.nprocs ∧
    (∀ k, (st.procs k).Goes (fun m => ∀ c, m ≠ .config c) (st'.procs k)) ∧ st'.todo = st.todo ∧
    ∀ j, st'.pc ≠ .configSend j := by
  unfold passBlock at h
  split at h
  · cases ha : (st.procs 0).assign b o with
    | ok r =>
      rw [ha] at h
      cases h
      exact ⟨rfl, goes_setProc (Proc.goes_assign ha), rfl, fun _ => by simp⟩
    | _ => rw [ha] at h; cases h
  · cases h
    exact ⟨rfl, goes_setProc (Proc.goes_send (by simp)), rfl, fun _ => by simp⟩

theorem Proc.Goes.mono {ok ok' : Msg → Prop} (h : p.Goes ok p') (hm : ∀ m, ok m → ok' m) : p.Goes ok' p' :=
  ⟨h.size, h.thr, fun m hi => (h.inbox m hi).imp id (hm m)⟩

/-- A step of the main thread of the master other than that which makes tables. -/
theorem masterStep_goes {ch : Choice} (h : masterStep st ch = .ok (some st')) :
    (st.pc = .update ∧ ∃ c rest, st.todo = .config c :: rest ∧
      st' = { st.setProc 0 ((st.procs 0).update c) with pc := .configSend 1 }) ∨ Goes st st' := by
  have same : st'.nprocs = st.nprocs → st'.procs = st.procs → st'.todo = st.todo → (∀ j, st'.pc ≠ .configSend j) →
      Goes st st' :=
    fun h1 h2 h3 h4 => ⟨h1, fun k => h2 ▸ .refl _, Or.inl h3, fun j hj => absurd hj (h4 j)⟩
  have one : ∀ ix p, (st.procs ix).Goes (sent st) p → st'.nprocs = st.nprocs →
      st'.procs = Function.update st.procs ix p → st'.todo = st.todo → (∀ j, st'.pc ≠ .configSend j) → Goes st st' :=
    fun ix p hp h1 h2 h3 h4 => ⟨h1, fun k => h2 ▸ goes_setProc hp k, Or.inl h3, fun j hj => absurd hj (h4 j)⟩
  unfold masterStep at h
  cases hp : st.pc <;> simp only [hp] at h
  case update =>
    left
    split at h
    · rename_i c rest ht
      cases h
      exact ⟨rfl, c, rest, ht, rfl⟩
    · cases h
  all_goals right
  case main =>
    unfold mainStep at h
    split at h
    · cases h; exact same rfl rfl rfl (by simp)
    · rename_i c _ _
      cases hv : c.verify st.fs (.ok ch.create) with
      | ok v => rw [hv] at h; cases h; exact same rfl rfl rfl (fun j => by dsimp only; split <;> simp)
      | _ => rw [hv] at h; cases h
    · cases h; exact same rfl rfl rfl (fun j => by dsimp only; split <;> simp)
  case flush c =>
    unfold flushStep at h
    cases hf : finishedBlocks (st.setProc 0 (st.procs 0).flushFinished.1) 0 (st.procs 0).flushFinished.2 with
    | ok s =>
      simp only [hf] at h
      cases h
      obtain ⟨h1, h2, h3⟩ := finishedBlocks_keeps hf
      exact one 0 _ (by exact Proc.goes_same rfl rfl rfl) h1 h2 h3 (by simp)
    | _ => simp only [hf] at h; cases h
  case flushSend ix c =>
    split at h
    · cases h; exact one ix _ (Proc.goes_send (sent_of_ne (by simp))) rfl rfl rfl (by simp)
    · cases h; exact same rfl rfl rfl (afterFlush_ne c)
  case flushRecv ix c =>
    unfold flushRecvStep at h
    split at h
    · cases h
    · rename_i bs rest _
      cases hf : finishedBlocks (st.setProc ix { st.procs ix with finishedOut := rest }) ix bs with
      | ok s =>
        rw [hf] at h
        cases h
        obtain ⟨h1, h2, h3⟩ := finishedBlocks_keeps hf
        exact one ix _ (by exact Proc.goes_same rfl rfl rfl) h1 h2 h3 (by simp)
      | _ => rw [hf] at h; cases h
  case waited k => cases h; exact same rfl rfl rfl (fun j => by dsimp only [waitedStep]; split <;> simp)
  case ready => cases h; exact one 0 _ (by exact Proc.goes_same rfl rfl rfl) rfl rfl rfl (by simp [readyStep])
  case readySend ix =>
    split at h
    · cases h; exact one ix _ (Proc.goes_send (sent_of_ne (by simp))) rfl rfl rfl (by simp)
    · cases h; exact same rfl rfl rfl (by simp)
  case readyRecv ix =>
    have h := Res.ok.inj h
    unfold readyRecvStep at h
    split at h
    · cases h
    · cases h; exact one ix _ (by exact Proc.goes_same rfl rfl rfl) rfl rfl rfl (by simp)
  case filled => cases h; exact same rfl rfl rfl (fun j => by dsimp only; split <;> simp)
  case save k =>
    have h := Res.ok.inj h
    unfold saveStep at h
    split at h
    · cases h; exact same rfl rfl rfl (afterSave_ne k)
    · obtain ⟨h1, h2, h3, h4⟩ := fileSave_keeps h
      exact one 0 _ (by exact Proc.goes_same rfl rfl rfl) h1 h2 h3 h4
  case saveSend ix k =>
    split at h
    · cases h; exact one ix _ (Proc.goes_send (sent_of_ne (by simp))) rfl rfl rfl (by simp)
    · cases h; exact same rfl rfl rfl (afterSave_ne k)
  case saveRecv ix k =>
    unfold saveRecvStep at h
    split at h
    · cases h
    · split at h
      · cases h
      · obtain ⟨h1, h2, h3, h4⟩ := fileSave_keeps (Res.ok.inj h)
        exact one ix _ (by exact Proc.goes_same rfl rfl rfl) h1 h2 h3 h4
  case write ws ix k =>
    cases ws with
    | nil => cases h; exact same rfl rfl rfl (by simp)
    | cons w ws =>
      simp only at h
      have h := Option.some.inj (Res.ok.inj h)
      unfold writeStep at h
      split at h
      · cases h; exact same rfl rfl rfl (by simp)
      · split at h <;> cases h <;> exact same rfl rfl rfl (by simp)
  case newStore =>
    split at h
    · rename_i c _ _
      unfold newStoreStep at h
      split at h
      · cases h; exact same rfl rfl rfl (by simp)
      · rename_i d _
        cases hr : FileStore.initialRecord d with
        | ok r => rw [hr] at h; cases h; exact same rfl rfl rfl (by simp)
        | _ => rw [hr] at h; cases h
    · cases h
  case configSend ix =>
    split at h
    · rename_i c rest ht
      split at h
      · cases h
        exact ⟨rfl, goes_setProc (Proc.goes_send (fun c' hc => by cases hc; rw [ht]; exact ⟨List.mem_cons_self, ix, hp⟩)),
          Or.inl rfl, fun _ _ => ⟨⟨ix, hp⟩, rfl⟩⟩
      · cases h
        exact ⟨rfl, fun _ => .refl _, Or.inr (Or.inr ⟨ix, c, hp, ht⟩), fun _ hj => by simp at hj⟩
    · cases h
  case contains =>
    split at h
    · rename_i b rest ht
      unfold containsStep at h
      split at h
      · cases h
      · split at h
        · cases h
          exact ⟨rfl, fun _ => .refl _, Or.inr (Or.inl ⟨b, ht⟩), fun _ hj => by simp at hj⟩
        · split at h <;> cases h <;> exact same rfl rfl rfl (by simp)
    · cases h
  case take =>
    split at h
    · rename_i b rest ht
      have pass : ∀ (s : State) ix o, s.nprocs = st.nprocs → s.procs = st.procs → s.todo = rest →
          passBlock s ix b o = .ok st' → Goes st st' := by
        intro s ix o e1 e2 e3 hs
        obtain ⟨h1, h2, h3, h4⟩ := passBlock_goes hs
        refine ⟨h1.trans e1, fun k => e2 ▸ (h2 k).mono fun m hm => sent_of_ne hm, Or.inr (Or.inl ⟨b, ?_⟩),
          fun j hj => absurd hj (h4 j)⟩
        rw [ht, h3, e3]
      have inner : takeStep st b rest = .ok st' := by
        cases ht' : takeStep st b rest with
        | ok s => rw [ht'] at h; cases h; rfl
        | _ => rw [ht'] at h; cases h
      unfold takeStep at inner
      split at inner
      · exact pass _ _ _ (by rfl) (by rfl) (by rfl) inner
      · split at inner
        · exact pass _ _ _ (by rfl) (by rfl) (by rfl) inner
        · cases inner
    · cases h
  case notify i b => cases h; exact one 0 _ (Proc.goes_wake i) rfl rfl rfl (by simp)
  case insert ix b => cases h; exact same rfl rfl rfl (by simp)
  case stopSend ix =>
    split at h
    · cases h; exact one ix _ (Proc.goes_send (sent_of_ne (by simp))) rfl rfl rfl (by simp)
    · cases h; exact same rfl rfl rfl (by simp)
  case shutdown i =>
    split at h
    · cases h; exact one 0 _ (Proc.goes_stop i) rfl rfl rfl (by simp)
    · cases h; exact same rfl rfl rfl (by simp)
  case shutNotify i => cases h; exact one 0 _ (Proc.goes_wake i) rfl rfl rfl (by simp)
  case join i =>
    split at h
    · cases h; exact same rfl rfl rfl (by simp)
    · cases h
  case finished => cases h

/-- A step sets new tables in process 0, or in another process, or in none. -/
theorem step_goes {l : Label} (h : step env st l = .ok (some st')) :
    ((∃ ch, l = .master ch) ∧ st.pc = .update ∧ ∃ c rest, st.todo = .config c :: rest ∧
      st' = { st.setProc 0 ((st.procs 0).update c) with pc := .configSend 1 }) ∨
    (∃ ix c ms, l = .worker ix ∧ 0 < ix ∧ ix < st.nprocs ∧ (st.procs ix).pc = .probe ∧
      (st.procs ix).inbox = .config c :: ms ∧ st' = st.setProc ix ({ st.procs ix with inbox := ms }.update c)) ∨
    Goes st st' := by
  have one : ∀ ix p, (st.procs ix).Goes (sent st) p → Goes st (st.setProc ix p) := fun ix p hp =>
    ⟨rfl, goes_setProc hp, Or.inl rfl, fun j hj => ⟨⟨j, hj⟩, rfl⟩⟩
  cases l with
  | thread ix i =>
    simp only [step] at h
    split at h
    · cases ht : (st.procs ix).threadStep env i with
      | ok q =>
        rw [ht] at h
        cases q with
        | none => cases h
        | some q =>
          cases h
          exact Or.inr (Or.inr (one ix q (Proc.goes_thread ht)))
      | _ => rw [ht] at h; cases h
    · cases h
  | master ch =>
    rcases masterStep_goes h with h | h
    · exact Or.inl ⟨⟨ch, rfl⟩, h⟩
    · exact Or.inr (Or.inr h)
  | worker ix =>
    simp only [step] at h
    split at h
    · rename_i hix
      cases ht : (st.procs ix).workerStep with
      | ok q =>
        rw [ht] at h
        cases q with
        | none => cases h
        | some q =>
          cases h
          rcases Proc.goes_worker (ok := sent st) ht with ⟨h1, c, ms, h2, rfl⟩ | h1
          · exact Or.inr (Or.inl ⟨ix, c, ms, rfl, hix.1, hix.2, h1, h2, rfl⟩)
          · exact Or.inr (Or.inr (one ix q h1))
      | _ => rw [ht] at h; cases h
    · cases h
  | spurious ix i =>
    simp only [step] at h
    split at h
    · cases h
      exact Or.inr (Or.inr (one ix _ (Proc.goes_wake i)))
    · cases h

/-- A step of the machine with tables: the tables are made, and the step is as before. -/
theorem makingStep_ok {l : Label} (h : makingStep tab env st l = .ok (some st')) :
    makes tab st l = .ok () ∧ step env st l = .ok (some st') := by
  unfold makingStep at h
  cases hm : makes tab st l with
  | ok u => rw [hm] at h; exact ⟨rfl, h⟩
  | _ => rw [hm] at h; cases h

theorem MakingReachable.reachable {st₀ : State} (h : MakingReachable tab env st₀ st) : Reachable env st₀ st := by
  induction h with
  | refl => exact .refl
  | step l _ hs ih => exact .step l ih (makingStep_ok hs).2

/-- The tables of all threads and of all jobs of a process have been made. -/
def Proc.Made (tab : ConfigNode → Res Unit) (p : Proc) : Prop := ∀ i < p.size,
  (∀ tb, (p.thr i).tables = some tb → tab tb.cfg = .ok ()) ∧ ∀ j ∈ (p.thr i).given, j.Made tab

theorem Proc.Made.goes {ok : Msg → Prop} (hp : p.Made tab) (h : p.Goes ok p') : p'.Made tab := by
  intro i hi
  obtain ⟨ha, hb⟩ := hp i (h.size ▸ hi)
  obtain ⟨hc, hd⟩ := h.thr i
  refine ⟨fun tb htb => ha tb (hc ▸ htb), fun j hj => ?_⟩
  rcases hd j hj with hj | hj
  · exact hb j hj
  · exact fun tb htb => ha tb (hj ▸ htb)

theorem Proc.Made.update {c : ConfigNode} (hp : p.Made tab) (h : makeAll tab p.size c = .ok ()) :
    (p.update c).Made tab := by
  intro i hi
  refine ⟨fun tb htb => ?_, (hp i hi).2⟩
  have hs : p.size ≠ 0 := by
    have : i < p.size := hi
    omega
  simp only [makeAll, if_neg hs] at h
  cases Option.some.inj htb
  exact h

theorem made_step {l : Label} (hst : ∀ ix, (st.procs ix).Made tab)
    (h : makingStep tab env st l = .ok (some st')) (ix : Nat) : (st'.procs ix).Made tab := by
  obtain ⟨hm, h⟩ := makingStep_ok h
  rcases step_goes h with ⟨⟨ch, rfl⟩, h2, c, rest, h3, rfl⟩ | ⟨iy, c, ms, rfl, h1, h2, h3, h4, rfl⟩ | h
  · simp only [makes, h2, h3] at hm
    show Proc.Made tab (Function.update st.procs 0 _ ix)
    by_cases hx : ix = 0
    · subst hx
      rw [Function.update_self]
      exact (hst 0).update hm
    · rw [Function.update_of_ne hx]
      exact hst ix
  · simp only [makes, h3, h4, if_pos (And.intro h1 h2)] at hm
    show Proc.Made tab (Function.update st.procs iy _ ix)
    by_cases hx : ix = iy
    · subst hx
      rw [Function.update_self]
      exact Proc.Made.update (p := { st.procs ix with inbox := ms }) (hst ix) hm
    · rw [Function.update_of_ne hx]
      exact hst ix
  · exact (hst ix).goes (h.procs ix)

theorem made_reachable {st₀ : State} (h₀ : ∀ ix, (st₀.procs ix).Made tab) (h : MakingReachable tab env st₀ st) (ix : Nat) :
    (st.procs ix).Made tab := by
  induction h generalizing ix with
  | refl => exact h₀ ix
  | step l _ hs ih => exact made_step ih hs ix

theorem made_initial (kinds : List (List Bool)) (fs : FileSystem) (todo : List Cmd) (ix : Nat) :
    ((initial kinds fs todo).procs ix).Made tab := by
  intro i _
  constructor
  · intro tb h
    cases h
  · intro j hj
    simp [initial, Proc.initial, Thread.given] at hj

/-- Configurations that are no longer to be announced have had their tables made in process 0; also that which is sent. -/
theorem todo_made {st₀ : State} (hs : (st₀.procs 0).size ≠ 0) (hp : ∀ ix, st₀.pc ≠ .configSend ix)
    (h : MakingReachable tab env st₀ st) :
    (st.procs 0).size = (st₀.procs 0).size ∧ (∀ c, .config c ∈ st₀.todo → .config c ∈ st.todo ∨ tab c = .ok ()) ∧
    ∀ ix c rest, st.pc = .configSend ix → st.todo = .config c :: rest → tab c = .ok () := by
  induction h with
  | refl => exact ⟨rfl, fun c hc => Or.inl hc, fun ix _ _ hx => absurd hx (hp ix)⟩
  | step l _ hs' ih =>
    obtain ⟨ih1, ih2, ih3⟩ := ih
    obtain ⟨hm, h⟩ := makingStep_ok hs'
    rcases step_goes h with ⟨⟨ch, rfl⟩, h2, c, rest, h3, rfl⟩ | ⟨iy, c, ms, rfl, h1, h2, h3, h4, rfl⟩ | h
    · simp only [makes, h2, h3, makeAll, ih1, if_neg hs] at hm
      refine ⟨ih1, ih2, fun ix c' rest' _ ht => ?_⟩
      cases h3.symm.trans ht
      exact hm
    · refine ⟨?_, ih2, ih3⟩
      simp only [State.setProc]
      rw [Function.update_of_ne (by omega)]
      exact ih1
    · refine ⟨(h.procs 0).size.trans ih1, fun c hc => ?_, fun ix c rest hx ht => ?_⟩
      · rcases ih2 c hc with hc | hc
        · rcases h.todo with h2 | ⟨b, h2⟩ | ⟨ix, c', h2, h3⟩
          · exact Or.inl (h2 ▸ hc)
          · rw [h2] at hc
            rcases List.mem_cons.1 hc with hc | hc
            · cases hc
            · exact Or.inl hc
          · have := ih3 ix c' _ h2 h3
            rw [h3] at hc
            rcases List.mem_cons.1 hc with hc | hc
            · cases hc
              exact Or.inr this
            · exact Or.inl hc
        · exact Or.inr hc
      · obtain ⟨⟨ix', h1⟩, h2⟩ := h.sends ix hx
        exact ih3 ix' c rest h1 (h2 ▸ ht)

/-- All configurations to be announced or on their way belong to the list of calls. -/
def Known (todo : List Cmd) (st : State) : Prop :=
  (∀ x ∈ st.todo, x ∈ todo) ∧ ∀ ix c, .config c ∈ (st.procs ix).inbox → .config c ∈ todo

theorem Known.step {todo : List Cmd} {l : Label} (hst : Known todo st) (h : step env st l = .ok (some st')) :
    Known todo st' := by
  obtain ⟨ha, hb⟩ := hst
  rcases step_goes h with ⟨⟨ch, rfl⟩, h2, c, rest, h3, rfl⟩ | ⟨iy, c, ms, rfl, h1, h2, h3, h4, rfl⟩ | h
  · refine ⟨ha, fun ix c' hc => ?_⟩
    have hc : Msg.config c' ∈ (Function.update st.procs 0 ((st.procs 0).update c) ix).inbox := hc
    by_cases hx : ix = 0
    · subst hx
      rw [Function.update_self] at hc
      exact hb 0 c' hc
    · rw [Function.update_of_ne hx] at hc
      exact hb ix c' hc
  · refine ⟨ha, fun ix c' hc => ?_⟩
    have hc : Msg.config c' ∈ (Function.update st.procs iy ({ st.procs iy with inbox := ms }.update c) ix).inbox := hc
    by_cases hx : ix = iy
    · subst hx
      rw [Function.update_self] at hc
      exact hb ix c' (h4 ▸ List.mem_cons_of_mem _ hc)
    · rw [Function.update_of_ne hx] at hc
      exact hb ix c' hc
  · refine ⟨fun x hx => ha x ?_, fun ix c' hc => ?_⟩
    · rcases h.todo with h2 | ⟨b, h2⟩ | ⟨ix, c', h2, h3⟩
      · exact h2 ▸ hx
      · rw [h2]; exact List.mem_cons_of_mem _ hx
      · rw [h3]; exact List.mem_cons_of_mem _ hx
    · rcases (h.procs ix).inbox _ hc with hc | hc
      · exact hb ix c' hc
      · exact ha _ (hc c' rfl).1

theorem Known.reachable {todo : List Cmd} {st₀ : State} (h₀ : Known todo st₀) (h : Reachable env st₀ st) : Known todo st := by
  induction h with
  | refl => exact h₀
  | step l _ hs ih => exact ih.step hs

theorem makes_ok {todo : List Cmd} (hk : Known todo st) (ht : ∀ c, .config c ∈ todo → tab c = .ok ()) (l : Label) :
    makes tab st l = .ok () := by
  have all : ∀ n c, .config c ∈ todo → makeAll tab n c = .ok () := by
    intro n c hc
    unfold makeAll
    split
    · rfl
    · exact ht c hc
  cases l with
  | master ch =>
    simp only [makes]
    split
    · rename_i c rest _ h
      exact all _ c (hk.1 _ (h ▸ List.mem_cons_self))
    · rfl
  | worker ix =>
    simp only [makes]
    split
    · split
      · rename_i c rest _ h
        exact all _ c (hk.2 ix c (h ▸ List.mem_cons_self))
      · rfl
    · rfl
  | _ => rfl

end Mpi
end Hycu
