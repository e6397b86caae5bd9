import Mathlib.Data.Nat.Pairing
import Verif.Lemmas.MpiEnds
import Verif.Lemmas.PoolDone

/-!
Runs with several processes that end have made all calls, and there are such runs.
-/

namespace Hycu
namespace Mpi

open Run (Tables Job Phase Thread ThreadPool FileStoreObj Cmd Cont Choice Env eraseFinished Sect program Nonzero)

/-- The call that is made when the master waits is the destructor. -/
def Caller.exits : Caller → Bool
  | .wait .exit => true
  | _ => false

/-- The master is in the destructor. -/
def Pc.leaving : Pc → Bool
  | .flush c | .flushSend _ c | .flushRecv _ c => c.exits
  | .waited .exit | .save .exit | .saveSend _ .exit | .saveRecv _ .exit | .write _ _ .exit => true
  | .stopSend _ | .shutdown _ | .shutNotify _ | .join _ | .finished => true
  | _ => false

/-- The destructor is called only at the end, or if the next configuration has a number that is zero; the configurations
to come are among the given ones. -/
structure Leaving (cs : List ConfigNode) (st : State) : Prop where
  todo : st.pc.leaving = true → st.todo = [] ∨ ∃ c rest, st.todo = .config c :: rest ∧ ¬ Nonzero c
  accept : ∀ c, Cmd.config c ∈ st.todo → c ∈ cs

theorem step_pc {env : Env} {st st' : State} {l : Label} (hl : ∀ ch, l ≠ .master ch) (h : step env st l = .ok (some st')) :
    st'.pc = st.pc ∧ st'.todo = st.todo ∧ st'.fs = st.fs ∧ st'.fileStore = st.fileStore := by
  have hm := step_move h
  cases hm with
  | master ch st' h => exact absurd rfl (hl ch)
  | _ => exact ⟨rfl, rfl, rfl, rfl⟩

theorem Leaving.step {env : Env} {cs : List ConfigNode} {st st' : State} {l : Label} (h : Leaving cs st)
    (hl : ∀ ch, l = .master ch → ch.create = true) (hs : step env st l = .ok (some st')) : Leaving cs st' := by
  have keep : ∀ {st' : State}, st'.todo = st.todo → (st'.pc.leaving = true → st.pc.leaving = true) →
      Leaving cs st' :=
    fun h1 h2 => ⟨fun h3 => (by rw [h1]; exact h.todo (h2 h3)), by rw [h1]; exact h.accept⟩
  have drop : ∀ {st' : State} {c : Cmd}, st.todo = c :: st'.todo → st'.pc.leaving = false → Leaving cs st' :=
    fun h1 h2 => ⟨fun h3 => (by rw [h2] at h3; cases h3),
      fun c hc => h.accept c (by rw [h1]; exact List.mem_cons_of_mem _ hc)⟩
  have hafter : ∀ k, (afterSave k).leaving = true → k = .exit := by
    intro k hk
    cases k <;> first | rfl | cases hk
  by_cases hlm : ∃ ch, l = .master ch
  · obtain ⟨ch, rfl⟩ := hlm
    have hch := hl ch rfl
    have hs : masterStep st ch = .ok (some st') := hs
    by_cases hm : st.pc = .main
    · simp only [masterStep, hm] at hs
      replace hs := Run.some_map_ok hs
      unfold mainStep at hs
      split at hs
      · rename_i ht
        cases hs
        exact ⟨fun _ => Or.inl ht, h.accept⟩
      · rename_i c rest ht
        obtain ⟨v, hv, hs⟩ := Res.bind_eq_ok.1 hs
        cases hs
        rw [hch] at hv
        refine ⟨fun hl => Or.inr ⟨c, rest, ht, fun hc => ?_⟩, h.accept⟩
        simp only [Run.verify_accepts hc _ hv, if_true] at hl
        cases hl
      · cases hs
        refine ⟨fun hl => ?_, h.accept⟩
        simp only at hl
        split at hl <;> cases hl
    · have ht := masterStep_cases hs
      clear hs hl
      cases ht with
      | mainEnd hpc => exact absurd hpc hm
      | mainConfig hpc => exact absurd hpc hm
      | mainAssign hpc => exact absurd hpc hm
      | flush c hpc a ha => exact keep rfl fun hl => by rw [hpc]; exact hl
      | flushSend ix c hpc hi => exact keep rfl fun hl => by rw [hpc]; exact hl
      | flushEnd ix c hpc hi =>
        refine keep rfl fun hl => ?_
        rw [hpc]
        cases c with
        | wait k => cases k <;> exact hl
        | fill => cases hl
      | flushRecv ix c hpc bs rest ho a ha => exact keep rfl fun hl => by rw [hpc]; exact hl
      | waited k hpc hh => exact keep rfl fun hl => by rw [hpc]; cases k <;> exact hl
      | waitOn k hpc => exact keep rfl fun hl => by rw [hpc]; cases k <;> exact hl
      | saveNone k hpc hf => exact keep rfl fun hl => by rw [hpc, hafter k hl]; rfl
      | saveLost k hpc f hf hh => exact keep rfl fun hl => by rw [hpc]; cases k <;> exact hl
      | saveStart k hpc f hf hv d hd id hid => exact keep rfl fun hl => by rw [hpc]; cases k <;> exact hl
      | saveSend ix k hpc hi => exact keep rfl fun hl => by rw [hpc]; cases k <;> exact hl
      | saveEnd ix k hpc hi => exact keep rfl fun hl => by rw [hpc, hafter k hl]; rfl
      | recvLost ix k hpc s rest ho f hf hh => exact keep rfl fun hl => by rw [hpc]; cases k <;> exact hl
      | recvStart ix k hpc s rest ho f hf hv d hd id hid => exact keep rfl fun hl => by rw [hpc]; cases k <;> exact hl
      | writeEnd ix k hpc => exact keep rfl fun hl => by rw [hpc]; cases k <;> exact hl
      | writeLost ix k n c ws hpc hh => exact keep rfl fun hl => by rw [hpc]; cases k <;> exact hl
      | write ix k n c ws hpc f hf d hd => exact keep rfl fun hl => by rw [hpc]; cases k <;> exact hl
      | configEnd ix hpc c rest ht hi => exact drop ht rfl
      | skip hpc b rest ht f hf hc => exact drop ht rfl
      | takeLocal hpc b rest ht o cq oq hq r hr => exact drop ht rfl
      | takeRemote hpc b rest ht o ix hix cq oq hq => exact drop ht rfl
      | stopSend ix hpc hi => exact keep rfl fun _ => by rw [hpc]; rfl
      | stopEnd ix hpc hi => exact keep rfl fun _ => by rw [hpc]; rfl
      | shutdown i hpc hi => exact keep rfl fun _ => by rw [hpc]; rfl
      | shutdownEnd i hpc hi => exact keep rfl fun _ => by rw [hpc]; rfl
      | shutNotify i hpc => exact keep rfl fun _ => by rw [hpc]; rfl
      | join i hpc hp => exact keep rfl fun _ => by rw [hpc]; rfl
      | _ => exact keep rfl fun hl => by cases hl
  · obtain ⟨h1, h2, _⟩ := step_pc (fun ch hch => hlm ⟨ch, hch⟩) hs
    exact keep h2 fun hl => by rw [← h1]; exact hl

/-- The destructor is called from the main loop. -/
theorem leaving_from {env : Env} {st st' : State} {l : Label} (hs : step env st l = .ok (some st'))
    (hl : st'.pc.leaving = true) : st'.todo = st.todo ∧ (st.pc.leaving = true ∨ st'.pc = .flush (.wait .exit)) := by
  have hafter : ∀ k, (afterSave k).leaving = true → k = .exit := by
    intro k hk
    cases k <;> first | rfl | cases hk
  by_cases hlm : ∃ ch, l = .master ch
  · obtain ⟨ch, rfl⟩ := hlm
    have ht := masterStep_cases hs
    clear hs
    cases ht with
    | mainEnd hpc => exact ⟨rfl, Or.inr rfl⟩
    | mainConfig hpc c rest ht create v hv =>
      obtain ⟨f, ok⟩ := v
      cases ok
      · exact ⟨rfl, Or.inr rfl⟩
      · cases hl
    | mainAssign hpc b rest ht now => cases now <;> cases hl
    | flush c hpc a ha => exact ⟨rfl, Or.inl (by rw [hpc]; exact hl)⟩
    | flushSend ix c hpc hi => exact ⟨rfl, Or.inl (by rw [hpc]; exact hl)⟩
    | flushEnd ix c hpc hi =>
      refine ⟨rfl, Or.inl ?_⟩
      rw [hpc]
      cases c with
      | wait k => cases k <;> exact hl
      | fill => cases hl
    | flushRecv ix c hpc bs rest ho a ha => exact ⟨rfl, Or.inl (by rw [hpc]; exact hl)⟩
    | waited k hpc hh => exact ⟨rfl, Or.inl (by rw [hpc]; cases k <;> exact hl)⟩
    | waitOn k hpc => exact ⟨rfl, Or.inl (by rw [hpc]; cases k <;> exact hl)⟩
    | saveNone k hpc hf => exact ⟨rfl, Or.inl (by rw [hpc, hafter k hl]; rfl)⟩
    | saveLost k hpc f hf hh => exact ⟨rfl, Or.inl (by rw [hpc]; cases k <;> exact hl)⟩
    | saveStart k hpc f hf hv d hd id hid => exact ⟨rfl, Or.inl (by rw [hpc]; cases k <;> exact hl)⟩
    | saveSend ix k hpc hi => exact ⟨rfl, Or.inl (by rw [hpc]; cases k <;> exact hl)⟩
    | saveEnd ix k hpc hi => exact ⟨rfl, Or.inl (by rw [hpc, hafter k hl]; rfl)⟩
    | recvLost ix k hpc s rest ho f hf hh => exact ⟨rfl, Or.inl (by rw [hpc]; cases k <;> exact hl)⟩
    | recvStart ix k hpc s rest ho f hf hv d hd id hid => exact ⟨rfl, Or.inl (by rw [hpc]; cases k <;> exact hl)⟩
    | writeEnd ix k hpc => exact ⟨rfl, Or.inl (by rw [hpc]; cases k <;> exact hl)⟩
    | writeLost ix k n c ws hpc hh => exact ⟨rfl, Or.inl (by rw [hpc]; cases k <;> exact hl)⟩
    | write ix k n c ws hpc f hf d hd => exact ⟨rfl, Or.inl (by rw [hpc]; cases k <;> exact hl)⟩
    | stopSend ix hpc hi => exact ⟨rfl, Or.inl (by rw [hpc]; rfl)⟩
    | stopEnd ix hpc hi => exact ⟨rfl, Or.inl (by rw [hpc]; rfl)⟩
    | shutdown i hpc hi => exact ⟨rfl, Or.inl (by rw [hpc]; rfl)⟩
    | shutdownEnd i hpc hi => exact ⟨rfl, Or.inl (by rw [hpc]; rfl)⟩
    | shutNotify i hpc => exact ⟨rfl, Or.inl (by rw [hpc]; rfl)⟩
    | join i hpc hp => exact ⟨rfl, Or.inl (by rw [hpc]; rfl)⟩
    | _ => cases hl
  · obtain ⟨h1, h2, _⟩ := step_pc (fun ch hch => hlm ⟨ch, hch⟩) hs
    exact ⟨h2, Or.inl (by rw [← h1]; exact hl)⟩

/-- If no configuration is refused, then all calls have been made in the end. -/
theorem Exec.todo_nil {env : Env} {st₀ : State} {σ : Nat → State} {ls : Nat → Label} (h : Exec env st₀ σ ls)
    (h0 : st₀.pc.leaving = false) (hc : ∀ n, (σ n).pc = .flush (.wait .exit) → (σ n).todo = []) (n : Nat)
    (hl : (σ n).pc.leaving = true) : (σ n).todo = [] := by
  induction n with
  | zero =>
    rw [h.start, h0] at hl
    cases hl
  | succ n ih =>
    rcases h.next n with h1 | ⟨_, h1⟩
    · obtain ⟨h2, h3 | h3⟩ := leaving_from h1 hl
      · rw [h2]
        exact ih h3
      · exact hc _ h3
    · rw [h1] at hl ⊢
      exact ih hl

theorem Exec.leaving {env : Env} {kinds : List (List Bool)} {ss : List Sect} {fs : FileSystem} {σ : Nat → State}
    {ls : Nat → Label} (h : Exec env (initial kinds fs (program ss)) σ ls) (hc : Creating ls)
    (n : Nat) : Leaving (ss.map fun s => s.cfg) (σ n) := by
  induction n with
  | zero =>
    rw [h.start]
    refine ⟨fun hl => (by cases hl), fun c hc => ?_⟩
    obtain ⟨s, h1, h2⟩ := List.mem_flatMap.1 hc
    rcases List.mem_cons.1 h2 with h2 | h2
    · cases h2
      exact List.mem_map.2 ⟨s, h1, rfl⟩
    · obtain ⟨b, _, h2⟩ := List.mem_map.1 h2
      cases h2
  | succ n ih =>
    rcases h.next n with h1 | ⟨_, h1⟩
    · exact ih.step (hc n) h1
    · rw [h1]
      exact ih

/-- If no number is zero, all calls have been made. -/
theorem Exec.left_todo {env : Env} {kinds : List (List Bool)} {ss : List Sect} {fs : FileSystem} {σ : Nat → State}
    {ls : Nat → Label} (h : Exec env (initial kinds fs (program ss)) σ ls) (hc : Creating ls)
    (hs : ∀ s ∈ ss, Nonzero s.cfg) {n : Nat} (hl : (σ n).pc.leaving = true) : (σ n).todo = [] := by
  rcases (h.leaving hc n).todo hl with h1 | ⟨c, rest, h1, h2⟩
  · exact h1
  · obtain ⟨s, h3, h4⟩ := List.mem_map.1 ((h.leaving hc n).accept c (by rw [h1]; exact List.mem_cons_self))
    exact absurd (h4 ▸ hs s h3) h2

theorem Exec.reachable {env : Env} {st₀ : State} {σ : Nat → State} {ls : Nat → Label} (h : Exec env st₀ σ ls) (n : Nat) :
    Reachable env st₀ (σ n) := by
  induction n with
  | zero => rw [h.start]; exact .refl
  | succ n ih =>
    rcases h.next n with h1 | ⟨_, h1⟩
    · exact .step _ ih h1
    · rw [h1]; exact ih

/-! ### Threads that do not exist -/

/-- Threads that do not exist do not wait. -/
def Beyond (st : State) : Prop := ∀ q i, (st.procs q).size ≤ i → ((st.procs q).thr i).phase = .check

theorem wake_beyond {p : Proc} (h : ∀ i, p.size ≤ i → (p.thr i).phase = .check) (k : Nat) :
    ∀ i, p.size ≤ i → ((p.wake k).thr i).phase = .check := by
  intro i hi
  rw [Tidy.wake_thr]
  split
  · rfl
  · exact h i hi

theorem stop_beyond {p : Proc} (h : ∀ i, p.size ≤ i → (p.thr i).phase = .check) (k : Nat) :
    ∀ i, p.size ≤ i → ((p.stop k).thr i).phase = .check := by
  intro i hi
  show (Function.update p.thr k _ i).phase = _
  by_cases hx : i = k
  · subst hx
    rw [Function.update_self]
    exact h i hi
  · rw [Function.update_of_ne hx]
    exact h i hi

theorem assign_beyond {p : Proc} (h : ∀ i, p.size ≤ i → (p.thr i).phase = .check) {b : Block} {o : Bool} {r : Proc × Nat}
    (hr : p.assign b o = .ok r) : ∀ i, p.size ≤ i → (r.1.thr i).phase = .check := by
  intro i hi
  unfold Proc.assign at hr
  obtain ⟨r', _, hr⟩ := Res.bind_eq_ok.1 hr
  cases hr
  show (Function.update p.thr r'.2 _ i).phase = _
  by_cases hx : i = r'.2
  · rw [hx, Function.update_self]
    exact h r'.2 (by omega)
  · rw [Function.update_of_ne hx]
    exact h i hi

theorem Beyond.move {env : Env} {st st' : State} {l : Label} (h : Beyond st) (hm : Move env st l st') : Beyond st' := by
  intro q i hi
  rw [hm.shape.2 q] at hi
  have near : ∀ (ix : Nat) (p : Proc), (∀ i, (st.procs ix).size ≤ i → (p.thr i).phase = .check) →
      ((Function.update st.procs ix p q).thr i).phase = .check := by
    intro ix p hp
    by_cases hx : q = ix
    · subst hx
      rw [Function.update_self]
      exact hp i hi
    · rw [Function.update_of_ne hx]
      exact h q i hi
  cases hm with
  | thread ix k hx hk p ht hp =>
    refine near ix p fun i hi => ?_
    have hik : i ≠ k := by omega
    have : ∀ t : Thread, (((st.procs ix).setThread k t).thr i).phase = .check := by
      intro t
      show (Function.update (st.procs ix).thr k _ i).phase = _
      rw [Function.update_of_ne hik]
      exact h ix i hi
    cases ht <;> exact this _
  | spurious ix k hx hk hp =>
    refine near ix _ fun i hi => ?_
    show (Function.update (st.procs ix).thr k _ i).phase = _
    rw [Function.update_of_ne (by omega)]
    exact h ix i hi
  | worker ix h0 hx p hp =>
    refine near ix p fun i hi => ?_
    cases hp with
    | config hpc c ms hi' => exact h ix i hi
    | assign hpc o b ms hi' r hr => exact assign_beyond (p := { st.procs ix with inbox := ms }) (h ix) hr i hi
    | request hpc r ms hi' p' hp => rw [(handle_req hp).2.1]; exact h ix i hi
    | shutdown hpc ms hi' => exact h ix i hi
    | notify k hpc => exact wake_beyond (h ix) k i hi
    | stop k hpc hk => exact stop_beyond (h ix) k i hi
    | stopEnd k hpc hk => exact h ix i hi
    | shutNotify k hpc => exact wake_beyond (h ix) k i hi
    | join k hpc hd => exact h ix i hi
  | master ch st' hms =>
    have hst := masterStep_cases hms
    have same : ∀ (ix : Nat) (p : Proc), p.thr = (st.procs ix).thr →
        ((Function.update st.procs ix p q).thr i).phase = .check :=
      fun ix p hp => near ix p fun i hi => by rw [hp]; exact h ix i hi
    cases hst with
    | flush c hpc a ha => exact same _ _ rfl
    | flushSend ix c hpc hi => exact same _ _ rfl
    | flushRecv ix c hpc bs rest ho a ha => exact same _ _ rfl
    | ready hpc => exact same _ _ rfl
    | readySend ix hpc hi => exact same _ _ rfl
    | readyRecv ix hpc n rest ho => exact same _ _ rfl
    | saveLost k hpc f hf h => exact same _ _ rfl
    | saveStart k hpc f hf hv d hd id hid => exact same _ _ rfl
    | saveSend ix k hpc hi => exact same _ _ rfl
    | recvLost ix k hpc s rest ho f hf h => exact same _ _ rfl
    | recvStart ix k hpc s rest ho f hf hv d hd id hid => exact same _ _ rfl
    | update hpc c rest ht => exact near 0 _ fun i hi => h 0 i hi
    | configSend ix hpc c rest ht hi => exact same _ _ rfl
    | takeLocal hpc b rest ht o cq oq hq r hr => exact near 0 _ (assign_beyond (h 0) hr)
    | takeRemote hpc b rest ht o ix hix cq oq hq => exact same _ _ rfl
    | notify k b hpc => exact near 0 _ (wake_beyond (h 0) k)
    | stopSend ix hpc hi => exact same _ _ rfl
    | shutdown k hpc hi => exact near 0 _ (stop_beyond (h 0) k)
    | shutNotify k hpc => exact near 0 _ (wake_beyond (h 0) k)
    | _ => exact h q i hi

/-! ### A schedule -/

section

variable (env : Env) (st₀ : State) (bar : State → Label → Prop)

open Classical in
/-- An id for new files. -/
noncomputable def newId (st : State) : Nat :=
  match st.fileStore with
  | none => 0
  | some f =>
    match st.fs f.config.resultPath with
    | none => 0
    | some d => (Run.exists_fresh d).choose

theorem newId_fresh {st : State} {f : FileStoreObj} {d : Dir} (h1 : st.fileStore = some f)
    (h2 : st.fs f.config.resultPath = some d) : FileStore.fresh d (newId st) = true := by
  unfold newId
  rw [h1]
  simp only
  rw [h2]
  exact (Run.exists_fresh d).choose_spec

/-- Whose turn it is. -/
inductive Turn where
  | thread (ix i : Nat)
  | master
  | worker (ix : Nat)

/-- Every turn comes again and again. -/
def turn (k : Nat) : Turn :=
  match k.unpair.1.unpair with
  | (0, 0) => .master
  | (ix + 1, 0) => .worker (ix + 1)
  | (ix, i + 1) => .thread ix i

theorem turn_recurs (t : Turn) (ht : t ≠ .worker 0) (n : Nat) : ∃ k, n ≤ k ∧ turn k = t := by
  have key : ∀ a, ∃ k, n ≤ k ∧ k.unpair.1 = a := fun a => ⟨Nat.pair a n, Nat.right_le_pair a n, by rw [Nat.unpair_pair]⟩
  cases t with
  | master =>
    obtain ⟨k, h1, h2⟩ := key (Nat.pair 0 0)
    exact ⟨k, h1, by unfold turn; rw [h2, Nat.unpair_pair]⟩
  | worker ix =>
    cases ix with
    | zero => exact absurd rfl ht
    | succ ix =>
      obtain ⟨k, h1, h2⟩ := key (Nat.pair (ix + 1) 0)
      exact ⟨k, h1, by unfold turn; rw [h2, Nat.unpair_pair]⟩
  | thread ix i =>
    obtain ⟨k, h1, h2⟩ := key (Nat.pair ix (i + 1))
    exact ⟨k, h1, by unfold turn; rw [h2, Nat.unpair_pair]; cases ix <;> rfl⟩

/-- The step for a turn. -/
noncomputable def Turn.label (st : State) : Turn → Label
  | .thread ix i => .thread ix i
  | .master => .master ⟨false, true, newId st⟩
  | .worker ix => .worker ix

/-- The thread that would be notified. -/
def Turn.target (st : State) : Turn → Option (Nat × Nat)
  | .thread _ _ => none
  | .master =>
    match st.pc with
    | .notify i _ | .shutNotify i => some (0, i)
    | _ => none
  | .worker ix =>
    match (st.procs ix).pc with
    | .notify i | .shutNotify i => some (ix, i)
    | _ => none

/-- The thread that would be notified, but does not wait yet. -/
def Turn.late (st : State) (t : Turn) : Option (Nat × Nat) :=
  (t.target st).filter fun x => decide (((st.procs x.1).thr x.2).phase = .wait)

/-- A step that is not possible. -/
def skip (st : State) : Label := .spurious st.nprocs 0

open Classical in
/-- All in turn, unless they are barred; before, a thread that would miss its notification. -/
noncomputable def pick (n : Nat) (st : State) : Label :=
  match (turn (n / 2)).late st with
  | some x => if n % 2 = 0 then .thread x.1 x.2 else skip st
  | none => if n % 2 = 0 ∨ bar st ((turn (n / 2)).label st) then skip st else (turn (n / 2)).label st

/-- The states under this schedule. -/
noncomputable def sched : Nat → State
  | 0 => st₀
  | n + 1 =>
    match step env (sched n) (pick bar n (sched n)) with
    | .ok (some st) => st
    | _ => sched n

theorem late_alert {st : State} {t : Turn} (h : t.late st = none) : Alert st (t.label st) := by
  have h := Option.filter_eq_none_iff.1 h
  cases t with
  | thread ix i => trivial
  | master =>
    intro i hi hp
    refine h (0, i) ?_ (by simpa using hp)
    unfold Turn.target
    simp only
    rcases hi with hi | ⟨b, hi⟩ <;> rw [hi]
  | worker ix =>
    intro i hi hp
    refine h (ix, i) ?_ (by simpa using hp)
    unfold Turn.target
    simp only
    rcases hi with hi | hi <;> rw [hi]

theorem pick_alert (n : Nat) (st : State) : Alert st (pick bar n st) := by
  unfold pick
  split
  · split <;> trivial
  · rename_i h
    split
    · trivial
    · exact late_alert h

theorem label_create {st : State} {t : Turn} {ch : Choice} (h : t.label st = .master ch) : ch.create = true := by
  cases t <;> cases h
  rfl

theorem pick_create {n : Nat} {st : State} {ch : Choice} (h : pick bar n st = .master ch) : ch.create = true := by
  unfold pick at h
  split at h
  · split at h <;> cases h
  · split at h
    · cases h
    · exact label_create h

theorem skip_step (st : State) : step env st (skip st) = .ok none := by
  unfold skip step
  simp

variable {env st₀ bar}

theorem sched_reachable (n : Nat) : Reachable env st₀ (sched env st₀ bar n) := by
  induction n with
  | zero => exact .refl
  | succ n ih =>
    unfold sched
    split
    · rename_i st h
      exact .step _ ih h
    · exact ih

theorem sched_next (hsafe : ∀ st, Reachable env st₀ st → ∀ l, ∃ o, step env st l = .ok o) (n : Nat) :
    step env (sched env st₀ bar n) (pick bar n (sched env st₀ bar n)) = .ok (some (sched env st₀ bar (n + 1))) ∨
    (step env (sched env st₀ bar n) (pick bar n (sched env st₀ bar n)) = .ok none ∧ sched env st₀ bar (n + 1) = sched env st₀ bar n) := by
  obtain ⟨o, ho⟩ := hsafe _ (sched_reachable n) (pick bar n (sched env st₀ bar n))
  cases o with
  | none =>
    right
    refine ⟨ho, ?_⟩
    rw [sched, ho]
  | some st =>
    left
    rw [sched, ho]

theorem reachable_shape {st : State} (h : Reachable env st₀ st) (hb : Beyond st₀) :
    Beyond st ∧ st.nprocs = st₀.nprocs := by
  induction h with
  | refl => exact ⟨hb, rfl⟩
  | step l h hs ih => exact ⟨ih.1.move (step_move hs), (step_move hs).shape.1.trans ih.2⟩

/-- Processes that do not exist do nothing. -/
theorem reachable_outside {st : State} (h : Reachable env st₀ st) (hb : ∀ q, st₀.nprocs ≤ q → (st₀.procs q).pc = .probe)
    {q : Nat} (hq : st₀.nprocs ≤ q) : (st.procs q).pc = .probe := by
  have hn : st.nprocs = st₀.nprocs ∧ (st.procs q).pc = .probe := by
    induction h with
    | refl => exact ⟨rfl, hb q hq⟩
    | @step st st' l h hs ih =>
      have hm := step_move hs
      refine ⟨hm.shape.1.trans ih.1, ?_⟩
      have near : ∀ ix p, ix < st.nprocs → ((st.setProc ix p).procs q).pc = .probe := by
        intro ix p hx
        rw [show (st.setProc ix p).procs q = st.procs q from Function.update_of_ne (by omega) ..]
        exact ih.2
      cases hm with
      | thread ix i hx hi p ht hp => exact near _ _ hx
      | spurious ix i hx hi hp => exact near _ _ hx
      | worker ix h0 hx p hp => exact near _ _ hx
      | master ch st' h => rw [((masterStep_cases h).touch q).pc]; exact ih.2
  exact hn.2

open Classical in
/-- The turns come. -/
theorem sched_turn (hb : Beyond st₀) (hpos : 0 < st₀.nprocs) (ho : ∀ q, st₀.nprocs ≤ q → (st₀.procs q).pc = .probe)
    (k : Nat) : pick bar (2 * k + 1) (sched env st₀ bar (2 * k + 1)) =
      if bar (sched env st₀ bar (2 * k + 1)) ((turn k).label (sched env st₀ bar (2 * k + 1))) then
        skip (sched env st₀ bar (2 * k + 1))
      else (turn k).label (sched env st₀ bar (2 * k + 1)) := by
  have key : (turn k).late (sched env st₀ bar (2 * k + 1)) = none := by
    have hr := sched_reachable (env := env) (st₀ := st₀) (bar := bar) (2 * k)
    obtain ⟨h1, h2⟩ := reachable_shape hr hb
    have hout := fun q => reachable_outside hr ho (q := q)
    rw [sched]
    generalize sched env st₀ bar (2 * k) = st at *
    have hdiv : 2 * k / 2 = k := by omega
    have hmod : 2 * k % 2 = 0 := by omega
    cases hl : (turn k).late st with
    | none =>
      have hp : pick bar (2 * k) st = skip st := by
        unfold pick
        rw [hdiv, hl]
        simp [hmod]
      rw [hp, skip_step]
      exact hl
    | some x =>
      have hp : pick bar (2 * k) st = .thread x.1 x.2 := by
        unfold pick
        rw [hdiv, hl]
        simp [hmod]
      obtain ⟨h3, h4⟩ := Option.filter_eq_some_iff.1 hl
      have h4 : ((st.procs x.1).thr x.2).phase = .wait := by simpa using h4
      have hx1 : x.1 < st.nprocs := by
        rw [h2]
        by_contra hx
        have := hout x.1 (by omega)
        cases ht : turn k with
        | thread ix i => rw [ht] at h3; cases h3
        | master =>
          rw [ht] at h3
          unfold Turn.target at h3
          simp only at h3
          split at h3 <;> cases h3 <;> exact hx hpos
        | worker ix =>
          rw [ht] at h3
          unfold Turn.target at h3
          simp only at h3
          split at h3
          · rename_i i hpc
            cases h3
            rw [hpc] at this
            cases this
          · rename_i i hpc
            cases h3
            rw [hpc] at this
            cases this
          · cases h3
      have hx2 : x.2 < (st.procs x.1).size := by
        by_contra hx
        rw [h1 x.1 x.2 (by omega)] at h4
        cases h4
      have hstep : step env st (pick bar (2 * k) st) = .ok (some (st.setProc x.1 ((st.procs x.1).setThread x.2
          { (st.procs x.1).thr x.2 with phase := .sleep }))) := by
        rw [hp]
        simp only [step]
        rw [if_pos ⟨hx1, hx2⟩]
        unfold Proc.threadStep
        simp only
        rw [h4]
        rfl
      rw [hstep]
      simp only
      refine Option.filter_eq_none_iff.2 fun y hy => ?_
      have htarget : (turn k).target (st.setProc x.1 ((st.procs x.1).setThread x.2
          { (st.procs x.1).thr x.2 with phase := .sleep })) = (turn k).target st := by
        cases turn k with
        | thread ix i => rfl
        | master => rfl
        | worker ix =>
          unfold Turn.target
          simp only
          have : ((st.setProc x.1 ((st.procs x.1).setThread x.2
              { (st.procs x.1).thr x.2 with phase := .sleep })).procs ix).pc = (st.procs ix).pc := by
            by_cases hix : ix = x.1
            · subst hix
              rw [show (st.setProc x.1 _).procs x.1 = _ from Function.update_self ..]
              rfl
            · rw [show (st.setProc x.1 _).procs ix = st.procs ix from Function.update_of_ne hix ..]
          rw [this]
      rw [htarget, h3] at hy
      cases hy
      rw [show (st.setProc x.1 _).procs x.1 = _ from Function.update_self ..]
      rw [show ((st.procs x.1).setThread x.2 _).thr x.2 = _ from Function.update_self ..]
      simp
  have hdiv : (2 * k + 1) / 2 = k := by omega
  unfold pick
  rw [hdiv, key]
  simp

end

/-- There is an execution in which all threads of all processes are scheduled unless they are barred, no notification is
lost, and the file names and directories that are needed can be made. -/
theorem exists_sched {env : Env} {st₀ : State} (bar : State → Label → Prop) (hb : Beyond st₀) (hpos : 0 < st₀.nprocs)
    (ho : ∀ q, st₀.nprocs ≤ q → (st₀.procs q).pc = .probe)
    (hsafe : ∀ st, Reachable env st₀ st → ∀ l, ∃ o, step env st l = .ok o)
    (hbar : ∀ st ix i, ¬ bar st (.thread ix i) ∧ ¬ bar st (.spurious ix i)) :
    ∃ (σ : Nat → State) (ls : Nat → Label), σ 0 = st₀ ∧ (∀ n, step env (σ n) (ls n) = .ok (some (σ (n + 1))) ∨
        (step env (σ n) (ls n) = .ok none ∧ σ (n + 1) = σ n)) ∧
      (∀ t : Turn, t ≠ .worker 0 → ∀ n, ∃ m, n ≤ m ∧ (ls m = t.label (σ m) ∨ bar (σ m) (t.label (σ m)))) ∧
      (∀ n, ¬ bar (σ n) (ls n)) ∧ (∀ n, Alert (σ n) (ls n)) ∧ Creating ls := by
  classical
  refine ⟨sched env st₀ bar, fun n => pick bar n (sched env st₀ bar n), rfl, sched_next hsafe, fun t ht n => ?_, fun n => ?_,
    fun n => pick_alert bar n _, fun n ch h => pick_create bar h⟩
  · obtain ⟨k, h1, h2⟩ := turn_recurs t ht n
    refine ⟨2 * k + 1, by omega, ?_⟩
    beta_reduce
    rw [sched_turn hb hpos ho, h2]
    split
    · right; assumption
    · left; rfl
  · beta_reduce
    unfold pick
    split
    · split
      · exact (hbar _ _ _).1
      · exact (hbar _ _ _).2
    · split
      · exact (hbar _ _ _).2
      · rename_i h
        exact fun hx => h (Or.inr hx)

/-- There is an execution in which all threads of all processes are scheduled, no notification is lost, and the file
names and directories that are needed can be made. -/
theorem exists_exec {env : Env} {st₀ : State} (hb : Beyond st₀) (hpos : 0 < st₀.nprocs)
    (ho : ∀ q, st₀.nprocs ≤ q → (st₀.procs q).pc = .probe)
    (hsafe : ∀ st, Reachable env st₀ st → ∀ l, ∃ o, step env st l = .ok o) :
    ∃ σ ls, Exec env st₀ σ ls ∧ (∀ n, Alert (σ n) (ls n)) ∧ Renewing σ ls ∧ Creating ls := by
  obtain ⟨σ, ls, h1, h2, h3, _, h4, h5⟩ := exists_sched (fun _ _ => False) hb hpos ho hsafe fun _ _ _ => ⟨id, id⟩
  have hturn : ∀ t : Turn, t ≠ .worker 0 → ∀ n, ∃ m, n ≤ m ∧ ls m = t.label (σ m) := by
    intro t ht n
    obtain ⟨m, h6, h7 | h7⟩ := h3 t ht n
    · exact ⟨m, h6, h7⟩
    · exact h7.elim
  refine ⟨σ, ls, ⟨h1, h2, fun ix i _ _ n => ?_, fun ix h0 _ n => ?_, fun n => ?_⟩, h4, fun n => ?_, h5⟩
  · exact hturn (.thread ix i) (by simp) n
  · exact hturn (.worker ix) (by simp; omega) n
  · obtain ⟨m, h1, h2⟩ := hturn .master (by simp) n
    exact ⟨m, h1, _, h2⟩
  · obtain ⟨m, h1, h2⟩ := hturn .master (by simp) n
    exact ⟨m, h1, _, h2, fun f d _ h4 _ h5 => newId_fresh h4 h5⟩

end Mpi
end Hycu
