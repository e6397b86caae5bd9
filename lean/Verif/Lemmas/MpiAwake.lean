import Verif.Lemmas.MpiLive
import Verif.Spec.MpiRun

/-!
Threads of runs with several processes that wait or are told to stop.
-/

namespace Hycu
namespace Mpi

open Run (Tables Job Phase Thread ThreadPool FileStoreObj Cmd Cont Choice Env eraseFinished)

/-- Steps of the main thread of a worker, with the places where they happen. -/
inductive WMove (p : Proc) : Proc → Prop
  | config (hpc : p.pc = .probe) (c : ConfigNode) (ms : List Msg) (hi : p.inbox = .config c :: ms) :
      WMove p ({ p with inbox := ms }.update c)
  | assign (hpc : p.pc = .probe) (o : Bool) (b : Block) (ms : List Msg) (hi : p.inbox = .assign o b :: ms)
      (r : Proc × Nat) (hr : { p with inbox := ms }.assign b o = .ok r) : WMove p { r.1 with pc := .notify r.2 }
  | request (hpc : p.pc = .probe) (r : Req) (ms : List Msg) (hi : p.inbox = r.msg :: ms) (p' : Proc)
      (hp : { p with inbox := ms }.handle r.msg = .ok p') : WMove p p'
  | shutdown (hpc : p.pc = .probe) (ms : List Msg) (hi : p.inbox = .shutdown :: ms) :
      WMove p { p with inbox := ms, pc := .shutdown 0 }
  | notify (i : Nat) (hpc : p.pc = .notify i) : WMove p { p.wake i with pc := .probe }
  | stop (i : Nat) (hpc : p.pc = .shutdown i) (hi : i < p.size) : WMove p { p.stop i with pc := .shutNotify i }
  | stopEnd (i : Nat) (hpc : p.pc = .shutdown i) (hi : ¬ i < p.size) : WMove p { p with pc := .returned }
  | shutNotify (i : Nat) (hpc : p.pc = .shutNotify i) : WMove p { p.wake i with pc := .join i }
  | join (i : Nat) (hpc : p.pc = .join i) (hd : (p.thr i).phase = .done) : WMove p { p with pc := .shutdown (i + 1) }

theorem workerStep_move {p p' : Proc} (h : p.workerStep = .ok (some p')) : WMove p p' := by
  unfold Proc.workerStep at h
  split at h
  · rename_i hpc
    split at h
    · cases h
    · rename_i m ms hi
      cases m with
      | config c =>
        cases h
        exact .config hpc c ms hi
      | assign o b =>
        unfold Proc.handle at h
        simp only at h
        obtain ⟨r, hr, h⟩ := Res.bind_eq_ok.1 (Run.some_map_ok h)
        cases h
        exact .assign hpc o b ms hi r hr
      | readyThreads => exact .request hpc .ready ms hi p' (Run.some_map_ok h)
      | save => exact .request hpc .save ms hi p' (Run.some_map_ok h)
      | finishedBlocks => exact .request hpc .finished ms hi p' (Run.some_map_ok h)
      | shutdown =>
        cases h
        exact .shutdown hpc ms hi
  · rename_i i hpc
    cases h
    exact .notify i hpc
  · rename_i i hpc
    split at h
    · rename_i hi
      cases h
      exact .stop i hpc hi
    · rename_i hi
      cases h
      exact .stopEnd i hpc hi
  · rename_i i hpc
    cases h
    exact .shutNotify i hpc
  · rename_i i hpc
    split at h
    · rename_i hd
      cases h
      exact .join i hpc hd
    · cases h
  · cases h

/-- What a worker changes when it answers. -/
theorem handle_req {p p' : Proc} {r : Req} (h : p.handle r.msg = .ok p') :
    p'.size = p.size ∧ p'.thr = p.thr ∧ p'.pc = p.pc ∧ p'.inbox = p.inbox ∧
      (p'.pool.finished = p.pool.finished ∧ p'.finishedOut = p.finishedOut ∨ p'.pool.finished = []) ∧
      (p'.pool.ready = p.pool.ready ∧ p'.readyOut = p.readyOut ∨ p'.pool.ready = []) := by
  cases r with
  | finished => cases h; exact ⟨rfl, rfl, rfl, rfl, Or.inr rfl, Or.inl ⟨rfl, rfl⟩⟩
  | ready => cases h; exact ⟨rfl, rfl, rfl, rfl, Or.inl ⟨rfl, rfl⟩, Or.inr rfl⟩
  | save => cases h; exact ⟨rfl, rfl, rfl, rfl, Or.inl ⟨rfl, rfl⟩, Or.inl ⟨rfl, rfl⟩⟩

/-- Steps of a thread, with the phases. -/
inductive TMove (env : Env) (p : Proc) (i : Nat) : Proc → Prop
  | stop (hp : (p.thr i).phase = .check) (hs : (p.thr i).stop = true) :
      TMove env p i (p.setThread i { p.thr i with phase := .done })
  | wait (hp : (p.thr i).phase = .check) (hs : (p.thr i).stop = false) (hq : (p.thr i).queue = []) :
      TMove env p i (p.setThread i { p.thr i with phase := .wait })
  | pick (hp : (p.thr i).phase = .check) (hs : (p.thr i).stop = false) (hq : (p.thr i).queue ≠ []) :
      TMove env p i (p.setThread i { p.thr i with phase := .pop })
  | doze (hp : (p.thr i).phase = .wait) : TMove env p i (p.setThread i { p.thr i with phase := .sleep })
  | pop (j : Job) (q : List Job) (hp : (p.thr i).phase = .pop) (hq : (p.thr i).queue = j :: q) :
      TMove env p i (p.setThread i { p.thr i with queue := q, phase := .compute j })
  | compute (j : Job) (hp : (p.thr i).phase = .compute j) (s : Store.Static) :
      TMove env p i { p.setThread i { p.thr i with phase := .report j } with static := s }
  | report (j : Job) (hp : (p.thr i).phase = .report j) (r : ThreadPool) :
      TMove env p i { p.setThread i { p.thr i with phase := .check } with pool := r }
  | spurious (hp : (p.thr i).phase = .sleep) : TMove env p i (p.setThread i { p.thr i with phase := .check })

theorem threadStep_move {env : Env} {p p' : Proc} {i : Nat} (h : p.threadStep env i = .ok (some p')) :
    TMove env p i p' := by
  unfold Proc.threadStep at h
  simp only at h
  split at h
  · rename_i hp
    split at h
    · rename_i hs
      cases h
      exact .stop hp hs
    · rename_i hs
      split at h
      · rename_i hq
        cases h
        exact .wait hp (by simpa using hs) hq
      · rename_i hq
        cases h
        exact .pick hp (by simpa using hs) hq
  · rename_i hp
    cases h
    exact .doze hp
  · cases h
  · rename_i hp
    split at h
    · cases h
    · rename_i j q hq
      cases h
      exact .pop j q hp hq
  · rename_i j hp
    split at h
    · cases h
    · obtain ⟨m, hm, h⟩ := Res.bind_eq_ok.1 h
      obtain ⟨r, hf, h⟩ := Res.bind_eq_ok.1 h
      cases h
      exact .compute j hp r.1
  · rename_i j hp
    obtain ⟨r, hf, h⟩ := Res.bind_eq_ok.1 h
    cases h
    exact .report j hp r
  · cases h

/-- Steps with labels. -/
inductive Move (env : Env) (st : State) : Label → State → Prop
  | thread (ix i : Nat) (hx : ix < st.nprocs) (hi : i < (st.procs ix).size) (p : Proc)
      (h : TMove env (st.procs ix) i p) (hp : ((st.procs ix).thr i).phase ≠ .sleep) :
      Move env st (.thread ix i) (st.setProc ix p)
  | spurious (ix i : Nat) (hx : ix < st.nprocs) (hi : i < (st.procs ix).size)
      (hp : ((st.procs ix).thr i).phase = .sleep) :
      Move env st (.spurious ix i) (st.setProc ix ((st.procs ix).setThread i { (st.procs ix).thr i with phase := .check }))
  | worker (ix : Nat) (h0 : 0 < ix) (hx : ix < st.nprocs) (p : Proc) (h : WMove (st.procs ix) p) :
      Move env st (.worker ix) (st.setProc ix p)
  | master (ch : Choice) (st' : State) (h : masterStep st ch = .ok (some st')) : Move env st (.master ch) st'

theorem step_move {env : Env} {st st' : State} {l : Label} (h : step env st l = .ok (some st')) : Move env st l st' := by
  cases l with
  | thread ix i =>
    simp only [step] at h
    split at h
    · rename_i hi
      obtain ⟨p, hp, h⟩ := Res.bind_eq_ok.1 h
      cases p with
      | none => cases h
      | some p =>
        cases h
        refine .thread ix i hi.1 hi.2 p (threadStep_move hp) fun hs => ?_
        simp only [Proc.threadStep, hs] at hp
        cases hp
    · cases h
  | master ch => exact .master ch st' h
  | worker ix =>
    simp only [step] at h
    split at h
    · rename_i hi
      obtain ⟨p, hp, h⟩ := Res.bind_eq_ok.1 h
      cases p with
      | none => cases h
      | some p =>
        cases h
        exact .worker ix hi.1 hi.2 p (workerStep_move hp)
    · cases h
  | spurious ix i =>
    simp only [step] at h
    split at h
    · rename_i hi
      cases h
      have : (st.procs ix).wake i = (st.procs ix).setThread i { (st.procs ix).thr i with phase := .check } := by
        unfold Proc.wake
        rw [if_pos hi.2.2]
      rw [this]
      exact .spurious ix i hi.1 hi.2.1 hi.2.2
    · cases h

/-! ### Places of main threads -/

/-- Where the main thread of the master is, seen as the main thread of a process with threads. -/
def Pc.place : Pc → WorkerPc
  | .notify i _ => .notify i
  | .shutdown i => .shutdown i
  | .shutNotify i => .shutNotify i
  | .join i => .join i
  | .finished => .returned
  | _ => .probe

/-- Where the main thread of a process is. -/
def State.place (st : State) (q : Nat) : WorkerPc := if q = 0 then st.pc.place else (st.procs q).pc

/-- The threads are being stopped. -/
def WorkerPc.ending : WorkerPc → Prop
  | .shutdown _ | .shutNotify _ | .join _ | .returned => True
  | _ => False

/-- What is known about the threads of a process. -/
structure Tidy (w : WorkerPc) (p : Proc) : Prop where
  queue : ∀ i, ((p.thr i).phase = .wait ∨ (p.thr i).phase = .sleep) → (p.thr i).queue ≠ [] → w = .notify i
  stop : ∀ i, ((p.thr i).phase = .wait ∨ (p.thr i).phase = .sleep) → (p.thr i).stop = true → w = .shutNotify i
  done : ∀ i, (p.thr i).phase = .done → (p.thr i).stop = true
  flag : ∀ i, (p.thr i).stop = true → w.ending
  join : ∀ i, w = .shutNotify i ∨ w = .join i → i < p.size ∧ (p.thr i).stop = true

namespace Tidy

variable {w w' : WorkerPc} {p p' : Proc}

theorem congr (h : Tidy w p) (h1 : p'.thr = p.thr) (h2 : p'.size = p.size) : Tidy w p' := by
  refine ⟨?_, ?_, ?_, ?_, ?_⟩
  · rw [h1]; exact h.queue
  · rw [h1]; exact h.stop
  · rw [h1]; exact h.done
  · rw [h1]; exact h.flag
  · rw [h1, h2]; exact h.join

/-- The main thread moves on. -/
theorem go (h : Tidy w p) (h1 : ∀ i, w ≠ .notify i) (h2 : ∀ i, w ≠ .shutNotify i) (h3 : w.ending → w'.ending)
    (h4 : ∀ i, w' ≠ .shutNotify i) (h5 : ∀ i, w' ≠ .join i) : Tidy w' p :=
  ⟨fun i hp hq => absurd (h.queue i hp hq) (h1 i), fun i hp hs => absurd (h.stop i hp hs) (h2 i), h.done,
    fun i hs => h3 (h.flag i hs), fun i hi => hi.elim (fun hi => absurd hi (h4 i)) fun hi => absurd hi (h5 i)⟩

/-- A thread makes a step. -/
theorem thread (h : Tidy w p) {i : Nat} {t : Thread} (h1 : p'.thr = (p.setThread i t).thr) (h2 : p'.size = p.size)
    (h3 : (t.phase = .wait ∨ t.phase = .sleep) → (t.queue ≠ [] → w = .notify i) ∧ (t.stop = true → w = .shutNotify i))
    (h4 : t.phase = .done → t.stop = true) (h5 : t.stop = (p.thr i).stop) : Tidy w p' := by
  refine ⟨?_, ?_, ?_, ?_, ?_⟩
  · rw [h1]
    exact Proc.setThread_cases (P := fun i t => (t.phase = .wait ∨ t.phase = .sleep) → t.queue ≠ [] → w = .notify i)
      h.queue fun hp => (h3 hp).1
  · rw [h1]
    exact Proc.setThread_cases (P := fun i t => (t.phase = .wait ∨ t.phase = .sleep) → t.stop = true → w = .shutNotify i)
      h.stop fun hp => (h3 hp).2
  · rw [h1]
    exact Proc.setThread_cases (P := fun i t => t.phase = .done → t.stop = true) h.done h4
  · rw [h1]
    exact Proc.setThread_cases (P := fun i t => t.stop = true → w.ending) h.flag (by rw [h5]; exact h.flag i)
  · rw [h1, h2]
    intro k hk
    refine ⟨(h.join k hk).1, ?_⟩
    have := congrFun (Proc.setThread_view Thread.stop p i t h5) k
    exact this.trans (h.join k hk).2

theorem move (h : Tidy w p) {env : Env} {i : Nat} (ht : TMove env p i p') : Tidy w p' := by
  cases ht with
  | stop hp hs => exact h.thread rfl rfl (by rintro (h | h) <;> cases h) (fun _ => hs) rfl
  | wait hp hs hq =>
    exact h.thread rfl rfl (fun _ => ⟨fun h => absurd hq h, fun h => by rw [hs] at h; cases h⟩) (by intro h; cases h) rfl
  | pick hp hs hq => exact h.thread rfl rfl (by rintro (h | h) <;> cases h) (by intro h; cases h) rfl
  | doze hp => exact h.thread rfl rfl (fun _ => ⟨h.queue i (Or.inl hp), h.stop i (Or.inl hp)⟩) (by intro h; cases h) rfl
  | pop j q hp hq => exact h.thread rfl rfl (by rintro (h | h) <;> cases h) (by intro h; cases h) rfl
  | compute j hp s => exact h.thread rfl rfl (by rintro (h | h) <;> cases h) (by intro h; cases h) rfl
  | report j hp r => exact h.thread rfl rfl (by rintro (h | h) <;> cases h) (by intro h; cases h) rfl
  | spurious hp => exact h.thread rfl rfl (by rintro (h | h) <;> cases h) (by intro h; cases h) rfl

theorem wake_thr (p : Proc) (i k : Nat) : (p.wake i).thr k = if k = i ∧ (p.thr i).phase = .sleep then
    { p.thr i with phase := .check } else p.thr k := by
  unfold Proc.wake
  by_cases hs : (p.thr i).phase = .sleep
  · rw [if_pos hs]
    show Function.update p.thr i _ k = _
    by_cases hk : k = i
    · subst hk
      rw [Function.update_self, if_pos ⟨rfl, hs⟩]
    · rw [Function.update_of_ne hk, if_neg fun h => hk h.1]
  · rw [if_neg hs, if_neg fun h => hs h.2]

/-- A thread is notified. -/
theorem wake (h : Tidy w p) {i : Nat} (hw : w = .shutNotify i ∨ w = .notify i) (ha : (p.thr i).phase ≠ .wait)
    (h1 : p'.thr = (p.wake i).thr) (h2 : p'.size = p.size) (h3 : w.ending → w'.ending) (h4 : ∀ k, w' ≠ .shutNotify k)
    (h5 : ∀ k, w' = .join k → w = .shutNotify k) : Tidy w' p' := by
  have key : ∀ k, ((p'.thr k).phase = .wait ∨ (p'.thr k).phase = .sleep) → k ≠ i ∧ p'.thr k = p.thr k := by
    intro k hk
    rw [h1, wake_thr] at hk ⊢
    split at hk
    · rcases hk with hk | hk <;> cases hk
    · rename_i hno
      rw [if_neg hno]
      refine ⟨?_, rfl⟩
      rintro rfl
      rcases hk with hk | hk
      · exact ha hk
      · exact hno ⟨rfl, hk⟩
  have hstop : ∀ k, (p'.thr k).stop = (p.thr k).stop := by
    intro k
    rw [h1, wake_thr]
    split
    · rename_i hk
      rw [hk.1]
    · rfl
  refine ⟨fun k hp hq => ?_, fun k hp hs => ?_, fun k hp => ?_, fun k hs => ?_, fun k hk => ?_⟩
  · obtain ⟨e1, e2⟩ := key k hp
    rw [e2] at hp hq
    have := h.queue k hp hq
    rcases hw with hw | hw <;> rw [hw] at this <;> cases this
    exact absurd rfl e1
  · obtain ⟨e1, e2⟩ := key k hp
    rw [e2] at hp hs
    have := h.stop k hp hs
    rcases hw with hw | hw <;> rw [hw] at this <;> cases this
    exact absurd rfl e1
  · rw [hstop]
    rw [h1, wake_thr] at hp
    split at hp
    · cases hp
    · exact h.done k hp
  · rw [hstop] at hs
    exact h3 (h.flag k hs)
  · rcases hk with hk | hk
    · exact absurd hk (h4 k)
    · rw [hstop, h2]
      exact h.join k (Or.inl (h5 k hk))

/-- A thread gets a job. -/
theorem assign {b : Block} {o : Bool} {r : Proc × Nat} (hr : p.assign b o = .ok r) (h : Tidy .probe p) :
    Tidy (.notify r.2) r.1 := by
  unfold Proc.assign at hr
  obtain ⟨r', _, hr⟩ := Res.bind_eq_ok.1 hr
  cases hr
  have hs : ∀ i, (p.thr i).stop = true → False := fun i hi => h.flag i hi
  have hs' : ∀ k, ((p.setThread r'.2 { p.thr r'.2 with
      queue := (p.thr r'.2).queue ++ [⟨b, (p.thr r'.2).tables⟩] }).thr k).stop = true → False :=
    Proc.setThread_cases (P := fun i t => t.stop = true → False) hs (hs r'.2)
  refine ⟨?_, fun i hp hi => (hs' i hi).elim, ?_, fun i hi => (hs' i hi).elim, ?_⟩
  · intro k hp hq
    by_cases hk : k = r'.2
    · rw [hk]
    · have e : ∀ t, (p.setThread r'.2 t).thr k = p.thr k := fun t => Function.update_of_ne hk ..
      have hp' : ((p.setThread r'.2 _).thr k).phase = .wait ∨ ((p.setThread r'.2 _).thr k).phase = .sleep := hp
      have hq' : ((p.setThread r'.2 _).thr k).queue ≠ [] := hq
      rw [e] at hp' hq'
      cases h.queue k hp' hq'
  · exact Proc.setThread_cases (P := fun i t => t.phase = .done → t.stop = true) h.done (h.done r'.2)
  · rintro i (h | h) <;> cases h

/-- A thread is told to stop. -/
theorem tell {i : Nat} (h : Tidy (.shutdown i) p) (hi : i < p.size) (h1 : p'.thr = (p.stop i).thr)
    (h2 : p'.size = p.size) : Tidy (.shutNotify i) p' := by
  have hself : ((p.stop i).thr i).stop = true := by
    show ((p.setThread i _).thr i).stop = true
    simp only [Proc.setThread, Function.update_self]
  refine ⟨?_, ?_, ?_, fun _ _ => trivial, ?_⟩
  · rw [h1]
    have : ∀ k, ((p.thr k).phase = .wait ∨ (p.thr k).phase = .sleep) → (p.thr k).queue ≠ [] →
        WorkerPc.shutNotify i = .notify k := fun k hp hq => by cases h.queue k hp hq
    exact Proc.setThread_cases (P := fun k t => (t.phase = .wait ∨ t.phase = .sleep) → t.queue ≠ [] →
      WorkerPc.shutNotify i = .notify k) this (this i)
  · rw [h1]
    intro k hp hs
    by_cases hk : k = i
    · rw [hk]
    · have e : (p.stop i).thr k = p.thr k := Function.update_of_ne hk ..
      rw [e] at hp hs
      cases h.stop k hp hs
  · rw [h1]
    exact Proc.setThread_cases (P := fun i t => t.phase = .done → t.stop = true) h.done fun _ => rfl
  · rintro k (hk | hk) <;> cases hk
    rw [h1, h2]
    exact ⟨hi, hself⟩

theorem worker (h : Tidy p.pc p) (hw : WMove p p')
    (ha : ∀ i, (p.pc = .shutNotify i ∨ p.pc = .notify i) → (p.thr i).phase ≠ .wait) : Tidy p'.pc p' := by
  cases hw with
  | config hpc c ms hi =>
    have hf : ∀ i, ((p.thr i).phase = .wait ∨ (p.thr i).phase = .sleep) → (p.thr i).queue ≠ [] → p.pc = .notify i := h.queue
    exact ⟨h.queue, h.stop, h.done, h.flag, h.join⟩
  | assign hpc o b ms hi r hr =>
    rw [hpc] at h
    have : Tidy .probe { p with inbox := ms } := h.congr rfl rfl
    exact (this.assign hr).congr rfl rfl
  | request hpc r ms hi p' hp =>
    obtain ⟨e1, e2, e3, _⟩ := handle_req hp
    rw [e3]
    exact h.congr e2 e1
  | shutdown hpc ms hi =>
    rw [hpc] at h
    exact (h.congr (p' := { p with inbox := ms, pc := .shutdown 0 }) rfl rfl).go (by simp) (by simp) (fun _ => trivial)
      (by simp) (by simp)
  | notify i hpc =>
    refine h.wake (Or.inr hpc) (ha i (Or.inr hpc)) rfl (p.wake_kin i).size (fun he => ?_) (by simp) (by simp)
    rw [hpc] at he
    cases he
  | stop i hpc hi =>
    rw [hpc] at h
    exact h.tell hi rfl rfl
  | stopEnd i hpc hi =>
    rw [hpc] at h
    exact (h.congr (p' := { p with pc := .returned }) rfl rfl).go (by simp) (by simp) (fun _ => trivial) (by simp) (by simp)
  | shutNotify i hpc =>
    refine h.wake (Or.inl hpc) (ha i (Or.inl hpc)) rfl (p.wake_kin i).size (fun _ => trivial) (by simp) ?_
    rintro k ⟨⟩
    exact hpc
  | join i hpc hd =>
    rw [hpc] at h
    exact (h.congr (p' := { p with pc := .shutdown (i + 1) }) rfl rfl).go (by simp) (by simp) (fun _ => trivial)
      (by simp) (by simp)

end Tidy

/-- What is known about the threads of all processes. -/
def Neat (st : State) : Prop := ∀ q, q < st.nprocs → Tidy (st.place q) (st.procs q)

/-- The master does not change the threads of other processes. -/
theorem MStep.other {st st' : State} (h : MStep st st') {q : Nat} (hq : q ≠ 0) :
    (st'.procs q).thr = (st.procs q).thr := by
  have far : ∀ (p : Proc), (Function.update st.procs 0 p q).thr = (st.procs q).thr := fun p => by
    rw [Function.update_of_ne hq]
  have near : ∀ (ix : Nat) (p : Proc), p.thr = (st.procs ix).thr → (Function.update st.procs ix p q).thr = (st.procs q).thr := by
    intro ix p hp
    by_cases hx : q = ix
    · subst hx
      rw [Function.update_self, hp]
    · rw [Function.update_of_ne hx]
  cases h with
  | flush c hpc a ha => exact far _
  | flushSend ix c hpc hi => exact near _ _ rfl
  | flushRecv ix c hpc bs rest ho a ha => exact near _ _ rfl
  | ready hpc => exact far _
  | readySend ix hpc hi => exact near _ _ rfl
  | readyRecv ix hpc n rest ho => exact near _ _ rfl
  | saveLost k hpc f hf h => exact far _
  | saveStart k hpc f hf hv d hd id hid => exact far _
  | saveSend ix k hpc hi => exact near _ _ rfl
  | recvLost ix k hpc s rest ho f hf h => exact near _ _ rfl
  | recvStart ix k hpc s rest ho f hf hv d hd id hid => exact near _ _ rfl
  | update hpc c rest ht => exact far _
  | configSend ix hpc c rest ht hi => exact near _ _ rfl
  | takeLocal hpc b rest ht o cq oq hq r hr => exact far _
  | takeRemote hpc b rest ht o ix hix cq oq hq => exact near _ _ rfl
  | notify i b hpc => exact far _
  | stopSend ix hpc hi => exact near _ _ rfl
  | shutdown i hpc hi => exact far _
  | shutNotify i hpc => exact far _
  | _ => rfl

/-- Threads of the master. -/
theorem Tidy.master {st st' : State} (h : Tidy st.pc.place (st.procs 0)) (hm : MStep st st')
    (ha : ∀ i, (st.pc = .shutNotify i ∨ ∃ b, st.pc = .notify i b) → ((st.procs 0).thr i).phase ≠ .wait) :
    Tidy st'.pc.place (st'.procs 0) := by
  have keep : ∀ (pc' : Pc) (p : Proc), st.pc.place = .probe → pc'.place = .probe → p.thr = (st.procs 0).thr →
      p.size = (st.procs 0).size → Tidy pc'.place p := by
    intro pc' p h1 h2 h3 h4
    rw [h2]
    rw [h1] at h
    exact h.congr h3 h4
  have near : ∀ (ix : Nat) (p : Proc), p.thr = (st.procs ix).thr → p.size = (st.procs ix).size →
      (Function.update st.procs ix p 0).thr = (st.procs 0).thr ∧ (Function.update st.procs ix p 0).size = (st.procs 0).size := by
    intro ix p hp hs
    by_cases hx : 0 = ix
    · subst hx
      rw [Function.update_self]
      exact ⟨hp, hs⟩
    · rw [Function.update_of_ne hx]
      exact ⟨rfl, rfl⟩
  have self : ∀ (p : Proc), Function.update st.procs 0 p 0 = p := fun p => Function.update_self ..
  have put : ∀ (ix : Nat) (pc' : Pc) (p : Proc), st.pc.place = .probe → pc'.place = .probe → p.thr = (st.procs ix).thr →
      p.size = (st.procs ix).size → Tidy pc'.place (Function.update st.procs ix p 0) :=
    fun ix pc' p h1 h2 h3 h4 => keep pc' _ h1 h2 (near ix p h3 h4).1 (near ix p h3 h4).2
  cases hm with
  | mainEnd hpc => exact keep _ _ (by rw [hpc]; rfl) rfl rfl rfl
  | mainConfig hpc c rest ht create v hv => exact keep _ _ (by rw [hpc]; rfl) (by split <;> rfl) rfl rfl
  | mainAssign hpc b rest ht now => exact keep _ _ (by rw [hpc]; rfl) (by split <;> rfl) rfl rfl
  | flush c hpc a ha => exact put 0 _ _ (by rw [hpc]; rfl) rfl rfl rfl
  | flushSend ix c hpc hi => exact put ix _ _ (by rw [hpc]; rfl) rfl rfl rfl
  | flushEnd ix c hpc hi => exact keep _ _ (by rw [hpc]; rfl) (by cases c <;> rfl) rfl rfl
  | flushRecv ix c hpc bs rest ho a ha =>
    exact put ix _ _ (by rw [hpc]; rfl) rfl rfl rfl
  | waited k hpc hw => exact keep _ _ (by rw [hpc]; rfl) rfl rfl rfl
  | waitOn k hpc => exact keep _ _ (by rw [hpc]; rfl) rfl rfl rfl
  | ready hpc => exact put 0 _ _ (by rw [hpc]; rfl) rfl rfl rfl
  | readySend ix hpc hi => exact put ix _ _ (by rw [hpc]; rfl) rfl rfl rfl
  | readyEnd ix hpc hi => exact keep _ _ (by rw [hpc]; rfl) rfl rfl rfl
  | readyRecv ix hpc n rest ho => exact put ix _ _ (by rw [hpc]; rfl) rfl rfl rfl
  | fillOn hpc => exact keep _ _ (by rw [hpc]; rfl) rfl rfl rfl
  | filled hpc hw => exact keep _ _ (by rw [hpc]; rfl) rfl rfl rfl
  | saveNone k hpc hf => exact keep _ _ (by rw [hpc]; rfl) (by cases k <;> rfl) rfl rfl
  | saveLost k hpc f hf hl => exact put 0 _ _ (by rw [hpc]; rfl) rfl rfl rfl
  | saveStart k hpc f hf hv d hd id' hid =>
    exact put 0 _ _ (by rw [hpc]; rfl) rfl rfl rfl
  | saveSend ix k hpc hi => exact put ix _ _ (by rw [hpc]; rfl) rfl rfl rfl
  | saveEnd ix k hpc hi => exact keep _ _ (by rw [hpc]; rfl) (by cases k <;> rfl) rfl rfl
  | recvLost ix k hpc s rest ho f hf hl =>
    exact put ix _ _ (by rw [hpc]; rfl) rfl rfl rfl
  | recvStart ix k hpc s rest ho f hf hv d hd id' hid =>
    exact put ix _ _ (by rw [hpc]; rfl) rfl rfl rfl
  | writeEnd ix k hpc => exact keep _ _ (by rw [hpc]; rfl) rfl rfl rfl
  | writeLost ix k n c ws hpc hl => exact keep _ _ (by rw [hpc]; rfl) rfl rfl rfl
  | write ix k n c ws hpc f hf d hd => exact keep _ _ (by rw [hpc]; rfl) rfl rfl rfl
  | newStoreInvalid hpc c rest ht hd => exact keep _ _ (by rw [hpc]; rfl) rfl rfl rfl
  | newStore hpc c rest ht d hd r hr => exact keep _ _ (by rw [hpc]; rfl) rfl rfl rfl
  | update hpc c rest ht =>
    rw [hpc] at h
    show Tidy .probe (Function.update st.procs 0 _ 0)
    rw [self]
    exact ⟨h.queue, h.stop, h.done, h.flag, h.join⟩
  | configSend ix hpc c rest ht hi => exact put ix _ _ (by rw [hpc]; rfl) rfl rfl rfl
  | configEnd ix hpc c rest ht hi => exact keep _ _ (by rw [hpc]; rfl) rfl rfl rfl
  | skip hpc b rest ht f hf hc => exact keep _ _ (by rw [hpc]; rfl) rfl rfl rfl
  | fill hpc b rest ht f hf hc => exact keep _ _ (by rw [hpc]; rfl) rfl rfl rfl
  | noFill hpc b rest ht f hf hc ho => exact keep _ _ (by rw [hpc]; rfl) rfl rfl rfl
  | takeLocal hpc b rest ht o cq oq hq r hr =>
    rw [hpc] at h
    show Tidy (.notify r.2) (Function.update st.procs 0 _ 0)
    rw [self]
    exact Tidy.assign hr h
  | takeRemote hpc b rest ht o ix hix cq oq hq =>
    exact put ix _ _ (by rw [hpc]; rfl) rfl rfl rfl
  | notify i b hpc =>
    rw [hpc] at h
    show Tidy .probe (Function.update st.procs 0 _ 0)
    rw [self]
    exact h.wake (Or.inr rfl) (ha i (Or.inr ⟨b, hpc⟩)) rfl ((st.procs 0).wake_kin i).size id (by simp) (by simp)
  | insert ix b hpc => exact keep _ _ (by rw [hpc]; rfl) rfl rfl rfl
  | stopSend ix hpc hi => exact put ix _ _ (by rw [hpc]; rfl) rfl rfl rfl
  | stopEnd ix hpc hi =>
    rw [hpc] at h
    exact h.go (by simp [Pc.place]) (by simp [Pc.place]) (fun _ => trivial) (by simp [Pc.place]) (by simp [Pc.place])
  | shutdown i hpc hi =>
    rw [hpc] at h
    show Tidy (.shutNotify i) (Function.update st.procs 0 _ 0)
    rw [self]
    exact h.tell hi rfl rfl
  | shutdownEnd i hpc hi =>
    rw [hpc] at h
    exact h.go (by simp [Pc.place]) (by simp [Pc.place]) (fun _ => trivial) (by simp [Pc.place]) (by simp [Pc.place])
  | shutNotify i hpc =>
    rw [hpc] at h
    show Tidy (.join i) (Function.update st.procs 0 _ 0)
    rw [self]
    refine h.wake (Or.inl rfl) (ha i (Or.inl hpc)) rfl ((st.procs 0).wake_kin i).size (fun _ => trivial) (by simp) ?_
    rintro k ⟨⟩
    rfl
  | join i hpc hp =>
    rw [hpc] at h
    exact h.go (by simp [Pc.place]) (by simp [Pc.place]) (fun _ => trivial) (by simp [Pc.place]) (by simp [Pc.place])

theorem TMove.keeps {env : Env} {p p' : Proc} {i : Nat} (h : TMove env p i p') : p'.pc = p.pc ∧ p'.inbox = p.inbox ∧
    p'.size = p.size := by
  cases h <;> exact ⟨rfl, rfl, rfl⟩

theorem Neat.proc {st : State} (h : Neat st) {ix : Nat} {p : Proc} (hp : Tidy (st.place ix) (st.procs ix) →
    Tidy ((st.setProc ix p).place ix) p) : Neat (st.setProc ix p) := by
  intro q hq
  by_cases hx : q = ix
  · subst hx
    rw [show (st.setProc q p).procs q = p from Function.update_self ..]
    exact hp (h q hq)
  · have e : (st.setProc ix p).procs q = st.procs q := Function.update_of_ne hx ..
    have e2 : (st.setProc ix p).place q = st.place q := by
      unfold State.place
      rw [e]
      rfl
    rw [e, e2]
    exact h q hq

theorem place_proc {st : State} {ix : Nat} {p : Proc} (hp : p.pc = (st.procs ix).pc) :
    (st.setProc ix p).place ix = st.place ix := by
  unfold State.place
  rw [show (st.setProc ix p).procs ix = p from Function.update_self .., hp]
  rfl

theorem Neat.step {env : Env} {st st' : State} {l : Label} (h : Neat st) (ha : Alert st l)
    (hs : step env st l = .ok (some st')) : Neat st' := by
  cases step_move hs with
  | thread ix i hx hi p ht hp =>
    refine h.proc fun h1 => ?_
    rw [place_proc ht.keeps.1]
    exact h1.move ht
  | spurious ix i hx hi hp =>
    refine h.proc fun h1 => ?_
    have hm : TMove env (st.procs ix) i _ := .spurious hp
    rw [place_proc hm.keeps.1]
    exact h1.move hm
  | worker ix h0 hx p hw =>
    have hne : ix ≠ 0 := by omega
    refine h.proc fun h1 => ?_
    unfold State.place at h1 ⊢
    rw [if_neg hne] at h1 ⊢
    rw [show (st.setProc ix p).procs ix = p from Function.update_self ..]
    exact h1.worker hw ha
  | master ch st' hm =>
    have hm' := masterStep_cases hm
    intro q hq
    rw [hm'.nprocs] at hq
    have h1 := h q hq
    unfold State.place at h1 ⊢
    by_cases h0 : q = 0
    · subst h0
      rw [if_pos rfl] at h1 ⊢
      exact h1.master hm' ha
    · rw [if_neg h0] at h1 ⊢
      rw [(hm'.touch q).pc]
      exact h1.congr (hm'.other h0) (hm'.touch q).kin.size

theorem Neat.initial (kinds : List (List Bool)) (fs : FileSystem) (todo : List Cmd) : Neat (Mpi.initial kinds fs todo) := by
  intro q _
  have hp : (Mpi.initial kinds fs todo).place q = .probe := by
    unfold State.place
    split <;> rfl
  rw [hp]
  refine ⟨?_, ?_, ?_, ?_, ?_⟩
  · rintro i (h | h) <;> cases h
  · rintro i (h | h) <;> cases h
  · intro i h; cases h
  · intro i h; cases h
  · rintro i (h | h) <;> cases h

/-! ### The end of workers -/

/-- Workers that have been told to stop. -/
def Ended (st : State) : Prop := ∀ q, 0 < q → q < st.nprocs → st.pc.closing q →
  (((st.procs q).pc = .probe ∨ ∃ i, (st.procs q).pc = .notify i) ∧ (st.procs q).inbox = [.shutdown]) ∨
    ((st.procs q).pc.ending ∧ (st.procs q).inbox = [])

theorem MStep.closing {st st' : State} (h : MStep st st') {q : Nat} (hc : st'.pc.closing q) :
    st.pc.closing q ∨ (∃ ix, st.pc = .stopSend ix ∧ ((q = ix ∧ ix < st.nprocs ∧ st' = { st.send ix .shutdown with pc := .stopSend (ix + 1) }) ∨ st.nprocs ≤ ix)) ∨
      ∃ k, st'.pc = afterSave k := by
  cases h with
  | mainConfig hpc c rest ht create v hv => exact absurd hc (not_closing_ite id id)
  | mainAssign hpc b rest ht now => exact absurd hc (not_closing_ite id id)
  | flushEnd ix c hpc hi => cases c <;> cases hc
  | saveNone k hpc hf => exact Or.inr (Or.inr ⟨k, rfl⟩)
  | saveEnd ix k hpc hi => exact Or.inr (Or.inr ⟨k, rfl⟩)
  | stopSend ix hpc hi =>
    have hc' : q < ix + 1 := hc
    by_cases hq : q = ix
    · exact Or.inr (Or.inl ⟨ix, hpc, Or.inl ⟨hq, hi, rfl⟩⟩)
    · left
      rw [hpc]
      show q < ix
      omega
  | stopEnd ix hpc hi => exact Or.inr (Or.inl ⟨ix, hpc, Or.inr (by omega)⟩)
  | shutdown i hpc hi => left; rw [hpc]; trivial
  | shutdownEnd i hpc hi => left; rw [hpc]; trivial
  | shutNotify i hpc => left; rw [hpc]; trivial
  | join i hpc hp => left; rw [hpc]; trivial
  | _ => cases hc

theorem Ended.step {env : Env} {st st' : State} {l : Label} (h : Ended st) (hv : Inv st) (hserve : Serves st)
    (hs : step env st l = .ok (some st')) : Ended st' := by
  have proc : ∀ (ix : Nat) (p : Proc), ((((st.procs ix).pc = .probe ∨ ∃ i, (st.procs ix).pc = .notify i) ∧
        (st.procs ix).inbox = [.shutdown]) ∨ ((st.procs ix).pc.ending ∧ (st.procs ix).inbox = []) →
      ((p.pc = .probe ∨ ∃ i, p.pc = .notify i) ∧ p.inbox = [.shutdown]) ∨ (p.pc.ending ∧ p.inbox = [])) →
      Ended (st.setProc ix p) := by
    intro ix p hp q h0 hq hc
    by_cases hx : q = ix
    · subst hx
      rw [show (st.setProc q p).procs q = p from Function.update_self ..]
      exact hp (h q h0 hq hc)
    · rw [show (st.setProc ix p).procs q = st.procs q from Function.update_of_ne hx ..]
      exact h q h0 hq hc
  cases step_move hs with
  | thread ix i hx hi p ht hp =>
    refine proc ix p fun h1 => ?_
    rw [ht.keeps.1, ht.keeps.2.1]
    exact h1
  | spurious ix i hx hi hp => exact proc ix _ id
  | worker ix h0 hx p hw =>
    refine proc ix p fun h1 => ?_
    cases hw with
    | config hpc c ms hi =>
      rcases h1 with ⟨_, h1⟩ | ⟨_, h1⟩ <;> rw [hi] at h1 <;> cases h1
    | assign hpc o b ms hi r hr =>
      rcases h1 with ⟨_, h1⟩ | ⟨_, h1⟩ <;> rw [hi] at h1 <;> cases h1
    | request hpc r ms hi p' hp =>
      rcases h1 with ⟨_, h1⟩ | ⟨_, h1⟩ <;> rw [hi] at h1 <;> cases r <;> cases h1
    | shutdown hpc ms hi =>
      rcases h1 with ⟨_, h1⟩ | ⟨_, h1⟩ <;> rw [hi] at h1 <;> cases h1
      exact Or.inr ⟨trivial, rfl⟩
    | notify i hpc =>
      rcases h1 with ⟨_, h1⟩ | ⟨h2, _⟩
      · exact Or.inl ⟨Or.inl rfl, by rw [← h1]; exact (Proc.wake_keeps _ i).2⟩
      · rw [hpc] at h2
        cases h2
    | stop i hpc hi =>
      rcases h1 with ⟨h2 | ⟨k, h2⟩, _⟩ | ⟨_, h1⟩
      · rw [hpc] at h2; cases h2
      · rw [hpc] at h2; cases h2
      · exact Or.inr ⟨trivial, h1⟩
    | stopEnd i hpc hi =>
      rcases h1 with ⟨h2 | ⟨k, h2⟩, _⟩ | ⟨_, h1⟩
      · rw [hpc] at h2; cases h2
      · rw [hpc] at h2; cases h2
      · exact Or.inr ⟨trivial, h1⟩
    | shutNotify i hpc =>
      rcases h1 with ⟨h2 | ⟨k, h2⟩, _⟩ | ⟨_, h1⟩
      · rw [hpc] at h2; cases h2
      · rw [hpc] at h2; cases h2
      · exact Or.inr ⟨trivial, by rw [← h1]; exact (Proc.wake_keeps _ i).2⟩
    | join i hpc hd =>
      rcases h1 with ⟨h2 | ⟨k, h2⟩, _⟩ | ⟨_, h1⟩
      · rw [hpc] at h2; cases h2
      · rw [hpc] at h2; cases h2
      · exact Or.inr ⟨trivial, h1⟩
  | master ch st' hm =>
    have hm' := masterStep_cases hm
    intro q h0 hq hc
    rw [hm'.nprocs] at hq
    rcases hm'.closing hc with hc' | ⟨ix, hpc, ⟨hqi, hi, hst⟩ | hle⟩ | ⟨k, hpc'⟩
    · have h1 := h q h0 hq hc'
      have hsame : (st'.procs q).pc = (st.procs q).pc ∧ (st'.procs q).inbox = (st.procs q).inbox := by
        refine ⟨(hm'.touch q).pc, ?_⟩
        cases hm' with
        | stopSend ix hpc hi =>
          rw [hpc] at hc'
          show (Function.update st.procs ix _ q).inbox = _
          rw [Function.update_of_ne (Nat.ne_of_lt hc')]
        | stopEnd ix hpc hi => rfl
        | shutdown i hpc hi =>
          show (Function.update st.procs 0 _ q).inbox = _
          rw [Function.update_of_ne (by omega)]
        | shutdownEnd i hpc hi => rfl
        | shutNotify i hpc =>
          show (Function.update st.procs 0 _ q).inbox = _
          rw [Function.update_of_ne (by omega)]
        | join i hpc hp => rfl
        | _ => simp_all [Pc.closing]
      rw [hsame.1, hsame.2]
      exact h1
    · subst hqi
      rw [hst]
      have hin : (st.procs q).inbox = [] := (hv.each q hq).calm (by rw [hpc]; exact le_refl q)
      have hser := hserve q h0 hq (by rw [hpc]; exact Nat.lt_irrefl q)
      left
      have e : ({ st.send q .shutdown with pc := .stopSend (q + 1) } : State).procs q = (st.procs q).send .shutdown :=
        Function.update_self ..
      rw [e]
      refine ⟨hser.pc, ?_⟩
      show (st.procs q).inbox ++ _ = _
      rw [hin]
      rfl
    · have hmc : st.pc.closing q := by rw [hpc]; exact Nat.lt_of_lt_of_le hq hle
      have h1 := h q h0 hq hmc
      cases hm' with
      | stopEnd ix hpc hi => exact h1
      | stopSend jx hpc' hi => rw [hpc] at hpc'; cases hpc'; omega
      | _ => simp_all
    · rw [hpc'] at hc
      cases k with
      | exit =>
        have : q < 1 := hc
        omega
      | _ => cases hc

theorem Ended.initial (kinds : List (List Bool)) (fs : FileSystem) (todo : List Cmd) : Ended (Mpi.initial kinds fs todo) :=
  fun _ _ _ hc => by cases hc

/-! ### The call that is executed -/

/-- The kind of call that is executed. -/
def wanted (k : Cont) (todo : List Cmd) : Prop :=
  match k with
  | .config => ∃ c rest, todo = .config c :: rest
  | .assign => ∃ b rest, todo = .assign b :: rest
  | .exit => True

/-- The kind of call that is executed. -/
def Caller.cont : Caller → Cont
  | .wait k => k
  | .fill => .assign

/-- The kind of call that is executed; `exit` if none. -/
def Pc.cont : Pc → Cont
  | .flush c | .flushSend _ c | .flushRecv _ c => c.cont
  | .waited k | .save k | .saveSend _ k | .saveRecv _ k | .write _ _ k => k
  | .ready | .readySend _ | .readyRecv _ | .filled | .contains | .take => .assign
  | .newStore | .update | .configSend _ => .config
  | _ => .exit

/-- The first call to be made is the one that is executed. -/
def Fits (st : State) : Prop := wanted st.pc.cont st.todo

theorem Fits.master {st st' : State} (h : Fits st) (hm : MStep st st') : Fits st' := by
  unfold Fits at h ⊢
  cases hm with
  | mainEnd hpc => trivial
  | mainConfig hpc c rest ht create v hv =>
    show wanted (Pc.cont (if _ then _ else _)) _
    split
    · exact ⟨c, rest, ht⟩
    · trivial
  | mainAssign hpc b rest ht now =>
    show wanted (Pc.cont (if _ then _ else _)) _
    split <;> exact ⟨b, rest, ht⟩
  | flushEnd ix c hpc hi => rw [hpc] at h; cases c <;> exact h
  | saveNone k hpc hf => rw [hpc] at h; cases k <;> exact h
  | saveEnd ix k hpc hi => rw [hpc] at h; cases k <;> exact h
  | configEnd ix hpc c rest ht hi => trivial
  | skip hpc b rest ht f hf hc => trivial
  | takeLocal hpc b rest ht o cq oq hq r hr => trivial
  | takeRemote hpc b rest ht o ix hix cq oq hq => trivial
  | notify i b hpc => trivial
  | insert ix b hpc => trivial
  | stopSend ix hpc hi => trivial
  | stopEnd ix hpc hi => trivial
  | shutdown i hpc hi => trivial
  | shutdownEnd i hpc hi => trivial
  | shutNotify i hpc => trivial
  | join i hpc hp => trivial
  | flush c hpc a ha => rw [hpc] at h; exact h
  | flushSend ix c hpc hi => rw [hpc] at h; exact h
  | flushRecv ix c hpc bs rest ho a ha => rw [hpc] at h; exact h
  | waited k hpc hw => rw [hpc] at h; exact h
  | waitOn k hpc => rw [hpc] at h; exact h
  | ready hpc => rw [hpc] at h; exact h
  | readySend ix hpc hi => rw [hpc] at h; exact h
  | readyEnd ix hpc hi => rw [hpc] at h; exact h
  | readyRecv ix hpc n rest ho => rw [hpc] at h; exact h
  | fillOn hpc => rw [hpc] at h; exact h
  | filled hpc hw => rw [hpc] at h; exact h
  | saveLost k hpc f hf hl => rw [hpc] at h; exact h
  | saveStart k hpc f hf hv d hd id' hid => rw [hpc] at h; exact h
  | saveSend ix k hpc hi => rw [hpc] at h; exact h
  | recvLost ix k hpc s rest ho f hf hl => rw [hpc] at h; exact h
  | recvStart ix k hpc s rest ho f hf hv d hd id' hid => rw [hpc] at h; exact h
  | writeEnd ix k hpc => rw [hpc] at h; exact h
  | writeLost ix k n c ws hpc hl => rw [hpc] at h; exact h
  | write ix k n c ws hpc f hf d hd => rw [hpc] at h; exact h
  | newStoreInvalid hpc c rest ht hd => rw [hpc] at h; exact h
  | newStore hpc c rest ht d hd r hr => rw [hpc] at h; exact h
  | update hpc c rest ht => rw [hpc] at h; exact h
  | configSend ix hpc c rest ht hi => rw [hpc] at h; exact h
  | fill hpc b rest ht f hf hc => rw [hpc] at h; exact h
  | noFill hpc b rest ht f hf hc ho => rw [hpc] at h; exact h

theorem Fits.step {env : Env} {st st' : State} {l : Label} (h : Fits st) (hs : step env st l = .ok (some st')) : Fits st' := by
  cases step_move hs with
  | thread ix i hx hi p ht hp => exact h
  | spurious ix i hx hi hp => exact h
  | worker ix h0 hx p hw => exact h
  | master ch st' hm => exact h.master (masterStep_cases hm)

/-- The main thread of process 0 is the one of the master. -/
theorem zero_step {env : Env} {st st' : State} {l : Label} (h : (st.procs 0).pc = .probe)
    (hs : step env st l = .ok (some st')) : (st'.procs 0).pc = .probe := by
  have proc : ∀ (ix : Nat) (p : Proc), (ix = 0 → p.pc = (st.procs ix).pc) → ((st.setProc ix p).procs 0).pc = .probe := by
    intro ix p hp
    by_cases hx : ix = 0
    · subst hx
      have e : (st.setProc 0 p).procs 0 = p := by simp [State.setProc]
      rw [e, hp rfl, h]
    · rw [show (st.setProc ix p).procs 0 = st.procs 0 from Function.update_of_ne (Ne.symm hx) .., h]
  cases step_move hs with
  | thread ix i hx hi p ht hp => exact proc ix p fun _ => ht.keeps.1
  | spurious ix i hx hi hp => exact proc ix _ fun _ => rfl
  | worker ix h0 hx p hw => exact proc ix p fun h => by omega
  | master ch st' hm => rw [((masterStep_cases hm).touch 0).pc, h]

/-- All that is known. -/
structure Sound (st : State) : Prop where
  inv : Inv st
  serves : Serves st
  neat : Neat st
  ended : Ended st
  fits : Fits st
  zero : (st.procs 0).pc = .probe

theorem Sound.step {env : Env} {st st' : State} {l : Label} (h : Sound st) (ha : Alert st l)
    (hs : step env st l = .ok (some st')) : Sound st' where
  inv := h.inv.trans (step_trans hs)
  serves := h.serves.step hs
  neat := h.neat.step ha hs
  ended := h.ended.step h.inv h.serves hs
  fits := h.fits.step hs
  zero := zero_step h.zero hs

end Mpi
end Hycu
