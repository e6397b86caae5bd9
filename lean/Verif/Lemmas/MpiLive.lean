import Verif.Lemmas.MpiSafe

/-!
The kinds of the threads do not change, and workers answer until they are told to stop.
-/

namespace Hycu
namespace Mpi

open Run (Tables Job Phase Thread ThreadPool FileStoreObj Cmd Cont Choice Env eraseFinished Book lead Distinct Sect program
  Input)

/-- Threads keep their kinds. -/
structure Proc.Kin (p p' : Proc) : Prop where
  size : p'.size = p.size
  opencl : ∀ i, (p'.thr i).opencl = (p.thr i).opencl

namespace Proc

theorem Kin.refl (p : Proc) : p.Kin p := ⟨rfl, fun _ => rfl⟩

theorem kin_setThread (p : Proc) (i : Nat) (t : Thread) (h : t.opencl = (p.thr i).opencl) : p.Kin (p.setThread i t) := by
  refine ⟨rfl, fun k => ?_⟩
  show (Function.update p.thr i t k).opencl = _
  by_cases hk : k = i
  · subst hk
    rw [Function.update_self, h]
  · rw [Function.update_of_ne hk]

theorem wake_kin (p : Proc) (i : Nat) : p.Kin (p.wake i) := by
  unfold wake
  split
  · exact p.kin_setThread i _ rfl
  · exact .refl p

theorem stop_kin (p : Proc) (i : Nat) : p.Kin (p.stop i) := p.kin_setThread i _ rfl

theorem assign_kin {p : Proc} {b : Block} {o : Bool} {r : Proc × Nat} (h : p.assign b o = .ok r) : p.Kin r.1 := by
  unfold assign at h
  obtain ⟨r', _, h⟩ := Res.bind_eq_ok.1 h
  cases h
  exact ⟨rfl, (p.kin_setThread r'.2 { p.thr r'.2 with queue := (p.thr r'.2).queue ++ [⟨b, (p.thr r'.2).tables⟩] } rfl).opencl⟩

theorem TStep.kin {env : Env} {p p' : Proc} {i : Nat} (h : TStep env p i p') : p.Kin p' := by
  cases h with
  | phase t ho => exact p.kin_setThread i t ho
  | pop j q => exact p.kin_setThread i _ rfl
  | compute j hp tb ht m hm r hf => exact ⟨rfl, (p.kin_setThread i { p.thr i with phase := .report j } rfl).opencl⟩
  | report j hp r hf => exact ⟨rfl, (p.kin_setThread i { p.thr i with phase := .check } rfl).opencl⟩

theorem TStep.keeps {env : Env} {p p' : Proc} {i : Nat} (h : TStep env p i p') : p'.pc = p.pc ∧ p'.inbox = p.inbox := by
  cases h <;> exact ⟨rfl, rfl⟩

theorem wake_keeps (p : Proc) (i : Nat) : (p.wake i).pc = p.pc ∧ (p.wake i).inbox = p.inbox := by
  unfold wake
  split <;> exact ⟨rfl, rfl⟩

theorem assign_keeps {p : Proc} {b : Block} {o : Bool} {r : Proc × Nat} (h : p.assign b o = .ok r) :
    r.1.pc = p.pc ∧ r.1.inbox = p.inbox := by
  unfold assign at h
  obtain ⟨r', _, h⟩ := Res.bind_eq_ok.1 h
  cases h
  exact ⟨rfl, rfl⟩

end Proc

theorem WStep.kin {p p' : Proc} (h : WStep p p') : p.Kin p' := by
  cases h with
  | assign o b ms hi r hr => exact ⟨(Proc.assign_kin hr).size, (Proc.assign_kin hr).opencl⟩
  | wake i pc => exact ⟨(p.wake_kin i).size, (p.wake_kin i).opencl⟩
  | stop i pc => exact ⟨(p.stop_kin i).size, (p.stop_kin i).opencl⟩
  | _ => exact ⟨rfl, fun _ => rfl⟩

/-- What the master does to a process. -/
structure Proc.Touch (p p' : Proc) : Prop where
  kin : p.Kin p'
  pc : p'.pc = p.pc
  inbox : p'.inbox = p.inbox ∨ ∃ m, p'.inbox = p.inbox ++ [m]

theorem Proc.Touch.refl (p : Proc) : p.Touch p := ⟨.refl p, rfl, Or.inl rfl⟩

theorem touch_update {st : State} {ix : Nat} {p : Proc} (h : (st.procs ix).Touch p) (q : Nat) :
    (st.procs q).Touch (Function.update st.procs ix p q) := by
  by_cases hq : q = ix
  · subst hq
    rw [Function.update_self]
    exact h
  · rw [Function.update_of_ne hq]
    exact .refl _

theorem touch_send (p : Proc) (m : Msg) : p.Touch (p.send m) := ⟨⟨rfl, fun _ => rfl⟩, rfl, Or.inr ⟨m, rfl⟩⟩

theorem MStep.touch {st st' : State} (h : MStep st st') (q : Nat) : (st.procs q).Touch (st'.procs q) := by
  cases h with
  | flush c hpc a ha => exact touch_update (by exact ⟨⟨rfl, fun _ => rfl⟩, rfl, Or.inl rfl⟩) q
  | flushSend ix c hpc hi => exact touch_update (touch_send _ _) q
  | flushRecv ix c hpc bs rest ho a ha => exact touch_update (by exact ⟨⟨rfl, fun _ => rfl⟩, rfl, Or.inl rfl⟩) q
  | ready hpc => exact touch_update (by exact ⟨⟨rfl, fun _ => rfl⟩, rfl, Or.inl rfl⟩) q
  | readySend ix hpc hi => exact touch_update (touch_send _ _) q
  | readyRecv ix hpc n rest ho => exact touch_update (by exact ⟨⟨rfl, fun _ => rfl⟩, rfl, Or.inl rfl⟩) q
  | saveLost k hpc f hf h => exact touch_update (by exact ⟨⟨rfl, fun _ => rfl⟩, rfl, Or.inl rfl⟩) q
  | saveStart k hpc f hf hv d hd id hid => exact touch_update (by exact ⟨⟨rfl, fun _ => rfl⟩, rfl, Or.inl rfl⟩) q
  | saveSend ix k hpc hi => exact touch_update (touch_send _ _) q
  | recvLost ix k hpc s rest ho f hf h => exact touch_update (by exact ⟨⟨rfl, fun _ => rfl⟩, rfl, Or.inl rfl⟩) q
  | recvStart ix k hpc s rest ho f hf hv d hd id hid => exact touch_update (by exact ⟨⟨rfl, fun _ => rfl⟩, rfl, Or.inl rfl⟩) q
  | update hpc c rest ht => exact touch_update (by exact ⟨⟨rfl, fun _ => rfl⟩, rfl, Or.inl rfl⟩) q
  | configSend ix hpc c rest ht hi => exact touch_update (touch_send _ _) q
  | takeLocal hpc b rest ht o cq oq hq r hr =>
    exact touch_update ⟨Proc.assign_kin hr, (Proc.assign_keeps hr).1, Or.inl (Proc.assign_keeps hr).2⟩ q
  | takeRemote hpc b rest ht o ix hix cq oq hq => exact touch_update (touch_send _ _) q
  | notify i b hpc => exact touch_update ⟨Proc.wake_kin _ i, (Proc.wake_keeps _ i).1, Or.inl (Proc.wake_keeps _ i).2⟩ q
  | stopSend ix hpc hi => exact touch_update (touch_send _ _) q
  | shutdown i hpc hi => exact touch_update ⟨Proc.stop_kin _ i, rfl, Or.inl rfl⟩ q
  | shutNotify i hpc => exact touch_update ⟨Proc.wake_kin _ i, (Proc.wake_keeps _ i).1, Or.inl (Proc.wake_keeps _ i).2⟩ q
  | _ => exact .refl _

theorem MStep.nprocs {st st' : State} (h : MStep st st') : st'.nprocs = st.nprocs := by
  cases h <;> rfl

/-- The processes have the given threads. -/
def Kinds (kinds : List (List Bool)) (st : State) : Prop :=
  st.nprocs = kinds.length ∧ ∀ q ks, kinds[q]? = some ks → (st.procs q).size = ks.length ∧
    ∀ i, ((st.procs q).thr i).opencl = ks[i]?.getD false

theorem Kinds.proc {kinds : List (List Bool)} {st : State} (h : Kinds kinds st) {ix : Nat} {p : Proc}
    (hp : (st.procs ix).Kin p) : Kinds kinds (st.setProc ix p) := by
  refine ⟨h.1, fun q ks hq => ?_⟩
  simp only [State.setProc]
  by_cases hx : q = ix
  · subst hx
    rw [Function.update_self, hp.size]
    exact ⟨(h.2 q ks hq).1, fun i => by rw [hp.opencl, (h.2 q ks hq).2]⟩
  · rw [Function.update_of_ne hx]
    exact h.2 q ks hq

theorem Kinds.reachable {env : Env} {kinds : List (List Bool)} {fs : FileSystem} {todo : List Cmd} {st : State}
    (h : Reachable env (Mpi.initial kinds fs todo) st) : Kinds kinds st := by
  induction h with
  | refl =>
    refine ⟨rfl, fun q ks hq => ?_⟩
    show (Proc.initial (kinds[q]?.getD [])).size = _ ∧ ∀ i, ((Proc.initial (kinds[q]?.getD [])).thr i).opencl = _
    rw [hq]
    exact ⟨rfl, fun _ => rfl⟩
  | step l hr hs ih =>
    have ht := step_trans hs
    cases ht with
    | thread ix hx i hlt p ht => exact ih.proc ht.kin
    | worker ix h0 hx p hw => exact ih.proc hw.kin
    | master st' hm =>
      refine ⟨hm.nprocs.trans ih.1, fun q ks hq => ?_⟩
      have hk := (hm.touch q).kin
      exact ⟨hk.size.trans (ih.2 q ks hq).1, fun i => by rw [hk.opencl, (ih.2 q ks hq).2]⟩

/-- The process has been told to stop. -/
def Pc.closing : Pc → Nat → Prop
  | .stopSend jx, ix => ix < jx
  | .shutdown _, _ | .shutNotify _, _ | .join _, _ | .finished, _ => True
  | _, _ => False

/-- The worker handles messages, and will not stop. -/
structure Proc.Serving (p : Proc) : Prop where
  pc : p.pc = .probe ∨ ∃ i, p.pc = .notify i
  inbox : .shutdown ∉ p.inbox

theorem Proc.Serving.worker {p p' : Proc} (h : p.Serving) (hs : p.workerStep = .ok (some p')) : p'.Serving := by
  unfold Proc.workerStep at hs
  rcases h.pc with hp | ⟨i, hp⟩
  · rw [hp] at hs
    simp only at hs
    split at hs
    · cases hs
    · rename_i m ms hin
      have hms : Msg.shutdown ∉ ms := fun hm => h.inbox (by rw [hin]; exact List.mem_cons_of_mem _ hm)
      cases m with
      | config c =>
        cases hs
        exact ⟨Or.inl rfl, hms⟩
      | assign o b =>
        unfold Proc.handle at hs
        simp only at hs
        obtain ⟨r, hr, hs⟩ := Res.bind_eq_ok.1 (Run.some_map_ok hs)
        cases hs
        refine ⟨Or.inr ⟨r.2, rfl⟩, ?_⟩
        show _ ∉ r.1.inbox
        rw [(assign_keeps hr).2]
        exact hms
      | readyThreads =>
        cases hs
        exact ⟨Or.inl rfl, hms⟩
      | save =>
        cases hs
        exact ⟨Or.inl rfl, hms⟩
      | finishedBlocks =>
        cases hs
        exact ⟨Or.inl rfl, hms⟩
      | shutdown => exact absurd (by rw [hin]; exact List.mem_cons_self) h.inbox
  · rw [hp] at hs
    cases hs
    exact ⟨Or.inl rfl, by show _ ∉ (p.wake i).inbox; rw [(wake_keeps p i).2]; exact h.inbox⟩

theorem Proc.Serving.congr {p p' : Proc} (h : p.Serving) (h1 : p'.pc = p.pc) (h2 : p'.inbox = p.inbox) : p'.Serving :=
  ⟨by rw [h1]; exact h.pc, by rw [h2]; exact h.inbox⟩

theorem Proc.Serving.send {p : Proc} (h : p.Serving) {m : Msg} (hm : m ≠ .shutdown) : (p.send m).Serving := by
  refine ⟨h.pc, fun hx => ?_⟩
  rcases List.mem_append.1 hx with hx | hx
  · exact h.inbox hx
  · exact hm (List.mem_singleton.1 hx).symm

/-- Workers handle messages until they are told to stop. -/
def Serves (st : State) : Prop := ∀ q, 0 < q → q < st.nprocs → ¬ st.pc.closing q → (st.procs q).Serving

theorem serves_update {st : State} {pc' : Pc} (h : Serves st) (hc : ∀ q, ¬ pc'.closing q → ¬ st.pc.closing q)
    {f : Nat → Proc} (hf : ∀ q, ¬ pc'.closing q → (st.procs q).Serving → (f q).Serving) :
    ∀ q, 0 < q → q < st.nprocs → ¬ pc'.closing q → (f q).Serving :=
  fun q h0 hq hx => hf q hx (h q h0 hq (hc q hx))

theorem serving_update {st : State} {ix : Nat} {p : Proc} (h : (st.procs ix).Serving → p.Serving) (q : Nat)
    (hq : (st.procs q).Serving) : (Function.update st.procs ix p q).Serving := by
  by_cases hx : q = ix
  · subst hx
    rw [Function.update_self]
    exact h hq
  · rw [Function.update_of_ne hx]
    exact hq

theorem not_closing_ite {b : Bool} {pc1 pc2 : Pc} {q : Nat} (h1 : ¬ pc1.closing q) (h2 : ¬ pc2.closing q) :
    ¬ (if b then pc1 else pc2).closing q := by
  split
  · exact h1
  · exact h2

theorem Serves.master {st st' : State} (h : Serves st) (hm : MStep st st') : Serves st' := by
  have keep : ∀ p p' : Proc, p'.pc = p.pc → p'.inbox = p.inbox → p.Serving → p'.Serving := fun p p' h1 h2 hp => hp.congr h1 h2
  cases hm with
  | mainEnd hpc => exact serves_update h (fun q _ => by rw [hpc]; exact id) fun q _ hq => hq
  | mainConfig hpc c rest ht create v hv => exact serves_update h (fun q _ => by rw [hpc]; exact id) fun q _ hq => hq
  | mainAssign hpc b rest ht now => exact serves_update h (fun q _ => by rw [hpc]; exact id) fun q _ hq => hq
  | flush c hpc a ha =>
    exact serves_update h (fun q _ => by rw [hpc]; exact id) fun q _ => serving_update (by exact keep _ _ rfl rfl) q
  | flushSend ix c hpc hi =>
    exact serves_update h (fun q _ => by rw [hpc]; exact id) fun q _ => serving_update (fun hp => hp.send (by simp)) q
  | flushEnd ix c hpc hi => exact serves_update h (fun q _ => by rw [hpc]; exact id) fun q _ hq => hq
  | flushRecv ix c hpc bs rest ho a ha =>
    exact serves_update h (fun q _ => by rw [hpc]; exact id) fun q _ => serving_update (by exact keep _ _ rfl rfl) q
  | waited k hpc hw => exact serves_update h (fun q _ => by rw [hpc]; exact id) fun q _ hq => hq
  | waitOn k hpc => exact serves_update h (fun q _ => by rw [hpc]; exact id) fun q _ hq => hq
  | ready hpc =>
    exact serves_update h (fun q _ => by rw [hpc]; exact id) fun q _ => serving_update (by exact keep _ _ rfl rfl) q
  | readySend ix hpc hi =>
    exact serves_update h (fun q _ => by rw [hpc]; exact id) fun q _ => serving_update (fun hp => hp.send (by simp)) q
  | readyEnd ix hpc hi => exact serves_update h (fun q _ => by rw [hpc]; exact id) fun q _ hq => hq
  | readyRecv ix hpc n rest ho =>
    exact serves_update h (fun q _ => by rw [hpc]; exact id) fun q _ => serving_update (by exact keep _ _ rfl rfl) q
  | fillOn hpc => exact serves_update h (fun q _ => by rw [hpc]; exact id) fun q _ hq => hq
  | filled hpc hw => exact serves_update h (fun q _ => by rw [hpc]; exact id) fun q _ hq => hq
  | saveNone k hpc hf => exact serves_update h (fun q _ => by rw [hpc]; exact id) fun q _ hq => hq
  | saveLost k hpc f hf hl =>
    exact serves_update h (fun q _ => by rw [hpc]; exact id) fun q _ => serving_update (by exact keep _ _ rfl rfl) q
  | saveStart k hpc f hf hv d hd id' hid =>
    exact serves_update h (fun q _ => by rw [hpc]; exact id) fun q _ => serving_update (by exact keep _ _ rfl rfl) q
  | saveSend ix k hpc hi =>
    exact serves_update h (fun q _ => by rw [hpc]; exact id) fun q _ => serving_update (fun hp => hp.send (by simp)) q
  | saveEnd ix k hpc hi => exact serves_update h (fun q _ => by rw [hpc]; exact id) fun q _ hq => hq
  | recvLost ix k hpc s rest ho f hf hl =>
    exact serves_update h (fun q _ => by rw [hpc]; exact id) fun q _ => serving_update (by exact keep _ _ rfl rfl) q
  | recvStart ix k hpc s rest ho f hf hv d hd id' hid =>
    exact serves_update h (fun q _ => by rw [hpc]; exact id) fun q _ => serving_update (by exact keep _ _ rfl rfl) q
  | writeEnd ix k hpc => exact serves_update h (fun q _ => by rw [hpc]; exact id) fun q _ hq => hq
  | writeLost ix k n c ws hpc hl => exact serves_update h (fun q _ => by rw [hpc]; exact id) fun q _ hq => hq
  | write ix k n c ws hpc f hf d hd => exact serves_update h (fun q _ => by rw [hpc]; exact id) fun q _ hq => hq
  | newStoreInvalid hpc c rest ht hd => exact serves_update h (fun q _ => by rw [hpc]; exact id) fun q _ hq => hq
  | newStore hpc c rest ht d hd r hr => exact serves_update h (fun q _ => by rw [hpc]; exact id) fun q _ hq => hq
  | update hpc c rest ht =>
    exact serves_update h (fun q _ => by rw [hpc]; exact id) fun q _ => serving_update (by exact keep _ _ rfl rfl) q
  | configSend ix hpc c rest ht hi =>
    exact serves_update h (fun q _ => by rw [hpc]; exact id) fun q _ => serving_update (fun hp => hp.send (by simp)) q
  | configEnd ix hpc c rest ht hi => exact serves_update h (fun q _ => by rw [hpc]; exact id) fun q _ hq => hq
  | skip hpc b rest ht f hf hc => exact serves_update h (fun q _ => by rw [hpc]; exact id) fun q _ hq => hq
  | fill hpc b rest ht f hf hc => exact serves_update h (fun q _ => by rw [hpc]; exact id) fun q _ hq => hq
  | noFill hpc b rest ht f hf hc ho => exact serves_update h (fun q _ => by rw [hpc]; exact id) fun q _ hq => hq
  | takeLocal hpc b rest ht o cq oq hq r hr =>
    exact serves_update h (fun q _ => by rw [hpc]; exact id) fun q _ =>
      serving_update (keep _ _ (Proc.assign_keeps hr).1 (Proc.assign_keeps hr).2) q
  | takeRemote hpc b rest ht o ix hix cq oq hq =>
    exact serves_update h (fun q _ => by rw [hpc]; exact id) fun q _ => serving_update (fun hp => hp.send (by simp)) q
  | notify i b hpc =>
    exact serves_update h (fun q _ => by rw [hpc]; exact id) fun q _ =>
      serving_update (keep _ _ (Proc.wake_keeps _ i).1 (Proc.wake_keeps _ i).2) q
  | insert ix b hpc => exact serves_update h (fun q _ => by rw [hpc]; exact id) fun q _ hq => hq
  | stopSend ix hpc hi =>
    refine serves_update h (fun q hq => ?_) fun q hq hs => ?_
    · rw [hpc]
      exact fun hx => hq (Nat.lt_succ_of_lt hx)
    · show (Function.update st.procs ix _ q).Serving
      rw [Function.update_of_ne]
      · exact hs
      · rintro rfl
        exact hq (Nat.lt_succ_self q)
  | stopEnd ix hpc hi => exact fun q _ _ hx => absurd trivial hx
  | shutdown i hpc hi => exact fun q _ _ hx => absurd trivial hx
  | shutdownEnd i hpc hi => exact fun q _ _ hx => absurd trivial hx
  | shutNotify i hpc => exact fun q _ _ hx => absurd trivial hx
  | join i hpc hp => exact fun q _ _ hx => absurd trivial hx

theorem Serves.proc {st : State} (h : Serves st) {ix : Nat} {p : Proc} (hp : (st.procs ix).Serving → p.Serving) :
    Serves (st.setProc ix p) := fun q h0 hq hx => serving_update hp q (h q h0 hq hx)

theorem Serves.step {env : Env} {st st' : State} (h : Serves st) {l : Label} (hs : step env st l = .ok (some st')) :
    Serves st' := by
  cases l with
  | thread ix i =>
    simp only [Mpi.step] at hs
    split at hs
    · obtain ⟨o, ho, hs⟩ := Res.bind_eq_ok.1 hs
      cases o with
      | none => cases hs
      | some p =>
        cases hs
        have hk := (Proc.threadStep_cases ho).keeps
        exact h.proc fun hp => hp.congr hk.1 hk.2
    · cases hs
  | master ch => exact h.master (masterStep_cases hs)
  | worker ix =>
    simp only [Mpi.step] at hs
    split at hs
    · obtain ⟨o, ho, hs⟩ := Res.bind_eq_ok.1 hs
      cases o with
      | none => cases hs
      | some p =>
        cases hs
        exact h.proc fun hp => hp.worker ho
    · cases hs
  | spurious ix i =>
    simp only [Mpi.step] at hs
    split at hs
    · cases hs
      exact h.proc fun hp => hp.congr (Proc.wake_keeps _ i).1 (Proc.wake_keeps _ i).2
    · cases hs

theorem Serves.reachable {env : Env} {kinds : List (List Bool)} {fs : FileSystem} {todo : List Cmd} {st : State}
    (h : Reachable env (Mpi.initial kinds fs todo) st) : Serves st := by
  induction h with
  | refl => exact fun q _ _ _ => ⟨Or.inl rfl, by simp [Mpi.initial, Proc.initial]⟩
  | step l hr hs ih => exact ih.step hs

/-- Execute some steps; `none` if one of them is not possible. -/
def exec (env : Env) (st : State) : List Label → Option State
  | [] => some st
  | l :: ls =>
    match step env st l with
    | .ok (some st') => exec env st' ls
    | _ => none

theorem exec_reachable {env : Env} {st₀ : State} {ls : List Label} : ∀ {st st' : State}, Reachable env st₀ st →
    exec env st ls = some st' → Reachable env st₀ st' := by
  induction ls with
  | nil => intro st st' hr h; cases h; exact hr
  | cons l ls ih =>
    intro st st' hr h
    simp only [exec] at h
    split at h
    · rename_i st1 hs
      exact ih (.step l hr hs) h
    · cases h

/-- What a worker has to do before it waits for messages. -/
def Proc.effort (p : Proc) : Nat := 2 * p.inbox.length + match p.pc with
  | .notify _ => 1
  | _ => 0

/-- A worker that has something to do does it. -/
theorem Proc.Serving.works {p : Proc} (h : p.Serving) (hok : ∃ o, p.workerStep = .ok o) (hi : p.inbox ≠ []) :
    ∃ p', p.workerStep = .ok (some p') ∧ p'.effort < p.effort := by
  obtain ⟨o, ho⟩ := hok
  rcases h.pc with hp | ⟨i, hp⟩
  · cases hin : p.inbox with
    | nil => exact absurd hin hi
    | cons m ms =>
      have hlt : p.effort = 2 * ms.length + 2 := by
        unfold Proc.effort
        rw [hp, hin]
        simp only [List.length_cons]
        omega
      have hpr : p.workerStep = some <$> { p with inbox := ms }.handle m := by
        unfold Proc.workerStep
        rw [hp]
        simp only
        rw [hin]
      rw [hpr] at ho
      cases hh : { p with inbox := ms }.handle m with
      | ub => rw [hh] at ho; cases ho
      | abort => rw [hh] at ho; cases ho
      | diverge => rw [hh] at ho; cases ho
      | ok p' =>
        refine ⟨p', by rw [hpr, hh]; rfl, ?_⟩
        rw [hlt]
        have key : p'.inbox = ms := by
          cases m with
          | assign o b =>
            unfold Proc.handle at hh
            simp only at hh
            obtain ⟨r, hr, hh⟩ := Res.bind_eq_ok.1 hh
            cases hh
            exact (assign_keeps hr).2
          | _ => cases hh; rfl
        unfold Proc.effort
        rw [key]
        split <;> omega
  · refine ⟨_, by unfold Proc.workerStep; rw [hp], ?_⟩
    unfold Proc.effort
    rw [hp]
    show 2 * (p.wake i).inbox.length + 0 < 2 * p.inbox.length + 1
    rw [(wake_keeps p i).2]
    omega

/-- A request is answered. -/
theorem answers {env : Env} {ix : Nat} {r : Req} : ∀ (n : Nat) {st : State}, Inv st → Serves st →
    (st.procs ix).effort = n → ix < st.nprocs → 0 < ix → st.pc.expects ix = some r →
    ∃ k st', exec env st (List.replicate k (.worker ix)) = some st' ∧ st'.pc = st.pc ∧ r.replied (st'.procs ix) := by
  intro n
  induction n using Nat.strong_induction_on with
  | _ n ih =>
    intro st hv hs hn hx h0 he
    have hp := (hv.each ix hx).prot
    rw [he] at hp
    rcases hp with ⟨⟨l, hl, _⟩, _⟩ | ⟨_, hr⟩
    · have hser : (st.procs ix).Serving := by
        refine hs ix h0 hx ?_
        revert he
        cases st.pc <;> simp [Pc.expects, Pc.closing]
      obtain ⟨p', h1, h2⟩ := hser.works (worker_ok hv hx) (by rw [hl]; simp)
      have hstep : step env st (.worker ix) = .ok (some (st.setProc ix p')) := by
        simp only [step]
        rw [if_pos ⟨h0, hx⟩, h1]
        rfl
      have hpe : (st.setProc ix p').procs ix = p' := Function.update_self ..
      obtain ⟨k, st', h3, h4, h5⟩ := ih _ (by rw [← hn]; exact h2) (st := st.setProc ix p')
        (hv.trans (step_trans hstep)) (hs.step hstep) (by rw [hpe]) hx h0 he
      refine ⟨k + 1, st', ?_, h4, h5⟩
      rw [List.replicate_succ, exec, hstep]
      exact h3
    · exact ⟨0, st, rfl, rfl, hr⟩

end Mpi
end Hycu
