import Verif.Lemmas.MpiAwake
import Verif.Lemmas.MpiData

/-!
Lemmas for C68: threads of hycu-mpi.
-/

namespace Hycu
namespace Mpi

/-- The number of threads of the master that have been told to stop. -/
def Pc.told (size : Nat) : Pc → Nat
  | .shutdown i => i
  | .shutNotify i | .join i => i + 1
  | .finished => size
  | _ => 0

/-- The number of threads of the master that have been joined. -/
def Pc.joined (size : Nat) : Pc → Nat
  | .shutdown i | .shutNotify i | .join i => i
  | .finished => size
  | _ => 0

/-- The number of threads of a worker that have been told to stop. -/
def WorkerPc.told (size : Nat) : WorkerPc → Nat
  | .shutdown i => i
  | .shutNotify i | .join i => i + 1
  | .returned => size
  | _ => 0

/-- The number of threads of a worker that have been joined. -/
def WorkerPc.joined (size : Nat) : WorkerPc → Nat
  | .shutdown i | .shutNotify i | .join i => i
  | .returned => size
  | _ => 0

open Run (Tables Job Phase Thread ThreadPool FileStoreObj Cmd Cont Choice Env eraseFinished)

theorem Pc.told_place (pc : Pc) (n : Nat) : pc.told n = pc.place.told n ∧ pc.joined n = pc.place.joined n := by
  cases pc <;> exact ⟨rfl, rfl⟩

/-- Threads of a process are told to stop and joined in order. -/
structure Halting (w : WorkerPc) (p : Proc) : Prop where
  bound : w.told p.size ≤ p.size
  told : ∀ i, (p.thr i).stop = true ↔ i < w.told p.size
  joined : ∀ i, i < w.joined p.size → (p.thr i).phase = .done
  done : ∀ i, (p.thr i).phase = .done → (p.thr i).stop = true

namespace Halting

variable {w w' : WorkerPc} {p p' : Proc}

theorem keep (h : Halting w p) (h1 : ∀ i, (p'.thr i).stop = (p.thr i).stop)
    (h2 : ∀ i, (p.thr i).phase = .done ↔ (p'.thr i).phase = .done) (h3 : p'.size = p.size)
    (h4 : w'.told p.size = w.told p.size) (h5 : w'.joined p.size = w.joined p.size) : Halting w' p' := by
  refine ⟨?_, fun i => ?_, fun i hi => ?_, fun i hi => ?_⟩
  · rw [h3, h4]; exact h.bound
  · rw [h3, h4, h1]; exact h.told i
  · rw [h3, h5] at hi; exact (h2 i).1 (h.joined i hi)
  · rw [h1]; exact h.done i ((h2 i).2 hi)

theorem congr (h : Halting w p) (h1 : p'.thr = p.thr) (h2 : p'.size = p.size) (h4 : w'.told p.size = w.told p.size)
    (h5 : w'.joined p.size = w.joined p.size) : Halting w' p' :=
  h.keep (fun i => by rw [h1]) (fun i => by rw [h1]) h2 h4 h5

theorem thread (h : Halting w p) {i : Nat} {t : Thread} (h1 : p'.thr = (p.setThread i t).thr) (h2 : p'.size = p.size)
    (h3 : t.stop = (p.thr i).stop) (h4 : (p.thr i).phase ≠ .done) (h5 : t.phase = .done → t.stop = true) : Halting w p' := by
  refine ⟨by rw [h2]; exact h.bound, ?_, fun k hk => ?_, ?_⟩
  · rw [h1, h2]
    exact Proc.setThread_cases (P := fun k t => t.stop = true ↔ k < w.told p.size) h.told (by rw [h3]; exact h.told i)
  · rw [h2] at hk
    have hd := h.joined k hk
    have hki : k ≠ i := by rintro rfl; exact h4 hd
    rw [h1]
    show (Function.update p.thr i t k).phase = .done
    rw [Function.update_of_ne hki]
    exact hd
  · rw [h1]
    exact Proc.setThread_cases (P := fun _ t => t.phase = .done → t.stop = true) h.done h5

theorem move (h : Halting w p) {env : Env} {i : Nat} (ht : TMove env p i p') : Halting w p' := by
  cases ht with
  | stop hp hs => exact h.thread rfl rfl rfl (by rw [hp]; simp) fun _ => hs
  | wait hp hs hq => exact h.thread rfl rfl rfl (by rw [hp]; simp) (by intro h; cases h)
  | pick hp hs hq => exact h.thread rfl rfl rfl (by rw [hp]; simp) (by intro h; cases h)
  | doze hp => exact h.thread rfl rfl rfl (by rw [hp]; simp) (by intro h; cases h)
  | pop j q hp hq =>
    exact h.thread (t := { p.thr i with queue := q, phase := .compute j }) rfl rfl rfl (by rw [hp]; simp) (by intro h; cases h)
  | compute j hp s =>
    exact h.thread (t := { p.thr i with phase := .report j }) rfl rfl rfl (by rw [hp]; simp) (by intro h; cases h)
  | report j hp r =>
    exact h.thread (t := { p.thr i with phase := .check }) rfl rfl rfl (by rw [hp]; simp) (by intro h; cases h)
  | spurious hp => exact h.thread rfl rfl rfl (by rw [hp]; simp) (by intro h; cases h)

theorem wake (h : Halting w p) (i : Nat) (h1 : p'.thr = (p.wake i).thr) (h2 : p'.size = p.size)
    (h4 : w'.told p.size = w.told p.size) (h5 : w'.joined p.size = w.joined p.size) : Halting w' p' := by
  refine h.keep (fun k => ?_) (fun k => ?_) h2 h4 h5
  · rw [h1, Tidy.wake_thr]
    split
    · rename_i hk
      rw [hk.1]
    · rfl
  · rw [h1, Tidy.wake_thr]
    split
    · rename_i hk
      rw [hk.1, hk.2]
      simp
    · rfl

theorem assign {b : Block} {o : Bool} {r : Proc × Nat} (hr : p.assign b o = .ok r) (h : Halting .probe p) :
    Halting (.notify r.2) r.1 := by
  unfold Proc.assign at hr
  obtain ⟨r', _, hr⟩ := Res.bind_eq_ok.1 hr
  cases hr
  have hs : ∀ i, (p.thr i).stop = true ↔ i < 0 := h.told
  refine ⟨Nat.zero_le _, ?_, fun k hk => absurd hk (Nat.not_lt_zero k), ?_⟩
  · exact Proc.setThread_cases (P := fun i t => t.stop = true ↔ i < 0) hs (hs r'.2)
  · exact Proc.setThread_cases (P := fun i t => t.phase = .done → t.stop = true) h.done (h.done r'.2)

theorem tell {i : Nat} (h : Halting (.shutdown i) p) (hi : i < p.size) (h1 : p'.thr = (p.stop i).thr)
    (h2 : p'.size = p.size) : Halting (.shutNotify i) p' := by
  have e : ∀ k, k ≠ i → (p.stop i).thr k = p.thr k := fun k hk => Function.update_of_ne hk ..
  have e' : (p.stop i).thr i = { p.thr i with stop := true } := Function.update_self ..
  refine ⟨by rw [h2]; exact hi, fun k => ?_, fun k hk => ?_, fun k hk => ?_⟩
  · rw [h1]
    show _ ↔ k < i + 1
    by_cases hki : k = i
    · subst hki
      rw [e']
      simp
    · rw [e k hki, h.told k]
      show k < i ↔ _
      omega
  · have hk : k < i := hk
    rw [h1, e k (by omega)]
    exact h.joined k hk
  · rw [h1] at hk ⊢
    by_cases hki : k = i
    · subst hki
      rw [e']
    · rw [e k hki] at hk ⊢
      exact h.done k hk

theorem finish {i : Nat} (h : Halting (.shutdown i) p) (hi : ¬ i < p.size) : Halting .returned p := by
  have hb : i ≤ p.size := h.bound
  obtain rfl : i = p.size := by omega
  exact ⟨Nat.le_refl _, h.told, h.joined, h.done⟩

theorem join {i : Nat} (h : Halting (.join i) p) (hd : (p.thr i).phase = .done) : Halting (.shutdown (i + 1)) p := by
  refine ⟨h.bound, h.told, fun k hk => ?_, h.done⟩
  have hk : k < i + 1 := hk
  rcases Nat.lt_or_eq_of_le (Nat.lt_succ_iff.1 hk) with hk | rfl
  · exact h.joined k hk
  · exact hd

theorem worker (h : Halting p.pc p) (hw : WMove p p') : Halting p'.pc p' := by
  cases hw with
  | config hpc c ms hi =>
    exact h.keep (fun _ => rfl) (fun _ => Iff.rfl) rfl rfl rfl
  | assign hpc o b ms hi r hr =>
    rw [hpc] at h
    have : Halting .probe { p with inbox := ms } := h.congr rfl rfl rfl rfl
    exact (this.assign hr).congr rfl rfl rfl rfl
  | request hpc r ms hi p' hp =>
    obtain ⟨e1, e2, e3, _⟩ := handle_req hp
    rw [e3]
    exact h.congr e2 e1 rfl rfl
  | shutdown hpc ms hi =>
    rw [hpc] at h
    exact h.congr rfl rfl rfl rfl
  | notify i hpc =>
    rw [hpc] at h
    exact h.wake i rfl (p.wake_kin i).size rfl rfl
  | stop i hpc hi =>
    rw [hpc] at h
    exact h.tell hi rfl rfl
  | stopEnd i hpc hi =>
    rw [hpc] at h
    exact (h.finish hi).congr rfl rfl rfl rfl
  | shutNotify i hpc =>
    rw [hpc] at h
    exact h.wake i rfl (p.wake_kin i).size rfl rfl
  | join i hpc hd =>
    rw [hpc] at h
    exact (h.join hd).congr rfl rfl rfl rfl

theorem master {st st' : State} (h : Halting st.pc.place (st.procs 0)) (hm : MStep st st') :
    Halting st'.pc.place (st'.procs 0) := by
  have keep : ∀ (pc' : Pc) (p : Proc), st.pc.place = .probe → pc'.place = .probe → p.thr = (st.procs 0).thr →
      p.size = (st.procs 0).size → Halting pc'.place p := by
    intro pc' p h1 h2 h3 h4
    rw [h2]
    rw [h1] at h
    exact h.congr h3 h4 rfl rfl
  have near : ∀ (ix : Nat) (p : Proc), p.thr = (st.procs ix).thr → p.size = (st.procs ix).size →
      (Function.update st.procs ix p 0).thr = (st.procs 0).thr ∧ (Function.update st.procs ix p 0).size = (st.procs 0).size := by
    intro ix p hp hs
    by_cases hx : 0 = ix
    · subst hx
      rw [Function.update_self]
      exact ⟨hp, hs⟩
    · rw [Function.update_of_ne hx]
      exact ⟨rfl, rfl⟩
  have self : ∀ (p : Proc), Function.update st.procs 0 p 0 = p := fun p => Function.update_self ..
  have put : ∀ (ix : Nat) (pc' : Pc) (p : Proc), st.pc.place = .probe → pc'.place = .probe → p.thr = (st.procs ix).thr →
      p.size = (st.procs ix).size → Halting pc'.place (Function.update st.procs ix p 0) :=
    fun ix pc' p h1 h2 h3 h4 => keep pc' _ h1 h2 (near ix p h3 h4).1 (near ix p h3 h4).2
  cases hm with
  | mainEnd hpc => exact keep _ _ (by rw [hpc]; rfl) rfl rfl rfl
  | mainConfig hpc c rest ht create v hv => exact keep _ _ (by rw [hpc]; rfl) (by split <;> rfl) rfl rfl
  | mainAssign hpc b rest ht now => exact keep _ _ (by rw [hpc]; rfl) (by split <;> rfl) rfl rfl
  | flush c hpc a ha => exact put 0 _ _ (by rw [hpc]; rfl) rfl rfl rfl
  | flushSend ix c hpc hi => exact put ix _ _ (by rw [hpc]; rfl) rfl rfl rfl
  | flushEnd ix c hpc hi => exact keep _ _ (by rw [hpc]; rfl) (by cases c <;> rfl) rfl rfl
  | flushRecv ix c hpc bs rest ho a ha => exact put ix _ _ (by rw [hpc]; rfl) rfl rfl rfl
  | waited k hpc hw => exact keep _ _ (by rw [hpc]; rfl) rfl rfl rfl
  | waitOn k hpc => exact keep _ _ (by rw [hpc]; rfl) rfl rfl rfl
  | ready hpc => exact put 0 _ _ (by rw [hpc]; rfl) rfl rfl rfl
  | readySend ix hpc hi => exact put ix _ _ (by rw [hpc]; rfl) rfl rfl rfl
  | readyEnd ix hpc hi => exact keep _ _ (by rw [hpc]; rfl) rfl rfl rfl
  | readyRecv ix hpc n rest ho => exact put ix _ _ (by rw [hpc]; rfl) rfl rfl rfl
  | fillOn hpc => exact keep _ _ (by rw [hpc]; rfl) rfl rfl rfl
  | filled hpc hw => exact keep _ _ (by rw [hpc]; rfl) rfl rfl rfl
  | saveNone k hpc hf => exact keep _ _ (by rw [hpc]; rfl) (by cases k <;> rfl) rfl rfl
  | saveLost k hpc f hf hl => exact put 0 _ _ (by rw [hpc]; rfl) rfl rfl rfl
  | saveStart k hpc f hf hv d hd id' hid => exact put 0 _ _ (by rw [hpc]; rfl) rfl rfl rfl
  | saveSend ix k hpc hi => exact put ix _ _ (by rw [hpc]; rfl) rfl rfl rfl
  | saveEnd ix k hpc hi => exact keep _ _ (by rw [hpc]; rfl) (by cases k <;> rfl) rfl rfl
  | recvLost ix k hpc s rest ho f hf hl => exact put ix _ _ (by rw [hpc]; rfl) rfl rfl rfl
  | recvStart ix k hpc s rest ho f hf hv d hd id' hid => exact put ix _ _ (by rw [hpc]; rfl) rfl rfl rfl
  | writeEnd ix k hpc => exact keep _ _ (by rw [hpc]; rfl) rfl rfl rfl
  | writeLost ix k n c ws hpc hl => exact keep _ _ (by rw [hpc]; rfl) rfl rfl rfl
  | write ix k n c ws hpc f hf d hd => exact keep _ _ (by rw [hpc]; rfl) rfl rfl rfl
  | newStoreInvalid hpc c rest ht hd => exact keep _ _ (by rw [hpc]; rfl) rfl rfl rfl
  | newStore hpc c rest ht d hd r hr => exact keep _ _ (by rw [hpc]; rfl) rfl rfl rfl
  | update hpc c rest ht =>
    rw [hpc] at h
    show Halting .probe (Function.update st.procs 0 _ 0)
    rw [self]
    exact h.keep (fun _ => rfl) (fun _ => Iff.rfl) rfl rfl rfl
  | configSend ix hpc c rest ht hi => exact put ix _ _ (by rw [hpc]; rfl) rfl rfl rfl
  | configEnd ix hpc c rest ht hi => exact keep _ _ (by rw [hpc]; rfl) rfl rfl rfl
  | skip hpc b rest ht f hf hc => exact keep _ _ (by rw [hpc]; rfl) rfl rfl rfl
  | fill hpc b rest ht f hf hc => exact keep _ _ (by rw [hpc]; rfl) rfl rfl rfl
  | noFill hpc b rest ht f hf hc ho => exact keep _ _ (by rw [hpc]; rfl) rfl rfl rfl
  | takeLocal hpc b rest ht o cq oq hq r hr =>
    rw [hpc] at h
    show Halting (.notify r.2) (Function.update st.procs 0 _ 0)
    rw [self]
    exact Halting.assign hr h
  | takeRemote hpc b rest ht o ix hix cq oq hq => exact put ix _ _ (by rw [hpc]; rfl) rfl rfl rfl
  | notify i b hpc =>
    rw [hpc] at h
    show Halting .probe (Function.update st.procs 0 _ 0)
    rw [self]
    exact h.wake i rfl ((st.procs 0).wake_kin i).size rfl rfl
  | insert ix b hpc => exact keep _ _ (by rw [hpc]; rfl) rfl rfl rfl
  | stopSend ix hpc hi => exact put ix _ _ (by rw [hpc]; rfl) rfl rfl rfl
  | stopEnd ix hpc hi =>
    rw [hpc] at h
    exact h.congr rfl rfl rfl rfl
  | shutdown i hpc hi =>
    rw [hpc] at h
    show Halting (.shutNotify i) (Function.update st.procs 0 _ 0)
    rw [self]
    exact h.tell hi rfl rfl
  | shutdownEnd i hpc hi =>
    rw [hpc] at h
    exact h.finish hi
  | shutNotify i hpc =>
    rw [hpc] at h
    show Halting (.join i) (Function.update st.procs 0 _ 0)
    rw [self]
    exact h.wake i rfl ((st.procs 0).wake_kin i).size rfl rfl
  | join i hpc hp =>
    rw [hpc] at h
    exact h.join hp

end Halting

/-- All processes. -/
def Halts (st : State) : Prop := ∀ q, q < st.nprocs → Halting (st.place q) (st.procs q)

theorem Halts.proc {st : State} (h : Halts st) {ix : Nat} {p : Proc} (hp : Halting (st.place ix) (st.procs ix) →
    Halting ((st.setProc ix p).place ix) p) : Halts (st.setProc ix p) := by
  intro q hq
  by_cases hx : q = ix
  · subst hx
    have := hp (h q hq)
    simp only [State.setProc, Function.update_self]
    exact this
  · have h1 := h q hq
    have h2 : (st.setProc ix p).procs q = st.procs q := Function.update_of_ne hx ..
    rw [h2]
    have h3 : (st.setProc ix p).place q = st.place q := by
      unfold State.place
      rw [h2]
      rfl
    rw [h3]
    exact h1

theorem Halts.step {env : Env} {st st' : State} {l : Label} (h : Halts st) (hs : step env st l = .ok (some st')) :
    Halts st' := by
  have hm := step_move hs
  have hpl : ∀ ix (p : Proc), p.pc = (st.procs ix).pc → (st.setProc ix p).place ix = st.place ix := by
    intro ix p hp
    unfold State.place
    split
    · rfl
    · simp only [State.setProc, Function.update_self, hp]
  cases hm with
  | thread ix i hx hi p ht hp => exact h.proc fun hq => by rw [hpl ix p ht.keeps.1]; exact hq.move ht
  | spurious ix i hx hi hp =>
    exact h.proc fun hq => by
      have hm : TMove env (st.procs ix) i _ := .spurious hp
      rw [hpl ix _ hm.keeps.1]
      exact hq.move hm
  | worker ix h0 hx p hw =>
    refine h.proc fun hq => ?_
    have h1 : ix ≠ 0 := by omega
    simp only [State.place, if_neg h1, State.setProc, Function.update_self] at hq ⊢
    exact hq.worker hw
  | master ch st' hm =>
    have hms := masterStep_cases hm
    intro q hq
    rw [hms.nprocs] at hq
    by_cases h0 : q = 0
    · subst h0
      exact (h 0 hq).master hms
    · have h1 := h q hq
      simp only [State.place, if_neg h0] at h1 ⊢
      have h2 := hms.touch q
      have e1 := hms.other h0
      have e2 := h2.pc
      rw [e2]
      exact h1.congr e1 h2.kin.size rfl rfl

theorem Halts.initial (kinds : List (List Bool)) (fs : FileSystem) (todo : List Cmd) : Halts (Mpi.initial kinds fs todo) := by
  intro q _
  have hp : (Mpi.initial kinds fs todo).place q = .probe := by
    unfold State.place
    split <;> rfl
  rw [hp]
  exact ⟨Nat.zero_le _, fun i => ⟨(fun h => by cases h), fun h => absurd h (Nat.not_lt_zero i)⟩,
    fun i h => absurd h (Nat.not_lt_zero i), fun i h => by cases h⟩

theorem Halts.reachable {env : Env} {kinds : List (List Bool)} {fs : FileSystem} {todo : List Cmd} {st : State}
    (hr : Reachable env (Mpi.initial kinds fs todo) st) : Halts st := by
  induction hr with
  | refl => exact .initial kinds fs todo
  | step l hr hs ih => exact ih.step hs

/-- Nothing happens after the end. -/
theorem Halts.final {env : Env} {st : State} (h : Halts st) (hpc : st.pc = .finished)
    (hw : ∀ q, 0 < q → q < st.nprocs → (st.procs q).pc = .returned) (l : Label) : Mpi.step env st l = .ok none := by
  have hd : ∀ q, q < st.nprocs → ∀ i, i < (st.procs q).size → ((st.procs q).thr i).phase = .done := by
    intro q hq i hi
    refine (h q hq).joined i ?_
    by_cases h0 : q = 0
    · subst h0
      simp only [State.place, if_true, hpc]
      exact hi
    · simp only [State.place, if_neg h0, hw q (by omega) hq]
      exact hi
  cases l with
  | thread ix i =>
    unfold Mpi.step
    dsimp only
    by_cases hx : ix < st.nprocs ∧ i < (st.procs ix).size
    · rw [if_pos hx]
      unfold Proc.threadStep
      simp only [hd ix hx.1 i hx.2]
      rfl
    · rw [if_neg hx]
  | master ch =>
    show masterStep st ch = _
    unfold masterStep
    rw [hpc]
  | worker ix =>
    unfold Mpi.step
    dsimp only
    by_cases hx : 0 < ix ∧ ix < st.nprocs
    · rw [if_pos hx]
      unfold Proc.workerStep
      rw [hw ix hx.1 hx.2]
      rfl
    · rw [if_neg hx]
  | spurious ix i =>
    show (if ix < st.nprocs ∧ i < (st.procs ix).size ∧ ((st.procs ix).thr i).phase = .sleep then
      (.ok (some (st.setProc ix ((st.procs ix).wake i))) : Res (Option State)) else .ok none) = _
    rw [if_neg]
    rintro ⟨h1, h2, h3⟩
    rw [hd ix h1 i h2] at h3
    cases h3

/-- A process whose threads are being stopped has been told so. -/
theorem Halts.closing {st : State} (h : Halts st) (hs : Serves st) {q i : Nat} (hq : q < st.nprocs)
    (hi : ((st.procs q).thr i).stop = true) : st.pc.closing q := by
  have ht := ((h q hq).told i).1 hi
  by_cases h0 : q = 0
  · subst h0
    simp only [State.place, if_true, ← (Pc.told_place _ _).1] at ht
    cases hpc : st.pc <;> rw [hpc] at ht <;> first | exact trivial | exact absurd ht (Nat.not_lt_zero _)
  · by_contra hc
    simp only [State.place, if_neg h0] at ht
    rcases (hs q (by omega) hq hc).pc with hp | ⟨k, hp⟩ <;> rw [hp] at ht <;> exact absurd ht (Nat.not_lt_zero _)

theorem Pc.closing.clean {pc : Pc} {q : Nat} (h : pc.closing q) (q' : Nat) : pc.clean q' := by
  cases pc <;> trivial

theorem WorkerPc.told_joined (w : WorkerPc) (n : Nat) : w.told n ≤ w.joined n + 1 := by
  cases w <;> simp [WorkerPc.told, WorkerPc.joined]

/-- When everything is done no thread has a job. -/
theorem Inv.idle {st : State} (hv : Inv st) (hq : st.pc.quiet) {q : Nat} (hx : q < st.nprocs) :
    (st.procs q).pool.busy = [] ∧ ∀ i, i < (st.procs q).size → ((st.procs q).thr i).jobs = [] := by
  have hp := hv.each q hx
  have hin : st.pc.inflight q = [] := by
    revert hq
    cases st.pc <;> intro hq <;> first | rfl | exact False.elim hq
  have hb := (Proc.busy_nil (hp.known_zero hin (hp.quiet hq))).1
  exact ⟨hb, hp.ok.idle hb⟩

end Mpi
end Hycu
