import Verif.Lemmas.MpiSched
import Verif.Lemmas.MpiShutdown

/-!
Every run with several processes can hang: in each process with threads the notification of the first thread in the
destructor of the pool can be lost.
-/

namespace Hycu
namespace Mpi

open Run (Tables Job Phase Thread ThreadPool FileStoreObj Cmd Cont Choice Env eraseFinished Sect program)

variable {env : Env} {kinds : List (List Bool)} {fs : FileSystem} {ss : List Sect} {st₀ st st' : State} {q : Nat}

/-- What is known about all states, whether notifications are lost or not. -/
structure Facts (st : State) : Prop where
  inv : Inv st
  serves : Serves st
  ended : Ended st
  halts : Halts st

theorem Facts.reachable (h : Facts st₀) (hr : Reachable env st₀ st) : Facts st := by
  induction hr with
  | refl => exact h
  | step l _ hs ih =>
    exact ⟨ih.inv.trans (step_trans hs), ih.serves.step hs, ih.ended.step ih.inv ih.serves hs, ih.halts.step hs⟩

theorem Facts.initial (h0 : kinds ≠ []) (hk : ∀ k ∈ kinds, k.length < 4294967296) (fs : FileSystem) {todo : List Cmd}
    (hd : Run.Distinct todo) : Facts (Mpi.initial kinds fs todo) :=
  have h := Sound.initial h0 hk fs hd
  ⟨h.inv, h.serves, h.ended, .initial kinds fs todo⟩

/-- The threads have nothing to do when the processes are told to stop. -/
theorem Facts.idle (h : Facts st) (hq : q < st.nprocs) (hc : st.pc.quiet) {i : Nat} (hi : i < (st.procs q).size) :
    ((st.procs q).thr i).queue = [] ∧ (((st.procs q).thr i).phase = .check ∨ ((st.procs q).thr i).phase = .wait ∨
      ((st.procs q).thr i).phase = .sleep ∨ ((st.procs q).thr i).phase = .done) := by
  have hp := h.inv.each q hq
  have hin : st.pc.inflight q = [] := by
    revert hc
    cases st.pc <;> intro hq <;> first | rfl | exact False.elim hq
  have hj := hp.ok.idle (Proc.busy_nil (hp.known_zero hin (hp.quiet hc))).1 i hi
  unfold Thread.jobs at hj
  obtain ⟨h1, h2⟩ := List.append_eq_nil_iff.1 hj
  refine ⟨h2, ?_⟩
  cases hph : ((st.procs q).thr i).phase with
  | check => exact Or.inl rfl
  | wait => exact Or.inr (Or.inl rfl)
  | sleep => exact Or.inr (Or.inr (Or.inl rfl))
  | done => exact Or.inr (Or.inr (Or.inr rfl))
  | pop => exact absurd h2 (hp.ok.pop i hph)
  | compute j => rw [hph] at h1; cases h1
  | report j => rw [hph] at h1; cases h1

/-! ### Steps of one process -/

/-- Only one process has changed, and its main thread. -/
structure Only (q : Nat) (st st' : State) : Prop where
  nprocs : st'.nprocs = st.nprocs
  others : ∀ k, k ≠ q → st'.procs k = st.procs k
  pc : q ≠ 0 → st'.pc = st.pc
  size : (st'.procs q).size = (st.procs q).size

theorem Only.refl (q : Nat) (st : State) : Only q st st := ⟨rfl, fun _ _ => rfl, fun _ => rfl, rfl⟩

theorem Only.trans {st'' : State} (h : Only q st st') (h' : Only q st' st'') : Only q st st'' :=
  ⟨h'.nprocs.trans h.nprocs, fun k hk => (h'.others k hk).trans (h.others k hk), fun h0 => (h'.pc h0).trans (h.pc h0),
    h'.size.trans h.size⟩

theorem Only.place (h : Only q st st') {k : Nat} (hk : k ≠ q) : st'.place k = st.place k := by
  unfold State.place
  split
  · rename_i h0
    rw [h.pc (by omega)]
  · rw [h.others k hk]

theorem setProc_only {p : Proc} (hs : p.size = (st.procs q).size) : Only q st (st.setProc q p) :=
  ⟨rfl, fun k hk => Function.update_of_ne hk .., fun _ => rfl, by
    rw [show (st.setProc q p).procs q = p from Function.update_self ..]; exact hs⟩

/-- A choice of the master, which does not matter here. -/
def anyChoice : Choice := ⟨false, true, 0⟩

/-- A step of the main thread of a process. -/
def mainLabel (q : Nat) : Label := if q = 0 then .master anyChoice else .worker q

/-- The state after a step of the main thread of a process. -/
def State.goto (st : State) (q : Nat) (p : Proc) (m : Pc) : State :=
  if q = 0 then { st.setProc 0 p with pc := m } else st.setProc q { p with pc := m.place }

theorem goto_only {p : Proc} {m : Pc} (hs : p.size = (st.procs q).size) : Only q st (st.goto q p m) := by
  unfold State.goto
  split
  · rename_i h0
    subst h0
    exact ⟨rfl, fun k hk => Function.update_of_ne hk .., fun h => absurd rfl h, by
      show (Function.update st.procs 0 p 0).size = _
      rw [Function.update_self]; exact hs⟩
  · exact setProc_only hs

theorem goto_place {p : Proc} {m : Pc} : (st.goto q p m).place q = m.place := by
  unfold State.goto State.place
  split
  · rfl
  · rw [show (st.setProc q { p with pc := m.place }).procs q = _ from Function.update_self ..]

theorem goto_thr {p : Proc} {m : Pc} : ((st.goto q p m).procs q).thr = p.thr := by
  unfold State.goto
  split
  · rename_i h0
    subst h0
    show (Function.update st.procs 0 p 0).thr = _
    rw [Function.update_self]
  · rw [show (st.setProc q { p with pc := m.place }).procs q = _ from Function.update_self ..]

theorem place_shutdown {pc : Pc} {i : Nat} (h : pc.place = .shutdown i) : pc = .shutdown i := by
  cases pc <;> simp_all [Pc.place]

theorem place_shutNotify {pc : Pc} {i : Nat} (h : pc.place = .shutNotify i) : pc = .shutNotify i := by
  cases pc <;> simp_all [Pc.place]

theorem place_join {pc : Pc} {i : Nat} (h : pc.place = .join i) : pc = .join i := by
  cases pc <;> simp_all [Pc.place]

theorem place_returned {pc : Pc} (h : pc.place = .returned) : pc = .finished := by
  cases pc <;> simp_all [Pc.place]

theorem main_stop {i : Nat} (hq : q < st.nprocs) (hpc : st.place q = .shutdown i) (hi : i < (st.procs q).size) :
    step env st (mainLabel q) = .ok (some (st.goto q ((st.procs q).stop i) (.shutNotify i))) := by
  unfold State.place at hpc
  unfold mainLabel State.goto
  split at hpc
  · rename_i h0
    subst h0
    simp only [if_true, step, masterStep, place_shutdown hpc]
    rw [if_pos hi]
  · rename_i h0
    rw [if_neg h0, if_neg h0]
    simp only [step]
    rw [if_pos ⟨Nat.pos_of_ne_zero h0, hq⟩]
    simp only [Proc.workerStep, hpc]
    rw [if_pos hi]
    rfl

theorem main_end {i : Nat} (hq : q < st.nprocs) (hpc : st.place q = .shutdown i) (hi : ¬ i < (st.procs q).size) :
    step env st (mainLabel q) = .ok (some (st.goto q (st.procs q) .finished)) := by
  unfold State.place at hpc
  unfold mainLabel State.goto
  split at hpc
  · rename_i h0
    subst h0
    simp only [if_true, step, masterStep, place_shutdown hpc]
    rw [if_neg hi]
    congr 2
    unfold State.setProc
    rw [Function.update_eq_self]
  · rename_i h0
    rw [if_neg h0, if_neg h0]
    simp only [step]
    rw [if_pos ⟨Nat.pos_of_ne_zero h0, hq⟩]
    simp only [Proc.workerStep, hpc]
    rw [if_neg hi]
    rfl

theorem main_notify {i : Nat} (hq : q < st.nprocs) (hpc : st.place q = .shutNotify i) :
    step env st (mainLabel q) = .ok (some (st.goto q ((st.procs q).wake i) (.join i))) := by
  unfold State.place at hpc
  unfold mainLabel State.goto
  split at hpc
  · rename_i h0
    subst h0
    simp only [if_true, step, masterStep, place_shutNotify hpc]
  · rename_i h0
    rw [if_neg h0, if_neg h0]
    simp only [step]
    rw [if_pos ⟨Nat.pos_of_ne_zero h0, hq⟩]
    simp only [Proc.workerStep, hpc]
    rfl

theorem main_join {i : Nat} (hq : q < st.nprocs) (hpc : st.place q = .join i) (hd : ((st.procs q).thr i).phase = .done) :
    step env st (mainLabel q) = .ok (some (st.goto q (st.procs q) (.shutdown (i + 1)))) := by
  unfold State.place at hpc
  unfold mainLabel State.goto
  split at hpc
  · rename_i h0
    subst h0
    simp only [if_true, step, masterStep, place_join hpc]
    rw [if_pos hd]
    congr 2
    unfold State.setProc
    rw [Function.update_eq_self]
  · rename_i h0
    rw [if_neg h0, if_neg h0]
    simp only [step]
    rw [if_pos ⟨Nat.pos_of_ne_zero h0, hq⟩]
    simp only [Proc.workerStep, hpc]
    rw [if_pos hd]
    rfl

/-- The state after a thread has changed its phase. -/
def State.turnTo (st : State) (q i : Nat) (p : Phase) : State :=
  st.setProc q ((st.procs q).setThread i { (st.procs q).thr i with phase := p })

theorem turnTo_only {i : Nat} {p : Phase} : Only q st (st.turnTo q i p) := setProc_only rfl

theorem turnTo_place {i k : Nat} {p : Phase} : (st.turnTo q i p).place k = st.place k := by
  by_cases hk : k = q
  · subst hk
    unfold State.place
    split
    · rfl
    · rw [show (st.turnTo k i p).procs k = _ from Function.update_self ..]
      rfl
  · exact turnTo_only.place hk

theorem turnTo_self {i : Nat} {p : Phase} :
    ((st.turnTo q i p).procs q).thr i = { (st.procs q).thr i with phase := p } := by
  rw [show (st.turnTo q i p).procs q = _ from Function.update_self ..]
  exact Function.update_self ..

theorem turnTo_other {i k : Nat} {p : Phase} (hk : k ≠ i) : ((st.turnTo q i p).procs q).thr k = (st.procs q).thr k := by
  rw [show (st.turnTo q i p).procs q = _ from Function.update_self ..]
  exact Function.update_of_ne hk ..

theorem thread_check {i : Nat} (hq : q < st.nprocs) (hi : i < (st.procs q).size)
    (hp : ((st.procs q).thr i).phase = .check) (hs : ((st.procs q).thr i).stop = false)
    (hj : ((st.procs q).thr i).queue = []) : step env st (.thread q i) = .ok (some (st.turnTo q i .wait)) := by
  have ht : (st.procs q).threadStep env i =
      .ok (some ((st.procs q).setThread i { (st.procs q).thr i with phase := .wait })) := by
    unfold Proc.threadStep
    simp only [hp]
    rw [if_neg (by rw [hs]; simp), if_pos hj]
  simp only [step]
  rw [if_pos ⟨hq, hi⟩, ht]
  rfl

theorem thread_stop {i : Nat} (hq : q < st.nprocs) (hi : i < (st.procs q).size)
    (hp : ((st.procs q).thr i).phase = .check) (hs : ((st.procs q).thr i).stop = true) :
    step env st (.thread q i) = .ok (some (st.turnTo q i .done)) := by
  have ht : (st.procs q).threadStep env i =
      .ok (some ((st.procs q).setThread i { (st.procs q).thr i with phase := .done })) := by
    unfold Proc.threadStep
    simp only [hp]
    rw [if_pos hs]
  simp only [step]
  rw [if_pos ⟨hq, hi⟩, ht]
  rfl

theorem thread_wait {i : Nat} (hq : q < st.nprocs) (hi : i < (st.procs q).size)
    (hp : ((st.procs q).thr i).phase = .wait) : step env st (.thread q i) = .ok (some (st.turnTo q i .sleep)) := by
  simp only [step]
  rw [if_pos ⟨hq, hi⟩]
  simp only [Proc.threadStep, hp]
  rfl

theorem thread_wake {i : Nat} (hq : q < st.nprocs) (hi : i < (st.procs q).size)
    (hp : ((st.procs q).thr i).phase = .sleep) : step env st (.spurious q i) = .ok (some (st.turnTo q i .check)) := by
  simp only [step]
  rw [if_pos ⟨hq, hi, hp⟩]
  unfold Proc.wake
  rw [if_pos hp]
  rfl

/-! ### The end of a process -/

theorem closing_quiet {pc : Pc} {q : Nat} (h : pc.closing q) : pc.quiet := by
  cases pc <;> trivial

/-- Threads are stopped only if the process has been told so. -/
theorem Facts.told (h : Facts st) (hq : q < st.nprocs) (hp : (st.place q).ending) : st.pc.quiet := by
  unfold State.place at hp
  split at hp
  · revert hp
    cases st.pc <;> intro hp <;> trivial
  · rename_i h0
    by_contra hc
    obtain h1 | ⟨i, h1⟩ := (h.serves q (Nat.pos_of_ne_zero h0) hq fun h => hc (closing_quiet h)).pc <;>
      (rw [h1] at hp; exact hp)

/-- A thread that has been told to stop comes to its end. -/
theorem Facts.stopped (h0 : Facts st₀) (hr : Reachable env st₀ st) (hq : q < st.nprocs) (hp : (st.place q).ending) {i : Nat}
    (hi : i < (st.procs q).size) (hs : ((st.procs q).thr i).stop = true) :
    ∃ st', Reachable env st₀ st' ∧ Only q st st' ∧ st'.place q = st.place q ∧ ((st'.procs q).thr i).phase = .done := by
  have fromCheck : ∀ {st : State}, Reachable env st₀ st → q < st.nprocs → i < (st.procs q).size →
      ((st.procs q).thr i).stop = true → ((st.procs q).thr i).phase = .check →
      ∃ st', Reachable env st₀ st' ∧ Only q st st' ∧ st'.place q = st.place q ∧ ((st'.procs q).thr i).phase = .done :=
    fun hr hq hi hs hp => ⟨_, .step _ hr (thread_stop hq hi hp hs), turnTo_only, turnTo_place, by rw [turnTo_self]⟩
  have fromSleep : ∀ {st : State}, Reachable env st₀ st → q < st.nprocs → i < (st.procs q).size →
      ((st.procs q).thr i).stop = true → ((st.procs q).thr i).phase = .sleep →
      ∃ st', Reachable env st₀ st' ∧ Only q st st' ∧ st'.place q = st.place q ∧ ((st'.procs q).thr i).phase = .done := by
    intro st hr hq hi hs hp
    obtain ⟨st', h1, h2, h3, h4⟩ := fromCheck (st := st.turnTo q i .check) (.step _ hr (thread_wake hq hi hp)) hq
      (by rw [turnTo_only.size]; exact hi) (by rw [turnTo_self]; exact hs) (by rw [turnTo_self])
    exact ⟨st', h1, turnTo_only.trans h2, h3.trans turnTo_place, h4⟩
  have hf := h0.reachable hr
  rcases (hf.idle hq (hf.told hq hp) hi).2 with h1 | h1 | h1 | h1
  · exact fromCheck hr hq hi hs h1
  · obtain ⟨st', h2, h3, h4, h5⟩ := fromSleep (st := st.turnTo q i .sleep) (.step _ hr (thread_wait hq hi h1)) hq
      (by rw [turnTo_only.size]; exact hi) (by rw [turnTo_self]; exact hs) (by rw [turnTo_self])
    exact ⟨st', h2, turnTo_only.trans h3, h4.trans turnTo_place, h5⟩
  · exact fromSleep hr hq hi hs h1
  · exact ⟨st, hr, .refl q st, rfl, h1⟩

/-- A process that stops its threads comes to its end. -/
theorem Facts.finish (h0 : Facts st₀) (hr : Reachable env st₀ st) (hq : q < st.nprocs) (hp : (st.place q).ending) :
    ∃ st', Reachable env st₀ st' ∧ Only q st st' ∧ st'.place q = .returned := by
  have joins : ∀ (n : Nat) {st : State}, Reachable env st₀ st → q < st.nprocs → ∀ i, (st.procs q).size = i + n →
      st.place q = .shutdown i → ∃ st', Reachable env st₀ st' ∧ Only q st st' ∧ st'.place q = .returned := by
    intro n
    induction n with
    | zero =>
      intro st hr hq i hn hp
      exact ⟨_, .step _ hr (main_end hq hp (by omega)), goto_only rfl, goto_place⟩
    | succ n ih =>
      intro st hr hq i hn hp
      have s1 := main_stop (env := env) hq hp (by omega)
      have o1 : Only q st (st.goto q ((st.procs q).stop i) (.shutNotify i)) := goto_only rfl
      have p1 : (st.goto q ((st.procs q).stop i) (.shutNotify i)).place q = .shutNotify i := goto_place
      have r1 := Reachable.step _ hr s1
      generalize st.goto q ((st.procs q).stop i) (.shutNotify i) = u at o1 p1 r1
      have hqu : q < u.nprocs := by rw [o1.nprocs]; exact hq
      have s2 := main_notify (env := env) hqu p1
      have o2 : Only q u (u.goto q ((u.procs q).wake i) (.join i)) := goto_only ((u.procs q).wake_kin i).size
      have p2 : (u.goto q ((u.procs q).wake i) (.join i)).place q = .join i := goto_place
      have r2 := Reachable.step _ r1 s2
      generalize u.goto q ((u.procs q).wake i) (.join i) = v at o2 p2 r2
      have hqv : q < v.nprocs := by rw [o2.nprocs]; exact hqu
      have hsv : (v.procs q).size = i + (n + 1) := by rw [o2.size, o1.size]; exact hn
      obtain ⟨w, r3, o3, p3, d3⟩ := h0.stopped r2 hqv (by rw [p2]; trivial) (i := i) (by omega)
        (((h0.reachable r2).halts q hqv).told i |>.2 (by rw [p2]; exact Nat.lt_succ_self i))
      have hqw : q < w.nprocs := by rw [o3.nprocs]; exact hqv
      have s4 := main_join (env := env) hqw (p3.trans p2) d3
      obtain ⟨x, r5, o5, p5⟩ := ih (Reachable.step _ r3 s4)
        (by rw [(goto_only rfl : Only q w (w.goto q (w.procs q) (.shutdown (i + 1)))).nprocs]; exact hqw) (i + 1)
        (by rw [(goto_only rfl : Only q w (w.goto q (w.procs q) (.shutdown (i + 1)))).size, o3.size]; omega) goto_place
      exact ⟨x, r5, o1.trans (o2.trans (o3.trans ((goto_only rfl).trans o5))), p5⟩
  have fromShut : ∀ {st : State}, Reachable env st₀ st → q < st.nprocs → ∀ i, st.place q = .shutdown i →
      ∃ st', Reachable env st₀ st' ∧ Only q st st' ∧ st'.place q = .returned := by
    intro st hr hq i hp
    have hb : i ≤ (st.procs q).size := by
      have := ((h0.reachable hr).halts q hq).bound
      rw [hp] at this
      exact this
    exact joins ((st.procs q).size - i) hr hq i (by omega) hp
  have fromJoin : ∀ {st : State}, Reachable env st₀ st → q < st.nprocs → ∀ i, st.place q = .join i →
      ∃ st', Reachable env st₀ st' ∧ Only q st st' ∧ st'.place q = .returned := by
    intro st hr hq i hp
    have hh := (h0.reachable hr).halts q hq
    rw [hp] at hh
    obtain ⟨w, r3, o3, p3, d3⟩ := h0.stopped hr hq (by rw [hp]; trivial) (i := i) hh.bound ((hh.told i).2 (Nat.lt_succ_self i))
    have hqw : q < w.nprocs := by rw [o3.nprocs]; exact hq
    have o4 : Only q w (w.goto q (w.procs q) (.shutdown (i + 1))) := goto_only rfl
    obtain ⟨x, r5, o5, p5⟩ := fromShut (Reachable.step _ r3 (main_join hqw (p3.trans hp) d3))
      (by rw [o4.nprocs]; exact hqw) (i + 1) goto_place
    exact ⟨x, r5, o3.trans (o4.trans o5), p5⟩
  cases hpl : st.place q with
  | probe => rw [hpl] at hp; exact hp.elim
  | notify i => rw [hpl] at hp; exact hp.elim
  | returned => exact ⟨st, hr, .refl q st, hpl⟩
  | shutdown i => exact fromShut hr hq i hpl
  | join i => exact fromJoin hr hq i hpl
  | shutNotify i =>
    have o1 : Only q st (st.goto q ((st.procs q).wake i) (.join i)) := goto_only ((st.procs q).wake_kin i).size
    obtain ⟨x, r5, o5, p5⟩ := fromJoin (Reachable.step _ hr (main_notify hq hpl)) (by rw [o1.nprocs]; exact hq) i goto_place
    exact ⟨x, r5, o1.trans o5, p5⟩

/-! ### A lost notification -/

/-- All threads of a process go to sleep. -/
theorem Facts.settle (h0 : Facts st₀) (hr : Reachable env st₀ st) (hq : q < st.nprocs) (hp : st.place q = .shutdown 0)
    (k : Nat) (hk : k ≤ (st.procs q).size) : ∃ st', Reachable env st₀ st' ∧ Only q st st' ∧ st'.place q = .shutdown 0 ∧
      ∀ i, i < k → ((st'.procs q).thr i).phase = .sleep := by
  induction k with
  | zero => exact ⟨st, hr, .refl q st, hp, fun i hi => absurd hi (Nat.not_lt_zero i)⟩
  | succ k ih =>
    obtain ⟨s, h1, h2, h3, h4⟩ := ih (by omega)
    have hw : ∀ s : State, Reachable env st₀ s → Only q st s → s.place q = .shutdown 0 →
        (∀ i, i < k → ((s.procs q).thr i).phase = .sleep) → ((s.procs q).thr k).phase = .wait →
        ∃ st', Reachable env st₀ st' ∧ Only q st st' ∧ st'.place q = .shutdown 0 ∧
          ∀ i, i < k + 1 → ((st'.procs q).thr i).phase = .sleep := by
      intro s h1 h2 h3 h4 h5
      refine ⟨_, .step _ h1 (thread_wait (by rw [h2.nprocs]; exact hq) (by rw [h2.size]; omega) h5), h2.trans turnTo_only,
        turnTo_place.trans h3, fun i hi => ?_⟩
      by_cases e : i = k
      · subst e
        rw [turnTo_self]
      · rw [turnTo_other e]
        exact h4 i (by omega)
    have hqs : q < s.nprocs := by rw [h2.nprocs]; exact hq
    have hks : k < (s.procs q).size := by rw [h2.size]; omega
    have hf := h0.reachable h1
    have hh := hf.halts q hqs
    rw [h3] at hh
    have hns : ((s.procs q).thr k).stop ≠ true := fun h => absurd ((hh.told k).1 h) (Nat.not_lt_zero k)
    obtain ⟨h5, h6 | h6 | h6 | h6⟩ := hf.idle hqs (hf.told hqs (by rw [h3]; trivial)) hks
    · refine hw _ (.step _ h1 (thread_check hqs hks h6 (by simpa using hns) h5)) (h2.trans turnTo_only)
        (turnTo_place.trans h3) (fun i hi => ?_) (by rw [turnTo_self])
      rw [turnTo_other (by omega)]
      exact h4 i hi
    · exact hw s h1 h2 h3 h4 h6
    · refine ⟨s, h1, h2, h3, fun i hi => ?_⟩
      rcases Nat.lt_succ_iff_lt_or_eq.1 hi with hi | rfl
      · exact h4 i hi
      · exact h6
    · exact absurd (hh.done k h6) hns

/-- The notification of the first thread is lost. -/
theorem Facts.lose (h0 : Facts st₀) (hr : Reachable env st₀ st) (hq : q < st.nprocs) (hp : st.place q = .shutdown 0)
    (hpos : 0 < (st.procs q).size) : ∃ st', Reachable env st₀ st' ∧ Only q st st' ∧ st'.place q = .join 0 ∧
      ∀ i, i < (st.procs q).size → ((st'.procs q).thr i).phase = .sleep := by
  obtain ⟨s, r1, o1, p1, h1⟩ := h0.settle hr hq hp _ le_rfl
  have hqs : q < s.nprocs := by rw [o1.nprocs]; exact hq
  have hps : 0 < (s.procs q).size := by rw [o1.size]; exact hpos
  have r2 := Reachable.step _ r1 (thread_wake hqs hps (h1 0 hpos))
  have o2 : Only q s (s.turnTo q 0 .check) := turnTo_only
  have p2 : (s.turnTo q 0 .check).place q = .shutdown 0 := turnTo_place.trans p1
  have h2 : ((s.turnTo q 0 .check).procs q).thr 0 = { (s.procs q).thr 0 with phase := .check } := turnTo_self
  have h2' : ∀ i, i ≠ 0 → ((s.turnTo q 0 .check).procs q).thr i = (s.procs q).thr i := fun i hi => turnTo_other hi
  generalize s.turnTo q 0 .check = t at r2 o2 p2 h2 h2'
  have hqt : q < t.nprocs := by rw [o2.nprocs]; exact hqs
  have hpt : 0 < (t.procs q).size := by rw [o2.size]; exact hps
  have hf := h0.reachable r2
  have hh := hf.halts q hqt
  rw [p2] at hh
  have hns : ((t.procs q).thr 0).stop ≠ true := fun h => absurd ((hh.told 0).1 h) (Nat.not_lt_zero 0)
  have r3 := Reachable.step _ r2 (thread_check hqt hpt (by rw [h2]) (by simpa using hns)
    (hf.idle hqt (hf.told hqt (by rw [p2]; trivial)) hpt).1)
  have o3 : Only q t (t.turnTo q 0 .wait) := turnTo_only
  have p3 : (t.turnTo q 0 .wait).place q = .shutdown 0 := turnTo_place.trans p2
  have h3 : ((t.turnTo q 0 .wait).procs q).thr 0 = { (t.procs q).thr 0 with phase := .wait } := turnTo_self
  have h3' : ∀ i, i ≠ 0 → ((t.turnTo q 0 .wait).procs q).thr i = (t.procs q).thr i := fun i hi => turnTo_other hi
  generalize t.turnTo q 0 .wait = u at r3 o3 p3 h3 h3'
  have hqu : q < u.nprocs := by rw [o3.nprocs]; exact hqt
  have hpu : 0 < (u.procs q).size := by rw [o3.size]; exact hpt
  have r4 := Reachable.step _ r3 (main_stop hqu p3 hpu)
  have o4 : Only q u (u.goto q ((u.procs q).stop 0) (.shutNotify 0)) := goto_only rfl
  have p4 : (u.goto q ((u.procs q).stop 0) (.shutNotify 0)).place q = .shutNotify 0 := goto_place
  have h4 : ((u.goto q ((u.procs q).stop 0) (.shutNotify 0)).procs q).thr = ((u.procs q).stop 0).thr := goto_thr
  generalize u.goto q ((u.procs q).stop 0) (.shutNotify 0) = v at r4 o4 p4 h4
  have hqv : q < v.nprocs := by rw [o4.nprocs]; exact hqu
  have hv0 : ((v.procs q).thr 0).phase = .wait := by
    have e : ((u.procs q).stop 0).thr 0 = { (u.procs q).thr 0 with stop := true } := by
      simp [Proc.stop, Proc.setThread]
    rw [h4, e]
    show ((u.procs q).thr 0).phase = _
    rw [h3]
  have hv' : ∀ i, i ≠ 0 → (v.procs q).thr i = (u.procs q).thr i := fun i hi => by
    rw [h4]
    exact Function.update_of_ne hi ..
  have r5 := Reachable.step _ r4 (main_notify hqv p4)
  have hwk : (v.procs q).wake 0 = v.procs q := by
    unfold Proc.wake
    rw [if_neg (by rw [hv0]; simp)]
  rw [hwk] at r5
  have o5 : Only q v (v.goto q (v.procs q) (.join 0)) := goto_only rfl
  have p5 : (v.goto q (v.procs q) (.join 0)).place q = .join 0 := goto_place
  have h5 : ((v.goto q (v.procs q) (.join 0)).procs q).thr = (v.procs q).thr := goto_thr
  generalize v.goto q (v.procs q) (.join 0) = w at r5 o5 p5 h5
  have hqw : q < w.nprocs := by rw [o5.nprocs]; exact hqv
  have r6 := Reachable.step _ r5 (thread_wait (i := 0) hqw (by rw [o5.size, o4.size]; exact hpu) (by rw [h5]; exact hv0))
  refine ⟨_, r6, o1.trans (o2.trans (o3.trans (o4.trans (o5.trans turnTo_only)))), turnTo_place.trans p5, fun i hi => ?_⟩
  by_cases e : i = 0
  · subst e
    rw [turnTo_self]
  · rw [turnTo_other e, h5, hv' i e, h3' i e, h2' i e]
    exact h1 i hi

/-! ### All processes are told to stop -/

/-- The processes are being told to stop, or have been. -/
def Pc.stopping : Pc → Bool
  | .stopSend _ | .shutdown _ | .shutNotify _ | .join _ | .finished => true
  | _ => false

theorem stopping_entry {l : Label} (hs : step env st l = .ok (some st')) (h : st.pc.stopping = false)
    (h' : st'.pc.stopping = true) : st'.pc = .stopSend 1 := by
  have key : ∀ {k}, (afterSave k).stopping = true → afterSave k = .stopSend 1 := fun {k} hk => by
    cases k with
    | exit => rfl
    | _ => cases hk
  by_cases hl : ∃ ch, l = .master ch
  swap
  · rw [(step_pc (fun ch hch => hl ⟨ch, hch⟩) hs).1, h] at h'
    cases h'
  obtain ⟨ch, rfl⟩ := hl
  have hm := masterStep_cases hs
  clear hs
  cases hm with
  | saveNone k hpc hf => exact key h'
  | saveEnd ix k hpc hi => exact key h'
  | mainConfig hpc => simp only at h'; split at h' <;> cases h'
  | mainAssign hpc => simp only at h'; split at h' <;> cases h'
  | flushEnd ix c hpc hi => cases c <;> cases h'
  | stopSend ix hpc hi => rw [hpc] at h; cases h
  | stopEnd ix hpc hi => rw [hpc] at h; cases h
  | shutNotify i hpc => rw [hpc] at h; cases h
  | shutdown i hpc hi => rw [hpc] at h; cases h
  | shutdownEnd i hpc hi => rw [hpc] at h; cases h
  | join i hpc hp => rw [hpc] at h; cases h
  | _ => cases h'

/-- The processes are told to stop before the end. -/
theorem Reachable.stopping (hr : Reachable env st₀ st) (h0 : st₀.pc.stopping = false) (h : st.pc.stopping = true) :
    ∃ st', Reachable env st₀ st' ∧ st'.pc = .stopSend 1 := by
  induction hr with
  | refl => rw [h0] at h; cases h
  | @step s s' l hr hs ih =>
    by_cases hc : s.pc.stopping = true
    · exact ih hc
    · exact ⟨s', .step l hr hs, stopping_entry hs (by simpa using hc) h⟩

/-- The messages to stop are sent. -/
theorem sends_stop (n : Nat) : ∀ {st : State}, Reachable env st₀ st → ∀ ix, st.pc = .stopSend ix → st.nprocs ≤ ix + n →
    ∃ st', Reachable env st₀ st' ∧ st'.pc = .shutdown 0 ∧ st'.nprocs = st.nprocs ∧
      ∀ k, (st'.procs k).pc = (st.procs k).pc ∧ (st'.procs k).size = (st.procs k).size := by
  induction n with
  | zero =>
    intro st hr ix hpc hn
    refine ⟨{ st with pc := .shutdown 0 }, .step (.master anyChoice) hr ?_, rfl, rfl, fun k => ⟨rfl, rfl⟩⟩
    simp only [step, masterStep, hpc]
    rw [if_neg (by omega)]
  | succ n ih =>
    intro st hr ix hpc hn
    by_cases hx : ix < st.nprocs
    · obtain ⟨st', h1, h2, h3, h4⟩ := ih (st := { st.send ix .shutdown with pc := .stopSend (ix + 1) })
        (.step (.master anyChoice) hr (by simp only [step, masterStep, hpc]; rw [if_pos hx])) (ix + 1) rfl
        (by show st.nprocs ≤ _; omega)
      refine ⟨st', h1, h2, h3, fun k => ?_⟩
      obtain ⟨h5, h6⟩ := h4 k
      rw [h5, h6]
      show (Function.update st.procs ix _ k).pc = _ ∧ (Function.update st.procs ix _ k).size = _
      by_cases e : k = ix
      · subst e
        rw [Function.update_self]
        exact ⟨rfl, rfl⟩
      · rw [Function.update_of_ne e]
        exact ⟨rfl, rfl⟩
    · refine ⟨{ st with pc := .shutdown 0 }, .step (.master anyChoice) hr ?_, rfl, rfl, fun k => ⟨rfl, rfl⟩⟩
      simp only [step, masterStep, hpc]
      rw [if_neg hx]

/-- A worker gets the message. -/
theorem gets_stop (hr : Reachable env st₀ st) (h0 : 0 < q) (hq : q < st.nprocs)
    (hp : (st.procs q).pc = .probe ∨ ∃ i, (st.procs q).pc = .notify i) (hi : (st.procs q).inbox = [.shutdown]) :
    ∃ st', Reachable env st₀ st' ∧ Only q st st' ∧ st'.place q = .shutdown 0 := by
  have fromProbe : ∀ {st : State}, Reachable env st₀ st → q < st.nprocs → (st.procs q).pc = .probe →
      (st.procs q).inbox = [.shutdown] → ∃ st', Reachable env st₀ st' ∧ Only q st st' ∧ st'.place q = .shutdown 0 := by
    intro st hr hq hp hi
    refine ⟨st.setProc q { st.procs q with inbox := [], pc := .shutdown 0 }, .step (.worker q) hr ?_, setProc_only rfl, ?_⟩
    · simp only [step]
      rw [if_pos ⟨h0, hq⟩]
      simp only [Proc.workerStep, hp, hi, Proc.handle]
      rfl
    · unfold State.place
      rw [if_neg (by omega), show (st.setProc q _).procs q = _ from Function.update_self ..]
  rcases hp with hp | ⟨i, hp⟩
  · exact fromProbe hr hq hp hi
  · have hs : step env st (.worker q) = .ok (some (st.setProc q { (st.procs q).wake i with pc := .probe })) := by
      simp only [step]
      rw [if_pos ⟨h0, hq⟩]
      simp only [Proc.workerStep, hp]
      rfl
    have o1 : Only q st (st.setProc q { (st.procs q).wake i with pc := .probe }) :=
      setProc_only ((st.procs q).wake_kin i).size
    have e : (st.setProc q { (st.procs q).wake i with pc := .probe }).procs q = { (st.procs q).wake i with pc := .probe } :=
      Function.update_self ..
    obtain ⟨st', h1, h2, h3⟩ := fromProbe (.step _ hr hs) hq (by rw [e]) (by
      rw [e]
      show ((st.procs q).wake i).inbox = _
      unfold Proc.wake
      split <;> exact hi)
    exact ⟨st', h1, o1.trans h2, h3⟩

/-- A process waits for the end of its first thread, which sleeps, as all its threads do; all other processes have
ended. -/
structure Hung (x : Nat) (st : State) : Prop where
  proc : x < st.nprocs
  pos : 0 < (st.procs x).size
  join : st.place x = .join 0
  sleep : ∀ i, i < (st.procs x).size → ((st.procs x).thr i).phase = .sleep
  others : ∀ q, q < st.nprocs → q ≠ x → st.place q = .returned
  done : ∀ q, q < st.nprocs → q ≠ x → ∀ i, i < (st.procs q).size → ((st.procs q).thr i).phase = .done

/-- From a state in which the processes have been told to stop. -/
theorem Facts.hung (h0 : Facts st₀) (hr : Reachable env st₀ st) (hpc : st.pc = .stopSend 1) {x : Nat} (hx : x < st.nprocs)
    (hs : 0 < (st.procs x).size) : ∃ st', Reachable env st₀ st' ∧ Hung x st' := by
  obtain ⟨s, r1, p1, n1, e1⟩ := sends_stop st.nprocs hr 1 hpc (by omega)
  have hf := h0.reachable hr
  have hf1 := h0.reachable r1
  have hserve : ∀ q, 0 < q → q < s.nprocs → ((s.procs q).pc = .probe ∨ ∃ i, (s.procs q).pc = .notify i) ∧
      (s.procs q).inbox = [.shutdown] := by
    intro q hq0 hq
    have h2 := (hf.serves q hq0 (by rw [← n1]; exact hq) (by rw [hpc]; show ¬ q < 1; omega)).pc
    rw [← (e1 q).1] at h2
    rcases hf1.ended q hq0 hq (by rw [p1]; trivial) with h3 | ⟨h3, _⟩
    · exact h3
    · rcases h2 with h2 | ⟨i, h2⟩ <;> (rw [h2] at h3; exact h3.elim)
  -- all workers get the message
  have hall : ∀ n, n ≤ s.nprocs → ∃ t, Reachable env st₀ t ∧ t.nprocs = s.nprocs ∧ t.pc = .shutdown 0 ∧
      (∀ q, (t.procs q).size = (s.procs q).size) ∧ (∀ q, 0 < q → q < n → t.place q = .shutdown 0) ∧
      ∀ q, n ≤ q → t.procs q = s.procs q := by
    intro n
    induction n with
    | zero => exact fun _ => ⟨s, r1, rfl, p1, fun _ => rfl, fun q _ h => absurd h (Nat.not_lt_zero q), fun _ _ => rfl⟩
    | succ n ih =>
      intro hn
      obtain ⟨t, a1, a2, a3, a4, a5, a6⟩ := ih (by omega)
      by_cases hn0 : n = 0
      · exact ⟨t, a1, a2, a3, a4, fun q h1 h2 => by omega, fun q hq => a6 q (by omega)⟩
      obtain ⟨b1, b2⟩ := hserve n (Nat.pos_of_ne_zero hn0) (by omega)
      obtain ⟨u, c1, c2, c3⟩ := gets_stop a1 (Nat.pos_of_ne_zero hn0) (by omega) (by rw [a6 n le_rfl]; exact b1)
        (by rw [a6 n le_rfl]; exact b2)
      refine ⟨u, c1, c2.nprocs.trans a2, (c2.pc hn0).trans a3, fun q => ?_, fun q h1 h2 => ?_, fun q hq => ?_⟩
      · by_cases e : q = n
        · subst e
          exact c2.size.trans (a4 q)
        · rw [c2.others q e, a4]
      · by_cases e : q = n
        · subst e
          exact c3
        · rw [c2.place e]
          exact a5 q h1 (by omega)
      · rw [c2.others q (by omega), a6 q (by omega)]
  obtain ⟨t, a1, a2, a3, a4, a5, _⟩ := hall s.nprocs le_rfl
  have hshut : ∀ q, q < t.nprocs → t.place q = .shutdown 0 := by
    intro q hq
    by_cases e : q = 0
    · subst e
      unfold State.place
      rw [if_pos rfl, a3]
      rfl
    · exact a5 q (Nat.pos_of_ne_zero e) (by omega)
  -- all processes but one end
  have hend : ∀ n, n ≤ t.nprocs → ∃ u, Reachable env st₀ u ∧ u.nprocs = t.nprocs ∧
      (u.procs x).size = (t.procs x).size ∧ (∀ q, q < n → q ≠ x → u.place q = .returned) ∧
      (∀ q, q < t.nprocs → n ≤ q ∨ q = x → u.place q = .shutdown 0) := by
    intro n
    induction n with
    | zero => exact fun _ => ⟨t, a1, rfl, rfl, fun q h => absurd h (Nat.not_lt_zero q), fun q hq _ => hshut q hq⟩
    | succ n ih =>
      intro hn
      obtain ⟨u, b1, b2, b3, b4, b5⟩ := ih (by omega)
      by_cases hnx : n = x
      · subst hnx
        exact ⟨u, b1, b2, b3, fun q h1 h2 => b4 q (by omega) h2, fun q h1 h2 => b5 q h1 (by omega)⟩
      obtain ⟨v, c1, c2, c3⟩ := h0.finish (q := n) b1 (by omega) (by rw [b5 n (by omega) (Or.inl le_rfl)]; trivial)
      refine ⟨v, c1, c2.nprocs.trans b2, by rw [c2.others x (Ne.symm hnx), b3], fun q h1 h2 => ?_, fun q h1 h2 => ?_⟩
      · by_cases e : q = n
        · subst e
          exact c3
        · rw [c2.place e]
          exact b4 q (by omega) h2
      · have e : q ≠ n := by omega
        rw [c2.place e]
        exact b5 q h1 (by omega)
  obtain ⟨u, b1, b2, b3, b4, b5⟩ := hend t.nprocs le_rfl
  have hxu : x < u.nprocs := by omega
  obtain ⟨w, c1, c2, c3, c4⟩ := h0.lose b1 hxu (b5 x (by omega) (Or.inr rfl)) (by rw [b3, a4, (e1 x).2]; exact hs)
  have hret : ∀ q, q < w.nprocs → q ≠ x → w.place q = .returned := fun q hq e => by
    rw [c2.place e]
    exact b4 q (by rw [c2.nprocs] at hq; omega) e
  refine ⟨w, c1, by rw [c2.nprocs]; exact hxu, by rw [c2.size, b3, a4, (e1 x).2]; exact hs, c3, fun i hi => c4 i (by rw [← c2.size]; exact hi),
    hret, fun q hq e i hi => ?_⟩
  have hh := (h0.reachable c1).halts q hq
  rw [hret q hq e] at hh
  exact hh.joined i hi

end Mpi
end Hycu
