import Verif.Lemmas.MakingWorkers
import Verif.Props.MakingLocks

/-!
C84 for the workers of `hycu-mpi`: what has been saved when they make tables.
-/

namespace Hycu

open Run (Env Sect program)

namespace Mpi

variable {tab : ConfigNode → Res Unit} {env : Env} {ss : List Sect} {fs : FileSystem} {kinds : List (List Bool)} {st : State}

/-- C84: when a configuration is on its way to a worker or handled by it, all blocks of the sections before it have been
computed and saved, also if the master has gone on. -/
theorem C84_worker_before (h : Attempts env ss) (hp : Past env ss fs) (h0 : kinds ≠ [])
    (hk : ∀ k ∈ kinds, k.length < 4294967296) (hr : MakingReachable tab env (initial kinds fs (program ss)) st)
    {ix : Nat} (hx : ix < st.nprocs) {c : ConfigNode} (hc : .config c ∈ (st.procs ix).inbox) :
    ∃ pre s post, ss = pre ++ s :: post ∧ s.cfg = c ∧ ∀ s' ∈ pre, Saved env st.fs s' := by
  have hi := h.input
  have hr' := hr.reachable.repair fun _ _ => []
  have hd := DataInv.reachable hi h0 hk ((hp.repair _).kept hi) hr'
  have hv := (Inv.initial h0 hk fs (Run.distinct_program hi.blocks)).reachable hr'
  have hu := Untold.reachable hr'
  have hproc := hv.each ix hx
  obtain ⟨ms, hin⟩ : ∃ ms, (st.procs ix).inbox = .config c :: ms := by
    have := hproc.config c
    generalize (st.procs ix).inbox = l at hc this
    cases l with
    | nil => cases hc
    | cons m ms =>
      rcases List.mem_cons.1 hc with rfl | hc
      · exact ⟨ms, rfl⟩
      · exact absurd hc this
  have hcfg : (st.procs ix).cfgOf = some c := by
    unfold Proc.cfgOf
    rw [hin]
  have saved : ∀ {pre s post} {fs' : FileSystem}, ss = pre ++ s :: post → fs' = st.fs →
      (∀ p, p ≠ s.cfg.resultPath → (Run.exactly.course (succeeded env) ss).after pre p (fs' p)) →
      ∀ s' ∈ pre, Saved env st.fs s' := by
    rintro pre s post _ hss rfl ha s' hs'
    exact saved_of_complete h (.mpi _ _ _ _ hp h0 hk hr.reachable .between) (by rw [hss]; simp [hs'])
      (before_complete h hss hs' ha)
  by_cases hs : st.pc.setting = false
  · rcases hd.sects with hun | ⟨pre, s, post, done, rest', ha, h5, _, _, _, _, _, _, hcur⟩
    · rcases hu.inbox ix c hc with h1 | ⟨jx, h1⟩
      · rw [hun.todo] at h1
        exact absurd h1 (Nat.lt_irrefl _)
      · rw [h1] at hs
        cases hs
    · have := (hcur.cfg hs ix hx).symm.trans hcfg
      exact ⟨pre, s, post, ha.sections, Option.some.inj this, saved ha.sections rfl h5⟩
  · have hcalm : ¬ st.pc.calm ix := fun hq => by
      rw [hproc.calm hq] at hin
      cases hin
    obtain ⟨jx, hpc⟩ : ∃ jx, st.pc = .configSend jx := by
      cases hpc : st.pc <;> rw [hpc] at hs hcalm <;> first | exact ⟨_, rfl⟩ | exact absurd rfl hs | exact absurd trivial hcalm
    have hlt : ix < jx := by
      rw [hpc] at hcalm
      exact Nat.lt_of_not_le hcalm
    obtain ⟨c', rest, ht⟩ := hu.sends jx hpc
    cases (hd.told jx hpc c' rest ht ix hx hlt).symm.trans hcfg
    obtain ⟨f, _, hf, -, hfc, -⟩ := hd.next (by rw [hpc]; rfl) c rest ht
    obtain ⟨st', hr2, h1, h2, h3, h4⟩ := sends_all (c := c) (rest := rest) st.nprocs st jx (Nat.le_add_left _ _) hr' hpc ht
    have hf' : st'.fileStore = some f := h4.trans hf
    rcases (DataInv.reachable hi h0 hk ((hp.repair _).kept hi) hr2).sects with
      hun | ⟨pre, s, post, done, rest', ha, h5, _, _, _, _, _, _, hcur⟩
    · have := hun.store (by rw [h1]; rfl)
      rw [hf'] at this
      cases this
    · obtain ⟨f', h6, -, h7, -⟩ := hcur.store (by rw [h1]; rfl)
      rw [hf'] at h6
      cases h6
      exact ⟨pre, s, post, ha.sections, h7.symm.trans hfc, saved ha.sections h3 h5⟩

set_option maxRecDepth 20000 in
/-- Hypotheses of `C84_worker_before`: the second configuration is on its way, the first section is saved. -/
example : 1 < (makingRun [[], [true, false]] 110).nprocs ∧
    (∃ c, .config c ∈ ((makingRun [[], [true, false]] 110).procs 1).inbox ∧ someTab c = .abort) ∧
    Attempts demoEnv demoSects ∧ Past demoEnv demoSects (fun _ => none) ∧
    ((makingRun [[], [true, false]] 110).fs "a".toList).map List.length = some 4 :=
  ⟨by decide, ⟨_, List.mem_cons_self, rfl⟩, demo_input.attempts, .start _ (by intro s hs d hd; cases hd), rfl⟩

end Mpi

namespace MpiLocks

open Locks (Config Reachable abs abs_private)

variable {tab : ConfigNode → Res Unit} {env : Env} {ss : List Sect} {fs : FileSystem} {kinds : List (List Bool)}
  {c : Config Agent Lock Var Val}

/-- C84: when the main thread of a worker has received a configuration and is about to make its tables, all blocks of the
sections before it have been computed and saved. -/
theorem C84_worker_before (ha : Attempts env ss) (hp : Mpi.Past env ss fs) (hk : ∀ k ∈ kinds, k.length < 4294967296)
    (h : Reachable (making tab kinds env) (initial kinds fs (program ss)) c) {ix : Nat} (hx : ix < kinds.length)
    {cfg : ConfigNode} (hh : (c.mem (.of ix .worker) : WorkerData).hand = .got (.config cfg)) :
    ∃ pre s post, ss = pre ++ s :: post ∧ s.cfg = cfg ∧ ∀ s' ∈ pre, Saved env (c.mem .master : MasterData).fs s' := by
  obtain ⟨-, st, h1, hm⟩ := making_refines h
  have e : abs (making tab kinds env) c .master = c.mem .master :=
    abs_private (S := making tab kinds env) (a := .main 0) rfl
  have ew : abs (making tab kinds env) c (.of ix .worker) = c.mem (.of ix .worker) :=
    abs_private (S := making tab kinds env) (a := .main ix) rfl
  have hh' : st.hand ix = .got (.config cfg) := by
    rw [← ew, ← hm.2] at hh
    exact hh
  have hx' : ix < (flat st).nprocs := by
    show ix < st.base.nprocs
    rw [(fixed_reach hm.1).1]
    exact hx
  have key := Mpi.C84_worker_before ha hp (by rintro rfl; cases hx) hk h1 hx' (c := cfg) (by
    show Mpi.Msg.config cfg ∈ (flatProc (st.base.procs ix) (st.hand ix)).inbox
    rw [hh']
    simp [flatProc, Hand.msgs])
  rw [← e, ← hm.2]
  exact key

/-- Hypotheses of `C84_worker_before`. -/
example : ∃ c, Reachable (making Locks.noTab [[], [false]] Run.onceEnv)
      (initial [[], [false]] (fun _ => none) (program [Run.onceSect])) c ∧
    (c.mem (.of 1 .worker) : WorkerData).hand = .got (.config Run.onceSect.cfg) ∧
    Attempts Run.onceEnv [Run.onceSect] ∧ Mpi.Past Run.onceEnv [Run.onceSect] (fun _ => none) := by
  obtain ⟨c, _, h1, _, h2, _⟩ := worker_receives
  exact ⟨c, h1, h2, Run.once_input.attempts, .start _ (by intro s hs d hd; cases hd)⟩

end MpiLocks
end Hycu
