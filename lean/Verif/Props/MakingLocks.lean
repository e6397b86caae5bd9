import Verif.Lemmas.MakingLocks
import Verif.Props.Making
import Verif.Props.AttemptsLocks

/-!
C84 for the machines with small steps.
-/

namespace Hycu

open Run (program)

namespace Locks

variable {tab : ConfigNode → Res Unit} {env : Run.Env} {kinds : List Bool} {fs : FileSystem} {ss : List Run.Sect}
  {c : Config Agent Lock Var Val}

/-- C84 for hycu-threaded in small steps: if all tables can be made, the runs are the same as without this step. -/
theorem C84_same (ht : ∀ s ∈ ss, tab s.cfg = .ok ()) :
    Reachable (makings tab kinds env) (initial kinds fs (program ss)) c ↔
      Reachable (runs kinds env) (initial kinds fs (program ss)) c := by
  refine ⟨Reachable.of_first, fun h => ?_⟩
  induction h with
  | refl => exact .refl
  | @step c c' a h hs ih =>
    refine .step a ih (hs.to_first fun k reg ch hp => ?_)
    obtain ⟨hi, st, hm⟩ := refines h
    have h1 : (runs kinds env).Same a reg (abs (runs kinds env) c) := fun x hx => by
      rw [hi.same a k reg hp x hx, abs_private hx]
    rw [makes_main a ch _ _ h1, makes_toState hm]
    refine Run.makes_ok (fun cfg hc => ?_) _
    obtain ⟨s, hs, rfl⟩ := config_of_mem_program (hm.1.todo_mem hc)
    exact ht s hs
  | scribble _ hs ih => exact .scribble ih hs.to_first

/-- C84: a thread only gets blocks of configurations whose tables have been made; the block that it computes or reports,
and the blocks in its queue, unless some thread is just working on the queue. -/
theorem C84_made (h : Reachable (makings tab kinds env) (initial kinds fs (program ss)) c) {i : Nat} (hi : i < kinds.length) :
    (∀ j, c.mem (.phase i) = Run.Phase.compute j ∨ c.mem (.phase i) = Run.Phase.report j → j.Made tab) ∧
    (c.owner (.data i) = none → ∀ j ∈ (c.mem (.queue i) : List Run.Job), j.Made tab) := by
  obtain ⟨-, st, h1, -, h2, h3, -⟩ := making_refines h
  have key := Run.C84_made h1 (i := i) (h3 ▸ hi)
  have hph : (st.thr i).phase = c.mem (.phase i) := by
    have e : abs (makings tab kinds env) c (.phase i) = c.mem (.phase i) :=
      abs_private (S := makings tab kinds env) (a := .thread i) rfl
    rw [← e, ← h2]
    rfl
  refine ⟨fun j hj => key j (List.mem_append_right _ ?_), fun ho j hj => key j (List.mem_append_left _ ?_)⟩
  · rw [hph]
    rcases hj with hj | hj <;> rw [hj] <;> exact List.mem_singleton_self j
  · have e : abs (makings tab kinds env) c (.queue i) = c.mem (.queue i) :=
      abs_free (S := makings tab kinds env) (l := .data i) rfl ho
    rw [← e, ← h2] at hj
    exact hj

/-- C84: when all calls have been made, all tables have been made. -/
theorem C84_complete (hk : kinds ≠ []) (h : Reachable (makings tab kinds env) (initial kinds fs (program ss)) c)
    (ht : (c.mem .main : MainData).todo = []) : ∀ s ∈ ss, tab s.cfg = .ok () := by
  obtain ⟨-, st, h1, -, h2, -⟩ := making_refines h
  have e : abs (makings tab kinds env) c .main = c.mem .main := abs_private (S := makings tab kinds env) (a := .main) rfl
  rw [← e, ← h2] at ht
  exact Run.C84_complete hk h1 ht

/-- C84: what can fail: the main thread when it makes the tables of a configuration, or a thread when it computes a block
with tables that have been made. -/
theorem C84_fails {w : Flint} (ha : Attempts w.env ss) (hp : Mpi.Past w.env ss fs) (hk : kinds.length < 4294967296)
    (h : Reachable (makings w.makeTables kinds w.env) (initial kinds fs (program ss)) c)
    (hf : Fails (makings w.makeTables kinds w.env) c) :
    (∃ cfg rest, (c.mem .main : MainData).pc = .update ∧ (c.mem .main : MainData).todo = .config cfg :: rest ∧
      kinds ≠ [] ∧ w.makeTables cfg ≠ .ok ()) ∨
    ∃ i j tb t rts, i < kinds.length ∧ c.mem (.phase i) = Run.Phase.compute j ∧ j.tables = some tb ∧
      w.fqTable tb.cfg.prime tb.cfg.primeExponent = .ok t ∧ w.reductionTables tb.cfg = .ok rts ∧
      ∀ m, Compute.block (w.poly tb.cfg.prime tb.cfg.primeExponent) t rts j.block ≠ .ok m := by
  obtain ⟨rank, top, hl⟩ := making_laws w.makeTables kinds w.env
  obtain ⟨hinv, st, hm⟩ := making_refines h
  obtain ⟨a, ch, _, hn⟩ := hinv.fails hl hf
  have hfail : ∀ o, Run.makingStep w.makeTables w.env st (label ch a) ≠ .ok o := by
    intro o ho
    obtain ⟨_, h1, ho⟩ := Res.bind_eq_ok.1 ho
    have he := eqv_step w.env st [] (label ch a)
    rw [ho, ← hm.2.toState] at he
    obtain ⟨o', ho'⟩ : ∃ o', Run.step w.env (toState kinds.length (fun i => kinds[i]?.getD false)
        (abs (makings w.makeTables kinds w.env) c)) (label ch a) = .ok o' := by
      generalize Run.step w.env (toState kinds.length (fun i => kinds[i]?.getD false)
        (abs (makings w.makeTables kinds w.env) c)) (label ch a) = r at he
      cases he with
      | none => exact ⟨_, rfl⟩
      | some u => exact ⟨_, rfl⟩
    refine hn (o'.map ofState) (first_ok.2 ⟨(makes_toState hm.2 _).trans h1, ?_⟩)
    show (Run.step w.env _ (label ch a)).bind _ = _
    rw [ho']
    rfl
  have e : abs (makings w.makeTables kinds w.env) c .main = c.mem .main :=
    abs_private (S := makings w.makeTables kinds w.env) (a := .main) rfl
  rcases Run.C84_fails ha hp hk hm.1 (label ch a) hfail with
    ⟨_, cfg, rest, _, h1, h2, h3, h4⟩ | ⟨i, j, tb, t, rts, _, h1, h2, h3⟩
  · left
    refine ⟨cfg, rest, ?_, ?_, ?_, h4⟩
    · rw [← e, ← hm.2.2.1]
      exact h1
    · rw [← e, ← hm.2.2.1]
      exact h2
    · rintro rfl
      exact h3 hm.2.2.2.1
  · right
    refine ⟨i, j, tb, t, rts, hm.2.2.2.1 ▸ h1, ?_, h3⟩
    have e : abs (makings w.makeTables kinds w.env) c (.phase i) = c.mem (.phase i) :=
      abs_private (S := makings w.makeTables kinds w.env) (a := .thread i) rfl
    rw [← e, ← hm.2.2.1]
    exact h2

/-- C84: if the tables cannot be made, the main thread fails where it makes them, and does not get beyond this. -/
theorem C84_stops {cfg : ConfigNode} {rest : List Run.Cmd} {k : Nat} {reg : Mem} (hk : kinds ≠ [])
    (h : Reachable (makings tab kinds env) (initial kinds fs (program ss)) c) (hp : c.prog .main = .entering k reg)
    (hpc : (c.mem .main : MainData).pc = .update) (ht : (c.mem .main : MainData).todo = .config cfg :: rest)
    (hn : tab cfg ≠ .ok ()) :
    Fails (makings tab kinds env) c ∧ ∀ c', ¬ Step (makings tab kinds env) .main c c' := by
  obtain ⟨hi, -⟩ := making_refines h
  have e : reg .main = c.mem .main := hi.same _ _ _ hp .main rfl
  have hplan : (makings tab kinds env).plan .main reg = [] := by
    show mainPlan kinds.length (reg .main) (reg .idle) = []
    unfold mainPlan
    rw [e, hpc]
  have hk0 : k = 0 := by
    have := hi.le _ _ _ hp
    rw [hplan] at this
    exact Nat.le_zero.1 this
  have hmakes : ∀ ch, Run.makes tab (toState kinds.length (fun i => kinds[i]?.getD false) reg) (label ch .main) ≠ .ok () := by
    intro ch h
    have h1 : (toState kinds.length (fun i => kinds[i]?.getD false) reg).pc = .update := by
      show (reg .main : MainData).pc = _
      rw [e, hpc]
    have h2 : (toState kinds.length (fun i => kinds[i]?.getD false) reg).todo = .config cfg :: rest := by
      show (reg .main : MainData).todo = _
      rw [e, ht]
    simp only [label, Run.makes, h1, h2, makeAll] at h
    rw [if_neg (by simpa [toState] using hk)] at h
    exact hn h
  constructor
  · exact ⟨.main, k, reg, ⟨true, true, 0⟩, hp, by rw [hplan, hk0]; rfl, fun o ho => hmakes _ (first_ok.1 ho).1⟩
  · intro c' hs
    cases hs with
    | enter _ h _ _ => rw [hp] at h; cases h
    | acquire _ _ _ h hi _ => rw [hp] at h; cases h; rw [hplan] at hi; cases hi
    | read _ _ _ h hi => rw [hp] at h; cases h; rw [hplan] at hi; cases hi
    | compute _ _ _ ch h _ hs => rw [hp] at h; cases h; exact hmakes ch (first_ok.1 hs).1
    | write _ _ _ _ h _ => rw [hp] at h; cases h
    | release _ _ _ h => rw [hp] at h; cases h
    | exit _ h => rw [hp] at h; cases h
    | sync _ _ h _ => rw [hp] at h; cases h

/-- C84: when the main thread is about to make the tables of a configuration, all blocks of the sections before it have
been computed and saved. -/
theorem C84_before (ha : Attempts env ss) (hp : Mpi.Past env ss fs) (hk : kinds.length < 4294967296)
    (h : Reachable (makings tab kinds env) (initial kinds fs (program ss)) c)
    (hpc : (c.mem .main : MainData).pc = .update) {cfg : ConfigNode} {rest : List Run.Cmd}
    (ht : (c.mem .main : MainData).todo = .config cfg :: rest) :
    ∃ pre s post, ss = pre ++ s :: post ∧ s.cfg = cfg ∧ ∀ s' ∈ pre, Saved env (c.mem .main : MainData).fs s' := by
  obtain ⟨-, st, h1, -, h2, -⟩ := making_refines h
  have e : abs (makings tab kinds env) c .main = c.mem .main := abs_private (S := makings tab kinds env) (a := .main) rfl
  rw [← e, ← h2] at hpc ht ⊢
  exact Run.C84_before ha hp hk h1 hpc ht

end Locks

namespace MpiLocks

open Locks (Config Reachable Fails Step abs abs_private abs_free first_ok)

variable {tab : ConfigNode → Res Unit} {env : Run.Env} {kinds : List (List Bool)} {fs : FileSystem} {ss : List Run.Sect}
  {c : Config Agent Lock Var Val}

theorem makes_flat_ok {st : State} (hc : Clean st) {l : Mpi.Label} (h : ∀ l, Mpi.makes tab (flat st) l = .ok ()) :
    makes tab st l = .ok () := by
  cases l with
  | master ch => exact h (.master ch)
  | worker ix =>
    by_cases hx : 0 < ix ∧ ix < st.base.nprocs
    · have hx' : 0 < ix ∧ ix < (flat st).nprocs := hx
      have h1 := h (.worker ix)
      simp only [Mpi.makes, if_pos hx'] at h1
      simp only [makes, if_pos hx]
      split
      · next cfg hh =>
        have hp := hc.probe ix (by rw [hh]; simp)
        have e : (flat st).procs ix = { st.base.procs ix with inbox := .config cfg :: (st.base.procs ix).inbox } := by
          show flatProc (st.base.procs ix) (st.hand ix) = _
          rw [hh]
          simp [flatProc, Hand.msgs, Hand.finisheds, Hand.readys, Hand.saveds]
        simp only [e, hp] at h1
        exact h1
      · rfl
    · simp only [makes, if_neg hx]
  | thread ix i => rfl
  | spurious ix i => rfl

/-- C84 for hycu-mpi in small steps: if all tables can be made, the runs are the same as without this step. -/
theorem C84_same (ht : ∀ s ∈ ss, tab s.cfg = .ok ()) :
    Reachable (making tab kinds env) (initial kinds fs (program ss)) c ↔
      Reachable (system kinds env) (initial kinds fs (program ss)) c := by
  refine ⟨Reachable.of_first, fun h => ?_⟩
  induction h with
  | refl => exact .refl
  | @step c c' a h hs ih =>
    refine .step a ih (hs.to_first fun k reg ch hp => ?_)
    obtain ⟨hi, st, hm⟩ := refines h
    have h1 : (system kinds env).Same a reg (abs (system kinds env) c) := fun x hx => by
      rw [hi.same a k reg hp x hx, abs_private hx]
    rw [makes_private tab a ch _ _ h1, hm.toState]
    obtain ⟨hc, hr⟩ := flat_reach hm.1
    refine makes_flat_ok hc (Mpi.makes_ok (Mpi.known_initial.reachable hr) fun cfg hc => ?_)
    obtain ⟨s, hs, rfl⟩ := config_of_mem_program hc
    exact ht s hs
  | scribble _ hs ih => exact .scribble ih hs.to_first

/-- C84: a thread of any process only gets blocks of configurations whose tables have been made. -/
theorem C84_made (h : Reachable (making tab kinds env) (initial kinds fs (program ss)) c) {ix i : Nat} (hi : i < size kinds ix) :
    (∀ j, c.mem (.of ix (.phase i)) = Run.Phase.compute j ∨ c.mem (.of ix (.phase i)) = Run.Phase.report j → j.Made tab) ∧
    (c.owner (.data ix i) = none → ∀ j ∈ (c.mem (.of ix (.queue i)) : List Run.Job), j.Made tab) := by
  obtain ⟨-, st, h1, hm⟩ := making_refines h
  have hsize : ((flat st).procs ix).size = size kinds ix := ((fixed_reach hm.1).2 ix).1
  have key := Mpi.C84_made h1 (ix := ix) (i := i) (hsize ▸ hi)
  have h2 := hm.2
  have hph : (((flat st).procs ix).thr i).phase = c.mem (.of ix (.phase i)) := by
    have e : abs (making tab kinds env) c (.of ix (.phase i)) = c.mem (.of ix (.phase i)) :=
      abs_private (S := making tab kinds env) (a := .thread ix i) rfl
    rw [← e, ← h2]
    rfl
  refine ⟨fun j hj => key j (List.mem_append_right _ ?_), fun ho j hj => key j (List.mem_append_left _ ?_)⟩
  · rw [hph]
    rcases hj with hj | hj <;> rw [hj] <;> exact List.mem_singleton_self j
  · have e : abs (making tab kinds env) c (.of ix (.queue i)) = c.mem (.of ix (.queue i)) :=
      abs_free (S := making tab kinds env) (l := .data ix i) rfl ho
    rw [← e, ← h2] at hj
    exact hj

/-- C84: when all calls have been made and process 0 has a thread, all tables have been made. -/
theorem C84_complete {k : List Bool} {ks : List (List Bool)} (hk : k ≠ [])
    (h : Reachable (making tab (k :: ks) env) (initial (k :: ks) fs (program ss)) c)
    (ht : (c.mem .master : MasterData).todo = []) : ∀ s ∈ ss, tab s.cfg = .ok () := by
  obtain ⟨-, st, h1, -, h2⟩ := making_refines h
  have e : abs (making tab (k :: ks) env) c .master = c.mem .master :=
    abs_private (S := making tab (k :: ks) env) (a := .main 0) rfl
  rw [← e, ← h2] at ht
  exact Mpi.C84_complete hk h1 ht

/-- C84: what can fail: the main thread of a process that has threads, when it makes the tables of a configuration, or a
thread when it computes a block with tables that have been made. -/
theorem C84_fails {w : Flint} (ha : Attempts w.env ss) (hp : Mpi.Past w.env ss fs) (h0 : kinds ≠ [])
    (hk : ∀ k ∈ kinds, k.length < 4294967296)
    (h : Reachable (making w.makeTables kinds w.env) (initial kinds fs (program ss)) c)
    (hf : Fails (making w.makeTables kinds w.env) c) :
    (∃ cfg rest, (c.mem .master : MasterData).pc = .update ∧ (c.mem .master : MasterData).todo = .config cfg :: rest ∧
      size kinds 0 ≠ 0 ∧ w.makeTables cfg ≠ .ok ()) ∨
    (∃ ix cfg, 0 < ix ∧ ix < kinds.length ∧ (c.mem (.of ix .worker) : WorkerData).hand = .got (.config cfg) ∧
      size kinds ix ≠ 0 ∧ w.makeTables cfg ≠ .ok ()) ∨
    ∃ ix i j tb t rts, ix < kinds.length ∧ i < size kinds ix ∧ c.mem (.of ix (.phase i)) = Run.Phase.compute j ∧
      j.tables = some tb ∧ w.fqTable tb.cfg.prime tb.cfg.primeExponent = .ok t ∧ w.reductionTables tb.cfg = .ok rts ∧
      ∀ m, Compute.block (w.poly tb.cfg.prime tb.cfg.primeExponent) t rts j.block ≠ .ok m := by
  obtain ⟨rank, top, hl⟩ := making_laws w.makeTables kinds w.env
  obtain ⟨hinv, st, hr, hm⟩ := making_refines h
  obtain ⟨a, ch, _, hn⟩ := hinv.fails hl hf
  obtain ⟨hc, hr'⟩ := flat_reach hm.1
  have hfix := fixed_reach hm.1
  have emaster : abs (making w.makeTables kinds w.env) c .master = c.mem .master :=
    abs_private (S := making w.makeTables kinds w.env) (a := .main 0) rfl
  have eworker : ∀ ix, abs (making w.makeTables kinds w.env) c (.of ix .worker) = c.mem (.of ix .worker) := fun ix =>
    abs_private (S := making w.makeTables kinds w.env) (a := .main ix) rfl
  have ephase : ∀ ix i, abs (making w.makeTables kinds w.env) c (.of ix (.phase i)) = c.mem (.of ix (.phase i)) :=
    fun ix i => abs_private (S := making w.makeTables kinds w.env) (a := .thread ix i) rfl
  by_cases hmk : makes w.makeTables st (label ch a) = .ok ()
  · right; right
    have hfail : ∀ o, Mpi.step w.env (flat st) (label ch a) ≠ .ok o := by
      intro o ho
      have hok : ∃ o', step w.env st (label ch a) = .ok o' := by
        have hs := step_flat w.env hc (label ch a)
        generalize step w.env st (label ch a) = r at hs
        cases hs with
        | stutter st' _ _ => exact ⟨_, rfl⟩
        | move _ hr =>
          rw [ho] at hr
          cases r with
          | ok o' => exact ⟨o', rfl⟩
          | _ => cases hr
      obtain ⟨o', ho'⟩ := hok
      refine hn (o'.map ofState) (first_ok.2 ⟨by rw [hm.toState]; exact hmk, ?_⟩)
      show (step w.env (toState kinds (abs (making w.makeTables kinds w.env) c)) (label ch a)).bind _ = _
      rw [hm.toState, ho']
      rfl
    obtain ⟨ix, i, r, _, hx, hi, ⟨j, tb, h1, h2, h3⟩, h4⟩ := Mpi.C83_fails ha hp h0 hk hr' (label ch a) hfail
    have hj : j ∈ (((flat st).procs ix).thr i).given := List.mem_append_right _ (by rw [h1]; exact List.mem_singleton_self j)
    obtain ⟨t, rts, h5, h6, h7⟩ := Flint.compute_made (Mpi.C84_made hr hi j hj tb h2)
    have hx' : ix < st.base.nprocs := hx
    have hi' : i < (st.base.procs ix).size := hi
    refine ⟨ix, i, j, tb, t, rts, hfix.1 ▸ hx', (hfix.2 ix).1 ▸ hi', ?_, h2, h5, h6, fun m hm => h4 m (h3 ▸ (h7 _).trans hm)⟩
    rw [← ephase, ← hm.2]
    exact h1
  · generalize label ch a = l at hmk
    cases l with
    | master ch =>
      left
      simp only [makes] at hmk
      split at hmk
      · rename_i cfg rest h1 h2
        unfold makeAll at hmk
        split at hmk
        · exact absurd rfl hmk
        · rename_i h3
          refine ⟨cfg, rest, ?_, ?_, (hfix.2 0).1 ▸ h3, hmk⟩
          · rw [← emaster, ← hm.2]
            exact h1
          · rw [← emaster, ← hm.2]
            exact h2
      · exact absurd rfl hmk
    | worker ix =>
      right; left
      simp only [makes] at hmk
      split at hmk
      · rename_i hx
        split at hmk
        · rename_i cfg h1
          unfold makeAll at hmk
          split at hmk
          · exact absurd rfl hmk
          · rename_i h3
            refine ⟨ix, cfg, hx.1, hfix.1 ▸ hx.2, ?_, (hfix.2 ix).1 ▸ h3, hmk⟩
            rw [← eworker, ← hm.2]
            exact h1
        · exact absurd rfl hmk
      · exact absurd rfl hmk
    | _ => exact absurd rfl hmk

/-- C84: when the master is about to make the tables of a configuration, all blocks of the sections before it have been
computed and saved. -/
theorem C84_before (ha : Attempts env ss) (hp : Mpi.Past env ss fs) (h0 : kinds ≠ [])
    (hk : ∀ k ∈ kinds, k.length < 4294967296)
    (h : Reachable (making tab kinds env) (initial kinds fs (program ss)) c)
    (hpc : (c.mem .master : MasterData).pc = .update) {cfg : ConfigNode} {rest : List Run.Cmd}
    (ht : (c.mem .master : MasterData).todo = .config cfg :: rest) :
    ∃ pre s post, ss = pre ++ s :: post ∧ s.cfg = cfg ∧ ∀ s' ∈ pre, Saved env (c.mem .master : MasterData).fs s' := by
  obtain ⟨-, st, h1, -, h2⟩ := making_refines h
  have e : abs (making tab kinds env) c .master = c.mem .master := abs_private (S := making tab kinds env) (a := .main 0) rfl
  rw [← e, ← h2] at hpc ht ⊢
  exact Mpi.C84_before ha hp h0 hk h1 hpc ht

/-- C84: if the tables cannot be made, the master fails where it makes them, and does not get beyond this. -/
theorem C84_stops {cfg : ConfigNode} {rest : List Run.Cmd} {k : Nat} {reg : Mem} (hk : size kinds 0 ≠ 0)
    (h : Reachable (making tab kinds env) (initial kinds fs (program ss)) c) (hp : c.prog (.main 0) = .entering k reg)
    (hpc : (c.mem .master : MasterData).pc = .update) (ht : (c.mem .master : MasterData).todo = .config cfg :: rest)
    (hn : tab cfg ≠ .ok ()) :
    Fails (making tab kinds env) c ∧ ∀ c', ¬ Step (making tab kinds env) (.main 0) c c' := by
  obtain ⟨hi, -⟩ := making_refines h
  have e : reg .master = c.mem .master := hi.same _ _ _ hp .master rfl
  have hplan : (making tab kinds env).plan (.main 0) reg = [] := by
    show masterPlan kinds.length (size kinds 0) (reg .master) (reg (.of 0 .idle)) = []
    unfold masterPlan
    rw [e, hpc]
  have hk0 : k = 0 := by
    have := hi.le _ _ _ hp
    rw [hplan] at this
    exact Nat.le_zero.1 this
  have hmakes : ∀ ch, makes tab (toState kinds reg) (label ch (.main 0)) ≠ .ok () := by
    intro ch h
    have h1 : (toState kinds reg).base.pc = .update := by
      show (reg .master : MasterData).pc = _
      rw [e, hpc]
    have h2 : (toState kinds reg).base.todo = .config cfg :: rest := by
      show (reg .master : MasterData).todo = _
      rw [e, ht]
    simp only [label, makes, h1, h2, makeAll] at h
    rw [if_neg (show ((toState kinds reg).base.procs 0).size ≠ 0 from hk)] at h
    exact hn h
  constructor
  · exact ⟨.main 0, k, reg, ⟨true, true, 0⟩, hp, by rw [hplan, hk0]; rfl, fun o ho => hmakes _ (first_ok.1 ho).1⟩
  · intro c' hs
    cases hs with
    | enter _ h _ _ => rw [hp] at h; cases h
    | acquire _ _ _ h hi _ => rw [hp] at h; cases h; rw [hplan] at hi; cases hi
    | read _ _ _ h hi => rw [hp] at h; cases h; rw [hplan] at hi; cases hi
    | compute _ _ _ ch h _ hs => rw [hp] at h; cases h; exact hmakes ch (first_ok.1 hs).1
    | write _ _ _ _ h _ => rw [hp] at h; cases h
    | release _ _ _ h => rw [hp] at h; cases h
    | exit _ h => rw [hp] at h; cases h
    | sync _ _ h _ => rw [hp] at h; cases h

/-- C84: so does the main thread of a worker that has received the configuration. -/
theorem C84_worker_stops {cfg : ConfigNode} {ix k : Nat} {reg : Mem} (h0 : 0 < ix) (hx : ix < kinds.length)
    (hk : size kinds ix ≠ 0) (h : Reachable (making tab kinds env) (initial kinds fs (program ss)) c)
    (hp : c.prog (.main ix) = .entering k reg) (hh : (c.mem (.of ix .worker) : WorkerData).hand = .got (.config cfg))
    (hn : tab cfg ≠ .ok ()) :
    Fails (making tab kinds env) c ∧ ∀ c', ¬ Step (making tab kinds env) (.main ix) c c' := by
  obtain ⟨ix, rfl⟩ : ∃ n, ix = n + 1 := ⟨ix - 1, by omega⟩
  obtain ⟨hi, -⟩ := making_refines h
  have e : reg (.of (ix + 1) .worker) = c.mem (.of (ix + 1) .worker) := hi.same _ _ _ hp (.of (ix + 1) .worker) rfl
  have hplan : (making tab kinds env).plan (.main (ix + 1)) reg = [] := by
    show workerPlan (ix + 1) (size kinds (ix + 1)) (reg (.of (ix + 1) .worker)) (reg (.of (ix + 1) .idle)) = []
    unfold workerPlan
    rw [e, hh]
  have hk0 : k = 0 := by
    have := hi.le _ _ _ hp
    rw [hplan] at this
    exact Nat.le_zero.1 this
  have hmakes : ∀ ch, makes tab (toState kinds reg) (label ch (.main (ix + 1))) ≠ .ok () := by
    intro ch h
    have h1 : (toState kinds reg).hand (ix + 1) = .got (.config cfg) := by
      show (reg (.of (ix + 1) .worker) : WorkerData).hand = _
      rw [e, hh]
    have hx' : 0 < ix + 1 ∧ ix + 1 < (toState kinds reg).base.nprocs := ⟨h0, hx⟩
    simp only [label, makes, if_pos hx', h1, makeAll] at h
    rw [if_neg (show ((toState kinds reg).base.procs (ix + 1)).size ≠ 0 from hk)] at h
    exact hn h
  constructor
  · exact ⟨.main (ix + 1), k, reg, ⟨true, true, 0⟩, hp, by rw [hplan, hk0]; rfl, fun o ho => hmakes _ (first_ok.1 ho).1⟩
  · intro c' hs
    cases hs with
    | enter _ h _ _ => rw [hp] at h; cases h
    | acquire _ _ _ h hi _ => rw [hp] at h; cases h; rw [hplan] at hi; cases hi
    | read _ _ _ h hi => rw [hp] at h; cases h; rw [hplan] at hi; cases hi
    | compute _ _ _ ch h _ hs => rw [hp] at h; cases h; exact hmakes ch (first_ok.1 hs).1
    | write _ _ _ _ h _ => rw [hp] at h; cases h
    | release _ _ _ h => rw [hp] at h; cases h
    | exit _ h => rw [hp] at h; cases h
    | sync _ _ h _ => rw [hp] at h; cases h

end MpiLocks

/-! ### Non-trivial instances -/

/-- A thread does not rest. -/
local macro "goes_on" : tactic => `(tactic| first | exact fun h => h | exact fun h => h ⟨_, _, rfl⟩ |
  exact fun h => h.elim (fun h => h (by decide)) fun h => h)

/-- No worker holds a mutex between two sections. -/
local macro "no_lock" : tactic => `(tactic| (intro ix; rcases ix with _ | _ | ix <;> rfl))

namespace Locks

section

variable {A L X C : Type} {V : X → Type} [DecidableEq A] [DecidableEq L] [DecidableEq X] {S : System A L X C V}
  {rank : L → Nat} {top : Nat}

/-- A state that can be reached in which all agents are between two sections. -/
def At (S : System A L X C V) (c₀ : Config A L X V) (m : (x : X) → V x) : Prop :=
  ∃ c, Reachable S c₀ c ∧ (∀ a, c.prog a = .out) ∧ c.mem = m

theorem At.section (hl : Laws S rank top) {c₀ : Config A L X V} (hi : Inv S c₀) {m s : (x : X) → V x} (h : At S c₀ m)
    (hh : ∀ a, S.held a m = []) (a : A) (ch : C) (hr : ¬ S.rest a m) (hs : S.act a ch m = .ok (some s)) : At S c₀ s := by
  obtain ⟨c, h1, h2, rfl⟩ := h
  have hi' := hi.reachable hl h1
  obtain ⟨c', h3, h4, h5⟩ := whole hl (h2 a) hr (fun l _ => by
    cases ho : c.owner l with
    | none => rfl
    | some b =>
      have := (hi'.own b l).2 ho
      unfold holds at this
      rw [h2 b, hh b] at this
      cases this) hs
  exact ⟨c', h1.trans h3, fun b => by rw [h5]; exact h2 b, h4⟩

theorem At.enter {c₀ : Config A L X V} {m : (x : X) → V x} (h : At S c₀ m) {a : A} (hr : ¬ S.rest a m) :
    ∃ c, Reachable S c₀ c ∧ c.mem = m ∧ c.prog a = .entering 0 m := by
  obtain ⟨c, h1, h2, rfl⟩ := h
  exact ⟨_, .step a h1 (.enter c c.mem (h2 a) hr fun _ _ => rfl), rfl, Function.update_self ..⟩

end

/-- The tables of the only configuration cannot be made. -/
def noTab (_ : ConfigNode) : Res Unit := .abort

/-- Sections of the main thread. -/
theorem At.main {tab : ConfigNode → Res Unit} {env : Run.Env} {kinds : List Bool} {fs : FileSystem} {todo : List Run.Cmd}
    {st st' : Run.State} (h : At (makings tab kinds env) (initial kinds fs todo) (ofState st)) (hf : Fixed kinds st)
    (hp : ∀ i b, st.pc ≠ .notify i b) (hr : ¬ mainRests (ofState st .main)) (ch : Run.Choice)
    (hs : Run.makingStep tab env st (.master ch) = .ok (some st')) :
    At (makings tab kinds env) (initial kinds fs todo) (ofState st') ∧ Fixed kinds st' := by
  obtain ⟨rank, top, hl⟩ := making_laws tab kinds env
  have hi := (Inv.initial (makings tab kinds env) (initial kinds fs todo) (fun _ => rfl) (fun _ => rfl) (fun a => by
    cases a <;> rfl)).1
  obtain ⟨_, h1, h2⟩ := Res.bind_eq_ok.1 hs
  refine ⟨h.section hl hi (fun a => ?_) .main ch hr (first_ok.2 ⟨?_, hf.act (a := .main) h2⟩), (hf.step h2).1⟩
  · cases a with
    | main =>
      show (match st.pc with | .notify _ _ => [Lock.pool] | _ => []) = []
      split
      · next i b hpc => exact absurd hpc (hp i b)
      · rfl
    | thread i => rfl
  · rw [← h1]
    show Run.makes tab _ (.master ch) = Run.makes tab st (.master ch)
    simp only [Run.makes]
    have e : (toState kinds.length (fun i => kinds[i]?.getD false) (ofState st)).size = st.size := hf.1.symm
    rw [e]
    rfl

set_option maxRecDepth 20000 in
/-- Hypotheses of `Locks.C84_stops` and `Locks.C84_before`. -/
example : ∃ c reg, Reachable (makings noTab [false] Run.onceEnv)
      (initial [false] (fun _ => none) (program [Run.onceSect])) c ∧ c.prog .main = .entering 0 reg ∧
    (c.mem .main : MainData).pc = .update ∧ (∃ rest, (c.mem .main : MainData).todo = .config Run.onceSect.cfg :: rest) ∧
    noTab Run.onceSect.cfg ≠ .ok () ∧ Attempts Run.onceEnv [Run.onceSect] ∧
    Mpi.Past Run.onceEnv [Run.onceSect] (fun _ => none) := by
  have h0 : At (makings noTab [false] Run.onceEnv) (initial [false] (fun _ => none) (program [Run.onceSect]))
      (ofState (Run.initial [false] (fun _ => none) (program [Run.onceSect]))) := ⟨_, .refl, fun _ => rfl, rfl⟩
  obtain ⟨h1, f1⟩ := h0.main ⟨rfl, fun _ => rfl⟩ (by intro i b h; cases h) (by goes_on) ⟨true, true, 0⟩ rfl
  obtain ⟨h2, f2⟩ := h1.main f1 (by intro i b h; cases h) (by goes_on) ⟨true, true, 0⟩ rfl
  obtain ⟨h3, f3⟩ := h2.main f2 (by intro i b h; cases h) (by goes_on) ⟨true, true, 0⟩ rfl
  obtain ⟨h4, f4⟩ := h3.main f3 (by intro i b h; cases h) (by goes_on) ⟨true, true, 0⟩ rfl
  obtain ⟨c, r1, r2, r3⟩ := h4.enter (a := .main) (fun h => h ⟨_, _, rfl⟩)
  exact ⟨c, _, r1, r3, by rw [r2]; rfl, ⟨_, by rw [r2]; rfl⟩, by simp [noTab], Run.once_input.attempts,
    .start _ (by intro s hs d hd; cases hd)⟩

/-- Hypotheses of `Locks.C84_same`, `Locks.C84_made` and `Locks.C84_complete`: a run that ends. -/
example : (∀ s ∈ Mpi.demoSects, (fun _ => .ok ()) s.cfg = Res.ok ()) ∧
    ∃ c, Reachable (makings (fun _ => .ok ()) [true, false] Mpi.demoEnv)
      (initial [true, false] (fun _ => none) (program Mpi.demoSects)) c ∧ (c.mem .main : MainData).todo = [] := by
  refine ⟨fun _ _ => rfl, ?_⟩
  obtain ⟨st, h1, h2, h3⟩ := Run.C51_reachable (kinds := [true, false]) (fs := fun _ => none) Mpi.demo_input
    (.start _ fun s _ d hd => by cases hd) (fun s hs => by
      simp only [Mpi.demoSects, List.mem_cons, List.not_mem_nil, or_false] at hs
      rcases hs with rfl | rfl <;> constructor <;> decide) (by decide) (by decide)
  obtain ⟨c, h4, _, _, h5⟩ := C54_reaches h1 fun i b h => by rw [h2] at h; cases h
  exact ⟨c, (C84_same fun _ _ => rfl).2 h4, by rw [h5]; exact h3⟩

/-- Hypotheses of `Locks.C84_fails`: a field of `3^20` elements; there are no blocks. -/
example : ∃ (w : Flint) (cfg : ConfigNode), Attempts w.env [⟨cfg, []⟩] ∧ Mpi.Past w.env [⟨cfg, []⟩] (fun _ => none) ∧
    ∃ c, Reachable (makings w.makeTables [false] w.env) (initial [false] (fun _ => none) (program [⟨cfg, []⟩])) c ∧
      Fails (makings w.makeTables [false] w.env) c := by
  have : Fact (Nat.Prime 3) := ⟨by decide⟩
  obtain ⟨w, ⟨hw⟩⟩ : ∃ w, Nonempty (Presents w ⟨3, 1, 1, false, 20, ['d'], 1⟩) :=
    ⟨galoisFlint 3 fun _ => ⟨fun _ _ => 0, fun _ => true, fun _ => true, fun _ => [], fun _ => []⟩,
      ⟨galoisPresents 3 _ _ rfl (by decide) (by decide) (by decide)⟩⟩
  refine ⟨w, ⟨3, 1, 1, false, 20, ['d'], 1⟩, ⟨by simp, by simp, by simp, by simp, by simp, ?_, by simp⟩,
    .start _ (by intro s hs d hd; cases hd), ?_⟩
  · intro s hs k
    rw [List.mem_singleton.1 hs]
    simp [Hycu.total, Small]
  have h0 : At (makings w.makeTables [false] w.env) (initial [false] (fun _ => none) (program [⟨⟨3, 1, 1, false, 20, ['d'], 1⟩, []⟩]))
      (ofState (Run.initial [false] (fun _ => none) (program [⟨⟨3, 1, 1, false, 20, ['d'], 1⟩, []⟩]))) :=
    ⟨_, .refl, fun _ => rfl, rfl⟩
  obtain ⟨h1, f1⟩ := h0.main ⟨rfl, fun _ => rfl⟩ (by intro i b h; cases h) (by goes_on) ⟨true, true, 0⟩ rfl
  obtain ⟨h2, f2⟩ := h1.main f1 (by intro i b h; cases h) (by goes_on) ⟨true, true, 0⟩ rfl
  obtain ⟨h3, f3⟩ := h2.main f2 (by intro i b h; cases h) (by goes_on) ⟨true, true, 0⟩ rfl
  obtain ⟨h4, f4⟩ := h3.main f3 (by intro i b h; cases h) (by goes_on) ⟨true, true, 0⟩ rfl
  obtain ⟨c, r1, r2, r3⟩ := h4.enter (a := .main) (by goes_on)
  exact ⟨c, r1, (C84_stops (by simp) r1 r3 (by rw [r2]; rfl) (by rw [r2]; rfl) fun h => C84_no_tables hw (by decide) h).1⟩

end Locks

namespace MpiLocks

open Locks (Reachable At first_ok)

/-- Sections of the main threads of the processes. -/
theorem At.sect {tab : ConfigNode → Res Unit} {env : Run.Env} {kinds : List (List Bool)} {fs : FileSystem}
    {todo : List Run.Cmd} {st st' : State}
    (h : At (making tab kinds env) (initial kinds fs todo) (ofState st) ∧ Reach env (start kinds fs todo) st)
    (a : Agent) (hm : masterHeld (ofState st .master) = []) (hw : ∀ ix, workerHeld ix (ofState st (.of ix .worker)) = [])
    (hr : ¬ (making tab kinds env).rest a (ofState st)) (ch : Run.Choice) (ht : makes tab st (label ch a) = .ok ())
    (hs : step env st (label ch a) = .ok (some st')) :
    At (making tab kinds env) (initial kinds fs todo) (ofState st') ∧ Reach env (start kinds fs todo) st' := by
  obtain ⟨rank, top, hl⟩ := making_laws tab kinds env
  have hi := (making_refines (Reachable.refl (S := making tab kinds env) (c₀ := initial kinds fs todo))).1
  have e : toState kinds (ofState st) = st := toState_ofState (fixed_reach h.2)
  refine ⟨h.1.section hl hi (fun b => ?_) a ch hr (first_ok.2 ⟨by rw [e]; exact ht, ?_⟩), .step _ h.2 hs⟩
  · cases b with
    | main ix =>
      cases ix with
      | zero => exact hm
      | succ k =>
        show (if k + 1 < kinds.length then _ else _) = _
        split
        · exact hw _
        · rfl
    | thread ix i => rfl
  · show (step env (toState kinds (ofState st)) (label ch a)).bind _ = _
    rw [e, hs]
    rfl

set_option maxRecDepth 20000 in
/-- Hypotheses of `MpiLocks.C84_stops` and `MpiLocks.C84_before`. -/
example : ∃ c reg, Reachable (making Locks.noTab [[false]] Run.onceEnv)
      (initial [[false]] (fun _ => none) (program [Run.onceSect])) c ∧ c.prog (.main 0) = .entering 0 reg ∧
    (c.mem .master : MasterData).pc = .update ∧
    (∃ rest, (c.mem .master : MasterData).todo = .config Run.onceSect.cfg :: rest) ∧
    Locks.noTab Run.onceSect.cfg ≠ .ok () ∧ size [[false]] 0 ≠ 0 ∧ Attempts Run.onceEnv [Run.onceSect] ∧
    Mpi.Past Run.onceEnv [Run.onceSect] (fun _ => none) := by
  have h0 : At (making Locks.noTab [[false]] Run.onceEnv) (initial [[false]] (fun _ => none) (program [Run.onceSect]))
      (ofState (start [[false]] (fun _ => none) (program [Run.onceSect]))) ∧
      Reach Run.onceEnv (start [[false]] (fun _ => none) (program [Run.onceSect])) _ :=
    ⟨⟨_, .refl, fun _ => rfl, rfl⟩, .refl⟩
  have h1 := At.sect h0 (.main 0) rfl (by no_lock) (by goes_on) ⟨true, true, 0⟩ rfl rfl
  have h2 := At.sect h1 (.main 0) rfl (by no_lock) (by goes_on) ⟨true, true, 0⟩ rfl rfl
  have h3 := At.sect h2 (.main 0) rfl (by no_lock) (by goes_on) ⟨true, true, 0⟩ rfl rfl
  have h4 := At.sect h3 (.main 0) rfl (by no_lock) (by goes_on) ⟨true, true, 0⟩ rfl rfl
  have h5 := At.sect h4 (.main 0) rfl (by no_lock) (by goes_on) ⟨true, true, 0⟩ rfl rfl
  have h6 := At.sect h5 (.main 0) rfl (by no_lock) (by goes_on) ⟨true, true, 0⟩ rfl rfl
  obtain ⟨c, r1, r2, r3⟩ := h6.1.enter (a := .main 0) (fun h => h ⟨_, _, rfl⟩)
  exact ⟨c, _, r1, r3, by rw [r2]; rfl, ⟨_, by rw [r2]; rfl⟩, by simp [Locks.noTab], by simp [size], Run.once_input.attempts,
    .start _ (by intro s hs d hd; cases hd)⟩

set_option maxRecDepth 20000 in
/-- Hypotheses of `MpiLocks.C84_worker_stops`; the master has no threads and makes no tables. -/
theorem worker_receives : ∃ c reg, Reachable (making Locks.noTab [[], [false]] Run.onceEnv)
      (initial [[], [false]] (fun _ => none) (program [Run.onceSect])) c ∧ c.prog (.main 1) = .entering 0 reg ∧
    (c.mem (.of 1 .worker) : WorkerData).hand = .got (.config Run.onceSect.cfg) ∧ size [[], [false]] 1 ≠ 0 ∧
    Locks.noTab Run.onceSect.cfg ≠ .ok () := by
  have h0 : At (making Locks.noTab [[], [false]] Run.onceEnv)
      (initial [[], [false]] (fun _ => none) (program [Run.onceSect]))
      (ofState (start [[], [false]] (fun _ => none) (program [Run.onceSect]))) ∧
      Reach Run.onceEnv (start [[], [false]] (fun _ => none) (program [Run.onceSect])) _ :=
    ⟨⟨_, .refl, fun _ => rfl, rfl⟩, .refl⟩
  have h1 := At.sect h0 (.main 0) rfl (by no_lock) (by goes_on) ⟨true, true, 0⟩ rfl rfl
  have h2 := At.sect h1 (.main 0) rfl (by no_lock) (by goes_on) ⟨true, true, 0⟩ rfl rfl
  have h3 := At.sect h2 (.main 0) rfl (by no_lock) (by goes_on) ⟨true, true, 0⟩ rfl rfl
  have h4 := At.sect h3 (.main 1) rfl (by no_lock) (by goes_on) ⟨true, true, 0⟩ rfl rfl
  have h5 := At.sect h4 (.main 1) rfl (by no_lock) (by goes_on) ⟨true, true, 0⟩ rfl rfl
  have h6 := At.sect h5 (.main 1) rfl (by no_lock) (by goes_on) ⟨true, true, 0⟩ rfl rfl
  have h7 := At.sect h6 (.main 0) rfl (by no_lock) (by goes_on) ⟨true, true, 0⟩ rfl rfl
  have h8 := At.sect h7 (.main 0) rfl (by no_lock) (by goes_on) ⟨true, true, 0⟩ rfl rfl
  have h9 := At.sect h8 (.main 0) rfl (by no_lock) (by goes_on) ⟨true, true, 0⟩ rfl rfl
  have h10 := At.sect h9 (.main 0) rfl (by no_lock) (by goes_on) ⟨true, true, 0⟩ rfl rfl
  have h11 := At.sect h10 (.main 0) rfl (by no_lock) (by goes_on) ⟨true, true, 0⟩ rfl rfl
  have h12 := At.sect h11 (.main 1) rfl (by no_lock) (by goes_on) ⟨true, true, 0⟩ rfl rfl
  have h13 := At.sect h12 (.main 1) rfl (by no_lock) (by goes_on) ⟨true, true, 0⟩ rfl rfl
  have h14 := At.sect h13 (.main 1) rfl (by no_lock) (by goes_on) ⟨true, true, 0⟩ rfl rfl
  have h15 := At.sect h14 (.main 0) rfl (by no_lock) (by goes_on) ⟨true, true, 0⟩ rfl rfl
  have h16 := At.sect h15 (.main 0) rfl (by no_lock) (by goes_on) ⟨true, true, 0⟩ rfl rfl
  have h17 := At.sect h16 (.main 0) rfl (by no_lock) (by goes_on) ⟨true, true, 0⟩ rfl rfl
  have h18 := At.sect h17 (.main 0) rfl (by no_lock) (by goes_on) ⟨true, true, 0⟩ rfl rfl
  have h19 := At.sect h18 (.main 0) rfl (by no_lock) (by goes_on) ⟨true, true, 0⟩ rfl rfl
  have h20 := At.sect h19 (.main 0) rfl (by no_lock) (by goes_on) ⟨true, true, 0⟩ rfl rfl
  have h21 := At.sect h20 (.main 1) rfl (by no_lock) (by goes_on) ⟨true, true, 0⟩ rfl rfl
  obtain ⟨c, r1, r2, r3⟩ := h21.1.enter (a := .main 1) (fun h => h.elim (fun h => h (by decide)) fun h => h)
  exact ⟨c, _, r1, r3, by rw [r2]; rfl, by simp [size], by simp [Locks.noTab]⟩

/-- Hypotheses of `MpiLocks.C84_same`, `MpiLocks.C84_made` and `MpiLocks.C84_complete`: a run that ends. -/
example : ∃ c, Reachable (making (fun _ => .ok ()) [[true, false], [], [false]] Mpi.demoEnv)
    (initial [[true, false], [], [false]] (fun _ => none) (program Mpi.demoSects)) c ∧
    (c.mem .master : MasterData).todo = [] := by
  obtain ⟨c, h1, _, _, _, h3, _⟩ := C59_ends (kinds := [[true, false], [], [false]]) (fs := fun _ => none) Mpi.demo_input
    (.start _ fun s _ d hd => by cases hd) (fun s hs => by
      simp only [Mpi.demoSects, List.mem_cons, List.not_mem_nil, or_false] at hs
      rcases hs with rfl | rfl <;> constructor <;> decide) (by decide) ⟨_, List.mem_cons_self, by decide⟩
  exact ⟨c, (C84_same fun _ _ => rfl).2 h1, h3⟩

end MpiLocks
end Hycu
