import Verif.Props.Attempts
import Verif.Props.Locks
import Verif.Props.MpiLocks

/-!
C83 for the machines with small steps.
-/

namespace Hycu

section

variable {env : Run.Env} {kinds : List Bool} {fs : FileSystem} {ss : List Run.Sect}
  {c : Locks.Config Locks.Agent Locks.Lock Locks.Var Locks.Val}

open Locks in
/-- C83 for the threads of hycu-threaded in small steps: if something fails, a thread computes a block whose computation
fails. -/
theorem Locks.C83_fails (ha : Attempts env ss) (hp : Mpi.Past env ss fs) (hk : kinds.length < 4294967296)
    (h : Reachable (runs kinds env) (initial kinds fs (Run.program ss)) c) (hf : Fails (runs kinds env) c) :
    ∃ i j tb, i < kinds.length ∧ c.mem (.phase i) = Run.Phase.compute j ∧ j.tables = some tb ∧
      ∀ m, env.compute tb.cfg j.block ≠ .ok m := by
  have hl := laws kinds.length (fun i => kinds[i]?.getD false) env
  obtain ⟨hinv, st, hm⟩ := refines h
  obtain ⟨a, ch, _, hn⟩ := hinv.fails hl hf
  obtain ⟨i, r, hi, hs, ⟨j, tb, h1, h2, h3⟩, h4⟩ := Run.C83_fails ha hp hk hm.1 (label ch a) (by
    intro o ho
    have he := eqv_step env st [] (label ch a)
    rw [ho, ← hm.toState] at he
    obtain ⟨o', ho'⟩ : ∃ o', Run.step env (toState kinds.length (fun i => kinds[i]?.getD false) (abs (runs kinds env) c))
        (label ch a) = .ok o' := by
      generalize Run.step env (toState kinds.length (fun i => kinds[i]?.getD false) (abs (runs kinds env) c)) (label ch a) = r at he
      cases he with
      | none => exact ⟨_, rfl⟩
      | some u => exact ⟨_, rfl⟩
    refine hn (o'.map ofState) ?_
    show (Run.step env (toState kinds.length (fun i => kinds[i]?.getD false) (abs (runs kinds env) c)) (label ch a)).bind _ = _
    rw [ho']
    rfl)
  refine ⟨i, j, tb, ?_, ?_, h2, fun m hm' => h4 m (h3.symm.trans hm')⟩
  · exact hm.2.2.1 ▸ hs
  · have e : abs (runs kinds env) c (.phase i) = c.mem (.phase i) := abs_private (S := runs kinds env) (a := .thread i) rfl
    rw [← e, ← hm.2.1]
    exact h1

open Locks in
/-- C83 for the threads of hycu-threaded in small steps: a run that comes to its end has computed all blocks. -/
theorem Locks.C83_complete (ha : Attempts env ss) (hp : Mpi.Past env ss fs) (hk : kinds.length < 4294967296)
    (h : Reachable (runs kinds env) (initial kinds fs (Run.program ss)) c) (hf : (c.mem .main : MainData).pc = .finished)
    (ht : (c.mem .main : MainData).todo = []) : ∀ s ∈ ss, (∀ b ∈ s.blocks, ∃ m, env.compute s.cfg b = .ok m) ∧
      ∃ d r m, (c.mem .main : MainData).fs s.cfg.resultPath = some d ∧
        Merger.merge d = .ok ⟨0, some (Store.print m, Record.print r)⟩ ∧
        Tally m (s.blocks.flatMap (succeeded env s.cfg)) ∧ ∀ b, b ≠ [] → (b ∈ r ↔ b ∈ s.blocks) := by
  obtain ⟨st, h1, -, h2⟩ := C54_atomic h
  have e := h2 .main fun l hl => by cases hl
  rw [e] at hf ht ⊢
  exact Run.C83_complete ha hp hk h1 hf ht

end

section

variable {env : Run.Env} {kinds : List (List Bool)} {fs : FileSystem} {ss : List Run.Sect}
  {c : Locks.Config MpiLocks.Agent MpiLocks.Lock MpiLocks.Var MpiLocks.Val}

open MpiLocks in
open Locks (Reachable Fails abs abs_private) in
/-- C83 for the threads of hycu-mpi in small steps: if something fails, a thread computes a block whose computation
fails. -/
theorem MpiLocks.C83_fails (ha : Attempts env ss) (hp : Mpi.Past env ss fs) (h0 : kinds ≠ [])
    (hk : ∀ k ∈ kinds, k.length < 4294967296) (h : Reachable (system kinds env) (initial kinds fs (Run.program ss)) c)
    (hf : Fails (system kinds env) c) :
    ∃ ix i j tb, c.mem (.of ix (.phase i)) = Run.Phase.compute j ∧ j.tables = some tb ∧
      ∀ m, env.compute tb.cfg j.block ≠ .ok m := by
  obtain ⟨hinv, st, hm⟩ := refines h
  obtain ⟨a, ch, _, hn⟩ := hinv.fails (laws kinds env) hf
  obtain ⟨hc, hr⟩ := flat_reach hm.1
  obtain ⟨ix, i, r, _, _, _, ⟨j, tb, h1, h2, h3⟩, h4⟩ := Mpi.C83_fails ha hp h0 hk hr (label ch a) (by
    intro o ho
    have hok : ∃ o', step env st (label ch a) = .ok o' := by
      have hs := step_flat env hc (label ch a)
      generalize step env st (label ch a) = r at hs
      cases hs with
      | stutter st' _ _ => exact ⟨_, rfl⟩
      | move _ hr =>
        rw [ho] at hr
        cases r with
        | ok o' => exact ⟨o', rfl⟩
        | _ => cases hr
    obtain ⟨o', ho'⟩ := hok
    refine hn (o'.map ofState) ?_
    show (step env (toState kinds (abs (system kinds env) c)) (label ch a)).bind _ = _
    rw [hm.toState, ho']
    rfl)
  refine ⟨ix, i, j, tb, ?_, h2, fun m hm' => h4 m (h3.symm.trans hm')⟩
  have e : abs (system kinds env) c (.of ix (.phase i)) = c.mem (.of ix (.phase i)) :=
    abs_private (S := system kinds env) (a := .thread ix i) rfl
  rw [← e, ← hm.2]
  exact h1

open MpiLocks in
open Locks (Reachable) in
/-- C83 for the threads of hycu-mpi in small steps: a run that comes to its end has computed all blocks. -/
theorem MpiLocks.C83_complete (ha : Attempts env ss) (hp : Mpi.Past env ss fs) (h0 : kinds ≠ [])
    (hk : ∀ k ∈ kinds, k.length < 4294967296) (h : Reachable (system kinds env) (initial kinds fs (Run.program ss)) c)
    (hf : (c.mem .master : MasterData).pc = .finished) (ht : (c.mem .master : MasterData).todo = []) :
    ∀ s ∈ ss, (∀ b ∈ s.blocks, ∃ m, env.compute s.cfg b = .ok m) ∧
      ∃ d r m, (c.mem .master : MasterData).fs s.cfg.resultPath = some d ∧
        Merger.merge d = .ok ⟨0, some (Store.print m, Record.print r)⟩ ∧
        Tally m (s.blocks.flatMap (succeeded env s.cfg)) ∧ ∀ b, b ≠ [] → (b ∈ r ↔ b ∈ s.blocks) := by
  obtain ⟨st, h1, h2, -⟩ := C59_atomic h
  have e := h1 .master fun l hl => by cases hl
  rw [e] at hf ht ⊢
  have hf' : (flat st).pc = .finished := hf
  have ht' : (flat st).todo = [] := ht
  have := Mpi.C83_complete ha hp h0 hk h2 hf' ht'
  exact this

end

/-! ### Non-trivial instances -/

open Locks in
/-- A thread that has a block that cannot be computed may come to the computation. -/
theorem Locks.can_fail {env : Run.Env} {kinds : List Bool} {fs : FileSystem} {todo : List Run.Cmd} {st : Run.State}
    (hr : Run.Reachable env (Run.initial kinds fs todo) st) (hp : ∀ i b, st.pc ≠ .notify i b) {i : Nat} {j : Run.Job}
    {tb : Run.Tables} (hi : i < kinds.length) (hph : (st.thr i).phase = .compute j) (ht : j.tables = some tb)
    (hc : ∀ m, env.compute tb.cfg j.block ≠ .ok m) :
    ∃ c, Reachable (runs kinds env) (initial kinds fs todo) c ∧ Fails (runs kinds env) c := by
  obtain ⟨c, h1, h2, h3, h4⟩ := C54_reaches hr hp
  have hph' : (c.mem (.phase i) : Run.Phase) = .compute j := by rw [h4]; exact hph
  have hplan : ∀ reg : Mem, reg (.phase i) = Run.Phase.compute j →
      (runs kinds env).plan (.thread i) reg = [.acquire .static, .read .record, .read .store] := by
    intro reg h
    show threadPlan i (reg (.phase i)) = _
    rw [h]
    rfl
  let c1 := c.go (.thread i) (.entering 0 c.mem)
  have s1 : Step (runs kinds env) (.thread i) c c1 := by
    refine .enter _ _ (h2 _) ?_ fun _ _ => rfl
    rintro (h | h | h)
    · exact h hi
    · rw [hph'] at h; cases h
    · rw [hph'] at h; cases h
  have p1 : c1.prog (.thread i) = .entering 0 c.mem := Function.update_self ..
  have s2 := Step.acquire (S := runs kinds env) c1 0 c.mem .static p1 (by rw [hplan _ hph']; rfl) (h3 _)
  obtain ⟨c2, e2, s2⟩ : ∃ c2 : Config Agent Lock Var Val, c2.prog (.thread i) = .entering 1 c.mem ∧
      Step (runs kinds env) (.thread i) c1 c2 := ⟨_, Function.update_self .., s2⟩
  have s3 := Step.read (S := runs kinds env) c2 1 c.mem .record e2 (by rw [hplan _ hph']; rfl)
  obtain ⟨c3, e3, s3⟩ : ∃ c3 : Config Agent Lock Var Val, c3.prog (.thread i) = .entering 2
      (Function.update c.mem .record (c2.mem .record)) ∧ Step (runs kinds env) (.thread i) c2 c3 :=
    ⟨_, Function.update_self .., s3⟩
  have q3 : (Function.update c.mem .record (c2.mem .record) : Mem) (.phase i) = Run.Phase.compute j := hph'
  have s4 := Step.read (S := runs kinds env) c3 2 _ .store e3 (by rw [hplan _ q3]; rfl)
  refine ⟨_, .step _ (.step _ (.step _ (.step _ h1 s1) s2) s3) s4, .thread i, 3, _, ⟨false, false, 0⟩,
    Function.update_self .., ?_, fun o ho => ?_⟩
  · rw [hplan _ (by exact hph')]; rfl
  · change (Run.step env (toState kinds.length (fun i => kinds[i]?.getD false) _) (.thread i)).bind _ = _ at ho
    cases hs : Run.step env (toState kinds.length (fun i => kinds[i]?.getD false)
        (Function.update (Function.update c.mem .record (c2.mem .record)) .store (c3.mem .store))) (.thread i) with
    | ok o' =>
      change (if i < kinds.length then _ else _) = _ at hs
      rw [if_pos hi] at hs
      unfold Run.threadStep at hs
      have q : ((toState kinds.length (fun i => kinds[i]?.getD false)
        (Function.update (Function.update c.mem .record (c2.mem .record)) .store (c3.mem .store))).thr i).phase = .compute j := hph'
      simp only [q, ht] at hs
      cases hcc : env.compute tb.cfg j.block with
      | ok m => exact hc m hcc
      | _ => rw [hcc] at hs; cases hs
    | _ => rw [hs] at ho; cases ho

/-- The computation of every block is undefined. -/
def noEnv : Run.Env := ⟨fun _ _ => .ub⟩

/-- A section with two blocks. -/
def noSect : Run.Sect := ⟨⟨7, 1, 2, false, 1, "out".toList, 100⟩, [[(0, 1)], [(1, 2)]]⟩

/-- Hypotheses of `Run.C83_fails` and `Locks.C83_fails`: the thread has the first block. -/
example : Attempts noEnv [noSect] ∧ Mpi.Past noEnv [noSect] (fun _ => none) ∧
    (∃ st, Run.Reachable noEnv (Run.initial [false] (fun _ => none) (Run.program [noSect])) st ∧
      Run.step noEnv st (.thread 0) = .ub) ∧
    ∃ c, Locks.Reachable (Locks.runs [false] noEnv) (Locks.initial [false] (fun _ => none) (Run.program [noSect])) c ∧
      Locks.Fails (Locks.runs [false] noEnv) c := by
  obtain ⟨st, h1, h2, h3, h4⟩ : ∃ st, Run.Reachable noEnv (Run.initial [false] (fun _ => none) (Run.program [noSect])) st ∧
      (st.thr 0).phase = .compute ⟨[(0, 1)], some ⟨noSect.cfg, 0⟩⟩ ∧ st.pc = .main ∧
      Run.step noEnv st (.thread 0) = .ub :=
    ⟨_, Run.exec_reachable (ls := Run.threadSteps 0 2 ++ Run.mainSteps 12 ++ Run.threadSteps 0 2) .refl rfl, rfl, rfl, rfl⟩
  refine ⟨attempts_of_fails fun _ _ h => ?_, .start _ (by intro s hs d hd; cases hd), ⟨st, h1, h4⟩,
    Locks.can_fail h1 (fun i b h => ?_) (by decide) h2 rfl fun m h => ?_⟩
  · cases h
  · rw [h3] at h; cases h
  · cases h

open MpiLocks in
open Locks (Config Reachable Fails Step) in
/-- A thread that has a block that cannot be computed may come to the computation. -/
theorem MpiLocks.can_fail {env : Run.Env} {kinds : List (List Bool)} {fs : FileSystem} {todo : List Run.Cmd}
    {st : Mpi.State} (hr : Mpi.Reachable env (Mpi.initial kinds fs todo) st) (hp : ∀ i k, st.pc ≠ .notify i k)
    (hw : ∀ ix i, 0 < ix → ix < kinds.length → (st.procs ix).pc ≠ .notify i) {ix i : Nat} {j : Run.Job}
    {tb : Run.Tables} (hx : ix < kinds.length) (hi : i < size kinds ix)
    (hph : ((st.procs ix).thr i).phase = .compute j) (ht : j.tables = some tb)
    (hc : ∀ m, env.compute tb.cfg j.block ≠ .ok m) :
    ∃ c, Reachable (system kinds env) (initial kinds fs todo) c ∧ Fails (system kinds env) c := by
  obtain ⟨c, h1, h2, h3, h4⟩ := C59_reaches hr hp hw
  have hph' : (c.mem (.of ix (.phase i)) : Run.Phase) = .compute j := by rw [h4]; exact hph
  have hplan : ∀ reg : Mem, reg (.of ix (.phase i)) = Run.Phase.compute j →
      (system kinds env).plan (.thread ix i) reg =
        [.acquire (.static ix), .read (.of ix .record), .read (.of ix .store)] := by
    intro reg h
    show threadPlan ix i (reg (.of ix (.phase i))) = _
    rw [h]
    rfl
  let c1 := c.go (.thread ix i) (.entering 0 c.mem)
  have s1 : Step (system kinds env) (.thread ix i) c c1 := by
    refine .enter _ _ (h2 _) ?_ fun _ _ => rfl
    rintro (h | h | h)
    · exact h ⟨hx, hi⟩
    · rw [hph'] at h; cases h
    · rw [hph'] at h; cases h
  have p1 : c1.prog (.thread ix i) = .entering 0 c.mem := Function.update_self ..
  have s2 := Step.acquire (S := system kinds env) c1 0 c.mem (.static ix) p1 (by rw [hplan _ hph']; rfl) (h3 _)
  obtain ⟨c2, e2, s2⟩ : ∃ c2 : Config Agent Lock Var Val, c2.prog (.thread ix i) = .entering 1 c.mem ∧
      Step (system kinds env) (.thread ix i) c1 c2 := ⟨_, Function.update_self .., s2⟩
  have s3 := Step.read (S := system kinds env) c2 1 c.mem (.of ix .record) e2 (by rw [hplan _ hph']; rfl)
  obtain ⟨r3, c3, e3, q3, s3⟩ : ∃ (r3 : Mem) (c3 : Config Agent Lock Var Val), c3.prog (.thread ix i) = .entering 2 r3 ∧
      r3 (.of ix (.phase i)) = Run.Phase.compute j ∧ Step (system kinds env) (.thread ix i) c2 c3 :=
    ⟨_, _, Function.update_self .., by rw [Function.update_of_ne (by simp)]; exact hph', s3⟩
  have s4 := Step.read (S := system kinds env) c3 2 _ (.of ix .store) e3 (by rw [hplan _ q3]; rfl)
  obtain ⟨r4, c4, e4, q4, s4⟩ : ∃ (r4 : Mem) (c4 : Config Agent Lock Var Val), c4.prog (.thread ix i) = .entering 3 r4 ∧
      r4 (.of ix (.phase i)) = Run.Phase.compute j ∧ Step (system kinds env) (.thread ix i) c3 c4 :=
    ⟨_, _, Function.update_self .., by rw [Function.update_of_ne (by simp)]; exact q3, s4⟩
  refine ⟨c4, .step _ (.step _ (.step _ (.step _ h1 s1) s2) s3) s4, .thread ix i, 3, r4, ⟨false, false, 0⟩, e4, ?_,
    fun o ho => ?_⟩
  · rw [hplan _ q4]; rfl
  · change (MpiLocks.step env (toState kinds r4) (.thread ix i)).bind _ = _ at ho
    have q : (((toState kinds r4).base.procs ix).thr i).phase = .compute j := q4
    have hb : ix < (toState kinds r4).base.nprocs ∧ i < ((toState kinds r4).base.procs ix).size := ⟨hx, hi⟩
    have hs : ∀ o, MpiLocks.step env (toState kinds r4) (.thread ix i) ≠ .ok o := by
      intro o hs
      simp only [MpiLocks.step, Mpi.step, if_pos hb, Mpi.Proc.threadStep, q, ht] at hs
      cases hcc : env.compute tb.cfg j.block with
      | ok m => exact hc m hcc
      | _ => rw [hcc] at hs; cases hs
    cases hs' : MpiLocks.step env (toState kinds r4) (.thread ix i) with
    | ok o' => exact hs _ hs'
    | _ => rw [hs'] at ho; cases ho

set_option maxRecDepth 20000 in
/-- Hypotheses of `MpiLocks.C83_fails`. -/
example : Attempts failEnv Mpi.demoSects ∧ Mpi.Past failEnv Mpi.demoSects (fun _ => none) ∧
    ∃ c, Locks.Reachable (MpiLocks.system [[false], [true, false]] failEnv)
      (MpiLocks.initial [[false], [true, false]] (fun _ => none) (Run.program Mpi.demoSects)) c ∧
      Locks.Fails (MpiLocks.system [[false], [true, false]] failEnv) c := by
  have hr : Mpi.Reachable failEnv Mpi.demoInit (failRun 130) := Mpi.attempts_reachable _ .refl
  refine ⟨fail_attempts, .start _ (by intro s hs d hd; cases hd), MpiLocks.can_fail (ix := 0) (i := 0)
    (tb := ⟨⟨11, 1, 1, false, 1, "b".toList, 100⟩, 1⟩) (j := ⟨[(10, 20)], some ⟨⟨11, 1, 1, false, 1, "b".toList, 100⟩, 1⟩⟩)
    hr ?_ ?_ (by decide) (by decide) rfl rfl fun m h => by cases h⟩
  · intro i k h
    cases h
  · intro ix i h0 hx h
    obtain rfl : ix = 1 := by simp only [List.length_cons, List.length_nil] at hx; omega
    cases h

end Hycu
