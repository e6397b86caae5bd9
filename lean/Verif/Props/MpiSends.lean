import Verif.Lemmas.MpiSends
import Verif.Props.MpiEnds

/-!
C61: runs with several processes end also if `send` waits until the message is received.
-/

namespace Hycu
namespace Mpi

open Run (Env Sect program Input Nonzero)

section

variable {env : Env} {kinds : List (List Bool)} {fs : FileSystem} {ss : List Sect} {st : State} {σ : Nat → State}
  {ls : Nat → Label} {result : ConfigNode → Block → StoreMap}

/-- C61: no two processes wait in `send` for each other.  A worker that has messages to receive has sent no reply that is
not received; and if a worker has sent such a reply, then the master has no message to it outstanding and is about to receive
this reply, so that no other worker has sent one. -/
theorem C61_acyclic (h0 : kinds ≠ []) (hk : ∀ k ∈ kinds, k.length < 4294967296) (hd : ∀ s ∈ ss, s.blocks.Nodup)
    (hr : Reachable env (initial kinds fs (program ss)) st) {ix : Nat} (hx : ix < kinds.length) :
    ((st.procs ix).inbox ≠ [] → ¬ Held st (.worker ix)) ∧
      (Held st (.worker ix) →
        ((∃ c bs, st.pc = .flushRecv ix c ∧ (st.procs ix).finishedOut = [bs]) ∨
          (∃ r, st.pc = .readyRecv ix ∧ (st.procs ix).readyOut = [r]) ∨
          ∃ k s, st.pc = .saveRecv ix k ∧ (st.procs ix).saveOut = [s]) ∧
        ∀ jx, jx < kinds.length → Held st (.worker jx) → jx = ix) := by
  have hi := (Inv.initial h0 hk fs (Run.distinct_program hd)).reachable hr
  have hn : st.nprocs = kinds.length := (Kinds.reachable hr).1
  have hone : ∀ {jx : Nat} {r : Req}, st.pc.expects jx = some r → (∃ c, st.pc = .flushRecv jx c ∧ r = .finished) ∨
      (st.pc = .readyRecv jx ∧ r = .ready) ∨ ∃ k, st.pc = .saveRecv jx k ∧ r = .save := by
    intro jx r h
    unfold Pc.expects at h
    split at h
    · rename_i c hpc
      split at h
      · rename_i e
        cases e
        cases h
        exact Or.inl ⟨c, hpc, rfl⟩
      · cases h
    · rename_i hpc
      split at h
      · rename_i e
        cases e
        cases h
        exact Or.inr (Or.inl ⟨hpc, rfl⟩)
      · cases h
    · rename_i k hpc
      split at h
      · rename_i e
        cases e
        cases h
        exact Or.inr (Or.inr ⟨k, hpc, rfl⟩)
      · cases h
    · cases h
  refine ⟨hi.silent (by rw [hn]; exact hx), fun hh => ⟨?_, fun jx hj hh' => ?_⟩⟩
  · obtain ⟨r, h1, h2⟩ := hi.waits (by rw [hn]; exact hx) hh
    rcases hone h1 with ⟨c, h3, rfl⟩ | ⟨h3, rfl⟩ | ⟨k, h3, rfl⟩
    · obtain ⟨⟨bs, h4⟩, _⟩ := h2
      exact Or.inl ⟨c, bs, h3, h4⟩
    · obtain ⟨_, ⟨n, h4⟩, _⟩ := h2
      exact Or.inr (Or.inl ⟨n, h3, h4⟩)
    · obtain ⟨_, _, s, h4⟩ := h2
      exact Or.inr (Or.inr ⟨k, s, h3, h4⟩)
  · obtain ⟨r, h1, _⟩ := hi.waits (by rw [hn]; exact hx) hh
    obtain ⟨r', h2, _⟩ := hi.waits (by rw [hn]; exact hj) hh'
    rcases hone h1 with ⟨c, h3, _⟩ | ⟨h3, _⟩ | ⟨k, h3, _⟩ <;>
      rcases hone h2 with ⟨c', h4, _⟩ | ⟨h4, _⟩ | ⟨k', h4, _⟩ <;> rw [h3] at h4 <;> cases h4 <;> rfl

/-- C61: a run with several processes ends, whether or not main threads wait in `send` until the message is received: all
processes return.  Nothing is written afterwards. -/
theorem C61_ends (hk : ∀ k ∈ kinds, k.length < 4294967296) (hx : ∃ k ∈ kinds, k ≠ []) (hd : ∀ s ∈ ss, s.blocks.Nodup)
    (h : Blocking env (initial kinds fs (program ss)) σ ls) (ha : ∀ n, Alert (σ n) (ls n)) :
    ∃ n, ∀ m, n ≤ m → (σ m).pc = .finished ∧ (∀ ix, 0 < ix → ix < kinds.length → ((σ m).procs ix).pc = .returned) ∧
      (σ m).fs = (σ n).fs := by
  have h0 : kinds ≠ [] := by
    obtain ⟨k, hk, _⟩ := hx
    exact List.ne_nil_of_mem hk
  obtain ⟨h1, h2⟩ := h.exec (Sound.initial h0 hk fs (Run.distinct_program hd)) ha
  exact C52_ends hk hx hd h1 ha h2

/-- C61: if moreover no number of the configurations is zero, and directories can be created, then all sections have
been worked off, and the merger gives the sum of the results of all blocks. -/
theorem C61_complete (hi : Input env ss result) (hp : Past env ss fs) (hz : ∀ s ∈ ss, Nonzero s.cfg)
    (hk : ∀ k ∈ kinds, k.length < 4294967296) (hx : ∃ k ∈ kinds, k ≠ [])
    (h : Blocking env (initial kinds fs (program ss)) σ ls) (ha : ∀ n, Alert (σ n) (ls n)) (hc : Creating ls) :
    ∃ n, (σ n).pc = .finished ∧ (σ n).todo = [] ∧ (∀ ix, 0 < ix → ix < kinds.length → ((σ n).procs ix).pc = .returned) ∧
      ∀ s ∈ ss, ∃ d r m, (σ n).fs s.cfg.resultPath = some d ∧
        Merger.merge d = .ok ⟨0, some (Store.print m, Record.print r)⟩ ∧
        Tally m (s.blocks.flatMap (result s.cfg)) ∧ ∀ b, b ≠ [] → (b ∈ r ↔ b ∈ s.blocks) := by
  have h0 : kinds ≠ [] := by
    obtain ⟨k, hk, _⟩ := hx
    exact List.ne_nil_of_mem hk
  obtain ⟨h1, h2⟩ := h.exec (Sound.initial h0 hk fs (Run.distinct_program hi.blocks)) ha
  exact C52_complete hi hp hz hk hx h1 ha h2 hc

/-- C61: there is such an execution in which every `send` waits: no main thread makes a step while a message that it has
sent is not received. -/
theorem C61_exists (hi : Input env ss result) (hp : Past env ss fs) (h0 : kinds ≠ [])
    (hk : ∀ k ∈ kinds, k.length < 4294967296) :
    ∃ σ ls, Blocking env (initial kinds fs (program ss)) σ ls ∧ (∀ n, ¬ Held (σ n) (ls n)) ∧ (∀ n, Alert (σ n) (ls n)) ∧
      Creating ls := by
  obtain ⟨σ, ls, h1, h2, h3, h4, h5, h6⟩ := exists_sched Held (st₀ := initial kinds fs (program ss)) (env := env)
    (fun _ _ _ => rfl) (List.length_pos_iff.2 h0) (fun _ _ => rfl) (fun _ hr l => (C42_safe hi hp h0 hk hr l).2.2)
    fun _ _ _ => ⟨id, id⟩
  refine ⟨σ, ls, ⟨h1, h2, fun ix i _ _ n => ?_, fun ix h0 _ n => ?_, fun n => ?_⟩, h4, h5, h6⟩
  · obtain ⟨m, h7, h8 | h8⟩ := h3 (.thread ix i) (by simp) n
    · exact ⟨m, h7, h8⟩
    · exact h8.elim
  · exact h3 (.worker ix) (by simp; omega) n
  · obtain ⟨m, h7, h8 | h8⟩ := h3 .master (by simp) n
    · exact ⟨m, h7, Or.inl ⟨_, h8, fun f d _ h9 _ h10 => newId_fresh h9 h10⟩⟩
    · exact ⟨m, h7, Or.inr fun _ => h8⟩

/-- C61: so that every run can end with all messages waited for. -/
theorem C61_synchronous (hi : Input env ss result) (hp : Past env ss fs) (hz : ∀ s ∈ ss, Nonzero s.cfg)
    (hk : ∀ k ∈ kinds, k.length < 4294967296) (hx : ∃ k ∈ kinds, k ≠ []) :
    ∃ (σ : Nat → State) (ls : Nat → Label) (n : Nat), σ 0 = initial kinds fs (program ss) ∧
      (∀ m, m < n → (step env (σ m) (ls m) = .ok (some (σ (m + 1))) ∨
        step env (σ m) (ls m) = .ok none ∧ σ (m + 1) = σ m) ∧ ¬ Held (σ m) (ls m)) ∧
      (σ n).pc = .finished ∧ (σ n).todo = [] ∧ ∀ ix, 0 < ix → ix < kinds.length → ((σ n).procs ix).pc = .returned := by
  have h0 : kinds ≠ [] := by
    obtain ⟨k, hk, _⟩ := hx
    exact List.ne_nil_of_mem hk
  obtain ⟨σ, ls, h, hh, ha, hc⟩ := C61_exists hi hp h0 hk
  obtain ⟨n, h1, h2, h3, _⟩ := C61_complete hi hp hz hk hx h ha hc
  exact ⟨σ, ls, n, h.start, fun m _ => ⟨h.next m, hh m⟩, h1, h2, h3⟩

end

/-- Hypotheses of `C61_complete`: two sections with one and three blocks; the master has one thread of each kind, one
worker has no thread, and another has one; all messages are waited for. -/
example : ∃ σ ls, Blocking demoEnv (initial [[true, false], [], [false]] (fun _ => none) (program demoSects)) σ ls ∧
    (∀ n, ¬ Held (σ n) (ls n)) ∧ (∀ n, Alert (σ n) (ls n)) ∧ Creating ls ∧ (∀ s ∈ demoSects, Nonzero s.cfg) ∧
    (∃ k ∈ ([[true, false], [], [false]] : List (List Bool)), k ≠ []) := by
  obtain ⟨σ, ls, h1, h2, h3, h4⟩ := C61_exists (fs := fun _ => none) (kinds := [[true, false], [], [false]]) demo_input
    (.start _ fun s _ d hd => by cases hd) (by decide) (by decide)
  refine ⟨σ, ls, h1, h2, h3, h4, fun s hs => ?_, _, List.mem_cons_self, by decide⟩
  simp only [demoSects, List.mem_cons, List.not_mem_nil, or_false] at hs
  rcases hs with rfl | rfl <;> constructor <;> decide

set_option maxRecDepth 20000 in
/-- Hypotheses of both parts of `C61_acyclic`: in a run with two processes the worker has a message to receive; later it has
sent a reply. -/
example : ((attempt demoEnv (demoRun 18) (.master ⟨true, true, 0⟩)).procs 1).inbox ≠ [] ∧ Held (demoRun 19) (.worker 1) :=
  ⟨by rw [show ((attempt demoEnv (demoRun 18) (.master ⟨true, true, 0⟩)).procs 1).inbox = [.readyThreads] from rfl]; simp,
    Or.inr (Or.inl (by rw [show ((demoRun 19).procs 1).readyOut = [(1, 1)] from rfl]; simp))⟩

end Mpi

section

variable {w : Flint} {ss : List Run.Sect} {fs : FileSystem}

/-- C61: runs of several processes whose messages block end with the numbers of polynomials. -/
theorem C61_total (hw : ∀ s ∈ ss, w.Setting s.cfg) (hc : ∀ s ∈ ss, s.cfg.Feasible)
    (hn : ∀ s hs k, (hw s hs).count k < 4611686018427387904) (hp : (ss.map fun s => s.cfg.resultPath).Nodup)
    (hb : ∀ s ∈ ss, Terminates (w.blocks s.cfg) s.blocks) (hf : Mpi.Past w.env ss fs) {kinds : List (List Bool)}
    (hk : ∀ k ∈ kinds, k.length < 4294967296) (hx : ∃ k ∈ kinds, k ≠ []) {σ : Nat → Mpi.State} {ls : Nat → Mpi.Label}
    (h : Mpi.Blocking w.env (Mpi.initial kinds fs (Run.program ss)) σ ls) (ha : ∀ n, Mpi.Alert (σ n) (ls n))
    (hcr : Mpi.Creating ls) :
    ∃ n, (∀ ix, 0 < ix → ix < kinds.length → ((σ n).procs ix).pc = .returned) ∧
      ∀ s hs, ∃ d r m, (σ n).fs s.cfg.resultPath = some d ∧
        Merger.merge d = .ok ⟨0, some (Store.print m, Record.print r)⟩ ∧ OMap.Sorted m ∧
        ∀ k z, (k, z) ∈ m ↔ 0 < z ∧ z = (hw s hs).count k := by
  have h0 : kinds ≠ [] := by
    obtain ⟨k, hk, _⟩ := hx
    exact List.ne_nil_of_mem hk
  have hi := Flint.input (fun s hs => ⟨hw s hs, hn s hs⟩) hc hp hb
  obtain ⟨h1, h2⟩ := h.exec (Mpi.Sound.initial h0 hk fs (Run.distinct_program hi.blocks)) ha
  exact C52_total hw hc hn hp hb hf hk hx h1 ha h2 hcr

end

end Hycu
