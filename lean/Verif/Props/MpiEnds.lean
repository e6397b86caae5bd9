import Verif.Lemmas.MpiSched
import Verif.Props.EndToEnd

/-!
C52: runs with several processes end.
-/

namespace Hycu
namespace Mpi

open Run (Env Sect program Input Nonzero)

section

variable {env : Env} {kinds : List (List Bool)} {fs : FileSystem} {ss : List Sect} {σ : Nat → State} {ls : Nat → Label}
  {result : ConfigNode → Block → StoreMap}

theorem exists_size (hx : ∃ k ∈ kinds, k ≠ []) (todo : List Run.Cmd) : ∃ q, q < (initial kinds fs todo).nprocs ∧
    0 < ((initial kinds fs todo).procs q).size := by
  obtain ⟨k, hk, hne⟩ := hx
  obtain ⟨q, hq, he⟩ := List.getElem_of_mem hk
  refine ⟨q, hq, ?_⟩
  show 0 < (kinds[q]?.getD []).length
  rw [List.getElem?_eq_getElem hq, he]
  exact List.length_pos_iff.2 hne

/-- C52: a run with several processes, of which at least one has a thread, in which all threads of all processes are
scheduled again and again, names for new files are found, and no notification is lost, ends: all processes return.
Nothing is written afterwards. -/
theorem C52_ends (hk : ∀ k ∈ kinds, k.length < 4294967296) (hx : ∃ k ∈ kinds, k ≠ []) (hd : ∀ s ∈ ss, s.blocks.Nodup)
    (h : Exec env (initial kinds fs (program ss)) σ ls) (ha : ∀ n, Alert (σ n) (ls n)) (hn : Renewing σ ls) :
    ∃ n, ∀ m, n ≤ m → (σ m).pc = .finished ∧ (∀ ix, 0 < ix → ix < kinds.length → ((σ m).procs ix).pc = .returned) ∧
      (σ m).fs = (σ n).fs := by
  have h0 : kinds ≠ [] := by
    obtain ⟨k, hk, _⟩ := hx
    exact List.ne_nil_of_mem hk
  obtain ⟨q, hq, hs⟩ := exists_size (fs := fs) hx (program ss)
  obtain ⟨n, hn⟩ := h.over (Sound.initial h0 hk fs (Run.distinct_program hd)) ha hn hq hs
  have hnp : ∀ m, (σ m).nprocs = kinds.length := fun m => (Kinds.reachable (h.reachable m)).1
  have hfs : ∀ m, n ≤ m → (σ m).fs = (σ n).fs := by
    intro m hm
    induction m, hm using Nat.le_induction with
    | base => rfl
    | succ m hm ih =>
      rcases h.next m with h1 | ⟨_, h1⟩
      · by_cases hl : ∃ ch, ls m = .master ch
        · obtain ⟨ch, hl⟩ := hl
          rw [hl] at h1
          simp only [step, masterStep, (hn m hm).1] at h1
          cases h1
        · exact (step_pc (fun ch hch => hl ⟨ch, hch⟩) h1).2.2.1.trans ih
      · rw [h1]
        exact ih
  exact ⟨n, fun m hm => ⟨(hn m hm).1, fun ix h0 hx => (hn m hm).2 ix h0 (by rw [hnp]; exact hx), hfs m hm⟩⟩

/-- C52: if moreover no number of the configurations is zero, and directories can be created, then all sections have
been worked off, and the merger gives the sum of the results of all blocks. -/
theorem C52_complete (hi : Input env ss result) (hp : Past env ss fs) (hz : ∀ s ∈ ss, Nonzero s.cfg)
    (hk : ∀ k ∈ kinds, k.length < 4294967296) (hx : ∃ k ∈ kinds, k ≠ [])
    (h : Exec env (initial kinds fs (program ss)) σ ls) (ha : ∀ n, Alert (σ n) (ls n)) (hn : Renewing σ ls)
    (hc : Creating ls) :
    ∃ n, (σ n).pc = .finished ∧ (σ n).todo = [] ∧ (∀ ix, 0 < ix → ix < kinds.length → ((σ n).procs ix).pc = .returned) ∧
      ∀ s ∈ ss, ∃ d r m, (σ n).fs s.cfg.resultPath = some d ∧
        Merger.merge d = .ok ⟨0, some (Store.print m, Record.print r)⟩ ∧
        Tally m (s.blocks.flatMap (result s.cfg)) ∧ ∀ b, b ≠ [] → (b ∈ r ↔ b ∈ s.blocks) := by
  have h0 : kinds ≠ [] := by
    obtain ⟨k, hk, _⟩ := hx
    exact List.ne_nil_of_mem hk
  obtain ⟨n, hn⟩ := C52_ends hk hx hi.blocks h ha hn
  obtain ⟨hf, hw, _⟩ := hn n le_rfl
  have ht := h.left_todo hc hz (n := n) (by rw [hf]; rfl)
  refine ⟨n, hf, ht, hw, fun s hs => ?_⟩
  obtain ⟨d, _, h1, _, _, r, m, h2, h3, _, h4⟩ := C43_exact hi hp h0 hk (h.reachable n) hf ht s hs
  exact ⟨d, r, m, h1, h2, h3, h4⟩

/-- C52: there is such an execution. -/
theorem C52_exists (hi : Input env ss result) (hp : Past env ss fs) (h0 : kinds ≠ [])
    (hk : ∀ k ∈ kinds, k.length < 4294967296) :
    ∃ σ ls, Exec env (initial kinds fs (program ss)) σ ls ∧ (∀ n, Alert (σ n) (ls n)) ∧ Renewing σ ls ∧ Creating ls :=
  exists_exec (fun _ _ _ => rfl) (List.length_pos_iff.2 h0) (fun _ _ => rfl)
    fun _ hr l => (C42_safe hi hp h0 hk hr l).2.2

/-- C52: so that every run can end, whatever happened in earlier runs. -/
theorem C52_reachable (hi : Input env ss result) (hp : Past env ss fs) (hz : ∀ s ∈ ss, Nonzero s.cfg)
    (hk : ∀ k ∈ kinds, k.length < 4294967296) (hx : ∃ k ∈ kinds, k ≠ []) :
    ∃ st, Reachable env (initial kinds fs (program ss)) st ∧ st.pc = .finished ∧ st.todo = [] ∧
      ∀ ix, 0 < ix → ix < kinds.length → (st.procs ix).pc = .returned := by
  have h0 : kinds ≠ [] := by
    obtain ⟨k, hk, _⟩ := hx
    exact List.ne_nil_of_mem hk
  obtain ⟨σ, ls, h, ha, hn, hc⟩ := C52_exists hi hp h0 hk
  obtain ⟨n, h1, h2, h3, _⟩ := C52_complete hi hp hz hk hx h ha hn hc
  exact ⟨σ n, h.reachable n, h1, h2, h3⟩

end

/-- Hypotheses of `C52_complete`: two sections with one and three blocks; the master has one thread of each kind, one
worker has no thread, and another has one. -/
example : ∃ σ ls, Exec demoEnv (initial [[true, false], [], [false]] (fun _ => none) (program demoSects)) σ ls ∧
    (∀ n, Alert (σ n) (ls n)) ∧ Renewing σ ls ∧ Creating ls ∧ (∀ s ∈ demoSects, Nonzero s.cfg) ∧
    (∃ k ∈ ([[true, false], [], [false]] : List (List Bool)), k ≠ []) := by
  obtain ⟨σ, ls, h1, h2, h3, h4⟩ := C52_exists (fs := fun _ => none) (kinds := [[true, false], [], [false]]) demo_input
    (.start _ fun s _ d hd => by cases hd) (by decide) (by decide)
  refine ⟨σ, ls, h1, h2, h3, h4, fun s hs => ?_, _, List.mem_cons_self, by decide⟩
  simp only [demoSects, List.mem_cons, List.not_mem_nil, or_false] at hs
  rcases hs with rfl | rfl <;> constructor <;> decide

end Mpi

section

variable {w : Flint} {ss : List Run.Sect} {fs : FileSystem}

/-- C52: runs of several processes over the blocks of configurations end with the numbers of polynomials: this removes
the hypothesis of C47 that the run is complete. -/
theorem C52_total (hw : ∀ s ∈ ss, w.Setting s.cfg) (hc : ∀ s ∈ ss, s.cfg.Feasible)
    (hn : ∀ s hs k, (hw s hs).count k < 4611686018427387904) (hp : (ss.map fun s => s.cfg.resultPath).Nodup)
    (hb : ∀ s ∈ ss, Terminates (w.blocks s.cfg) s.blocks) (hf : Mpi.Past w.env ss fs) {kinds : List (List Bool)}
    (hk : ∀ k ∈ kinds, k.length < 4294967296) (hx : ∃ k ∈ kinds, k ≠ []) {σ : Nat → Mpi.State} {ls : Nat → Mpi.Label}
    (h : Mpi.Exec w.env (Mpi.initial kinds fs (Run.program ss)) σ ls) (ha : ∀ n, Mpi.Alert (σ n) (ls n))
    (hr : Mpi.Renewing σ ls) (hcr : Mpi.Creating ls) :
    ∃ n, (∀ ix, 0 < ix → ix < kinds.length → ((σ n).procs ix).pc = .returned) ∧
      ∀ s hs, ∃ d r m, (σ n).fs s.cfg.resultPath = some d ∧
        Merger.merge d = .ok ⟨0, some (Store.print m, Record.print r)⟩ ∧ OMap.Sorted m ∧
        ∀ k z, (k, z) ∈ m ↔ 0 < z ∧ z = (hw s hs).count k := by
  have h0 : kinds ≠ [] := by
    obtain ⟨k, hk, _⟩ := hx
    exact List.ne_nil_of_mem hk
  have hz : ∀ s ∈ ss, Run.Nonzero s.cfg := fun s hs => by
    let _ := (hw s hs).field
    let _ := (hw s hs).fintype
    let _ := (hw s hs).decEq
    obtain ⟨h1, h2, _⟩ := (hw s hs).built.facts
    have h3 := hc s hs
    exact ⟨h1.ne_zero, h2.ne', h3.genus_pos.ne', h3.count_pos.ne', h3.package_pos.ne'⟩
  obtain ⟨n, h1, h2, h3, _⟩ := Mpi.C52_complete (Flint.input (fun s hs => ⟨hw s hs, hn s hs⟩) hc hp hb) hf hz hk hx h ha hr
    hcr
  exact ⟨n, h3, (C47_several hw hc hn hp hb hf h0 hk (h.reachable n)).2 h1 h2⟩

end

end Hycu
