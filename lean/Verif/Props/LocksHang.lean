import Verif.Lemmas.PoolHang
import Verif.Lemmas.LocksHang
import Verif.Props.LocksFair
import Verif.Props.MpiLocksFair
import Verif.Props.MpiEnds

/-!
C51 and C60: every run of `hycu-threaded` can also hang, however fair the schedule is, since the notification of a thread can
be lost.  So the hypothesis that this does not happen is needed.  If it does not happen, then the numbers of polynomials are
right in the end.
-/

namespace Hycu

namespace Run

section

variable {env : Env} {kinds : List Bool} {fs : FileSystem} {ss : List Sect} {result : ConfigNode → Block → StoreMap}

/-- A state from which nothing happens any more can always be reached. -/
theorem hung_reachable (hi : Input env ss result) (hp : Past env ss fs) (hk : kinds.length < 4294967296) (h0 : kinds ≠ []) :
    ∃ st, Reachable env (initial kinds fs (program ss)) st ∧ Hung st := by
  obtain ⟨σ, ls, h, ha, hn, _⟩ := C51_exists (kinds := kinds) hi hp hk
  obtain ⟨n, h1⟩ := C51_ends hk h0 hi.blocks h ha hn
  obtain ⟨m, h2, h3⟩ := h.shutdown hk hi.blocks (h1 n (Nat.le_refl _)).1
  have hsize : (σ m).size = kinds.length := ((Good.init env hk fs hi.blocks).reachable (h.reachable m)).size
  exact h3.hung (h.reachable m) h2 (by rw [hsize]; exact List.length_pos_of_ne_nil h0)

/-- C51, C40: every run can hang in the destructor of the pool, even if everybody is scheduled again and again: the main
thread waits for the end of a thread, which waits for a notification, for ever. -/
theorem C51_hangs (hi : Input env ss result) (hp : Past env ss fs) (hk : kinds.length < 4294967296) (h0 : kinds ≠ []) :
    ∃ σ ls, Exec env (initial kinds fs (program ss)) σ ls ∧ Renewing σ ls ∧
      ∃ N, ∀ n, N ≤ n → (σ n).pc = .join 0 ∧ ∀ i, i < kinds.length → ((σ n).thr i).phase = .sleep := by
  obtain ⟨st, h1, h2⟩ := hung_reachable hi hp hk h0
  obtain ⟨σ, ls, h3, h4, N, h5⟩ := h2.exec h1
  have hsize : st.size = kinds.length := ((Good.init env hk fs hi.blocks).reachable h1).size
  refine ⟨σ, ls, h3, h4, N, fun n hn => ?_⟩
  rw [h5 n hn]
  exact ⟨h2.pc, fun i hi => h2.sleep i (by omega)⟩

end

end Run

namespace Locks

section

variable {env : Run.Env} {kinds : List Bool} {fs : FileSystem} {ss : List Run.Sect}
  {result : ConfigNode → Block → StoreMap}

/-- C60, C40: every run can hang in the destructor of the pool, if the threads are scheduled fairly instruction by
instruction. -/
theorem C60_hangs (hi : Run.Input env ss result) (hp : Run.Past env ss fs) (hk : kinds.length < 4294967296) (h0 : kinds ≠ []) :
    ∃ σ who, Fair (runs kinds env) sleeper (initial kinds fs (Run.program ss)) σ who ∧
      ∃ N, ∀ n, N ≤ n → ((σ n).mem .main : MainData).pc = .join 0 ∧
        ∀ i, i < kinds.length → ((σ n).mem (.phase i) : Run.Phase) = .sleep := by
  obtain ⟨st, h1, h2⟩ := Run.hung_reachable hi hp hk h0
  have hsize : st.size = kinds.length := ((Run.Good.init env hk fs hi.blocks).reachable h1).size
  obtain ⟨c, h3, h4, _, h5⟩ := C54_reaches h1 fun i b h => by rw [h2.pc] at h; cases h
  have hpc : (c.mem .main : MainData).pc = .join 0 := by rw [h5]; exact h2.pc
  have hph : ∀ i, i < kinds.length → (c.mem (.phase i) : Run.Phase) = .sleep := fun i hi => by
    rw [h5]; exact h2.sleep i (by omega)
  have hrest : ∀ a, (runs kinds env).rest a c.mem := by
    intro a
    cases a with
    | main =>
      show mainRests (c.mem .main)
      unfold mainRests
      rw [hpc]
      trivial
    | thread i =>
      by_cases hi : i < kinds.length
      · exact Or.inr (Or.inl (hph i hi))
      · exact Or.inl hi
  obtain ⟨σ, who, h6, N, h7⟩ := h3.hang (sleeper := sleeper) fun a ha => by
    cases a with
    | thread i => exact ha.2 trivial (h4 _) (hrest _)
    | main =>
      obtain ⟨c', hs⟩ := ha.1
      have hout := h4 .main
      cases hs with
      | enter reg h hr _ => exact hr (hrest _)
      | sync m reg h hs =>
        obtain ⟨i, b, hp, -⟩ | ⟨i, hp, -⟩ | ⟨i, hp, hd, -⟩ := sync_main_iff.1 hs
        · rw [hpc] at hp; cases hp
        · rw [hpc] at hp; cases hp
        · rw [hpc] at hp
          cases hp
          rw [hph 0 (List.length_pos_of_ne_nil h0)] at hd
          cases hd
      | acquire k reg l h => rw [hout] at h; cases h
      | read k reg x h => rw [hout] at h; cases h
      | compute k reg s ch h => rw [hout] at h; cases h
      | write ws reg ls x h => rw [hout] at h; cases h
      | release reg l ls h => rw [hout] at h; cases h
      | exit reg h => rw [hout] at h; cases h
  exact ⟨σ, who, h6, N, fun n hn => by rw [h7 n hn]; exact ⟨hpc, hph⟩⟩

end

/-- Hypotheses of `C60_hangs`: two sections with one and three blocks, one thread of each kind. -/
example : ∃ σ who, Fair (runs [true, false] Mpi.demoEnv) sleeper
    (initial [true, false] (fun _ => none) (Run.program Mpi.demoSects)) σ who ∧
    ∃ N, ∀ n, N ≤ n → ((σ n).mem .main : MainData).pc = .join 0 ∧
      ∀ i, i < 2 → ((σ n).mem (.phase i) : Run.Phase) = .sleep :=
  C60_hangs (kinds := [true, false]) Mpi.demo_input (.start _ fun s _ d hd => by cases hd) (by decide) (by decide)

end Locks

/-! ### Numbers of polynomials -/

section

variable {w : Flint} {ss : List Run.Sect} {fs : FileSystem}

open Locks (Fair)

/-- C60 and C47: with every fair schedule of single instructions that loses no notification and refuses no configuration,
the numbers that the merger gives in the end are the numbers of polynomials. -/
theorem C60_total (hw : ∀ s ∈ ss, w.Setting s.cfg) (hc : ∀ s ∈ ss, s.cfg.Feasible)
    (hn : ∀ s hs k, (hw s hs).count k < 4611686018427387904) (hp : (ss.map fun s => s.cfg.resultPath).Nodup)
    (hb : ∀ s ∈ ss, Terminates (w.blocks s.cfg) s.blocks) (hf : Run.Past w.env ss fs) {kinds : List Bool}
    (hk : kinds.length < 4294967296) (h0 : kinds ≠ []) {σ : Nat → Locks.Config Locks.Agent Locks.Lock Locks.Var Locks.Val}
    {who : Nat → Option Locks.Agent}
    (hs : Fair (Locks.runs kinds w.env) Locks.sleeper (Locks.initial kinds fs (Run.program ss)) σ who)
    (ha : ∀ n a, who n = some a → Locks.Alert (σ n) a)
    (ht : ∀ n, ((σ n).mem .main : Locks.MainData).pc = .wait .exit → ((σ n).mem .main : Locks.MainData).todo = []) :
    ∃ n, ∀ m, n ≤ m → ∀ s hs, ∃ d r t, ((σ m).mem .main : Locks.MainData).fs s.cfg.resultPath = some d ∧
      Merger.merge d = .ok ⟨0, some (Store.print t, Record.print r)⟩ ∧ OMap.Sorted t ∧
      ∀ k z, (k, z) ∈ t ↔ 0 < z ∧ z = (hw s hs).count k := by
  obtain ⟨n, h1⟩ := Locks.C60_complete (Flint.input (fun s hs => ⟨hw s hs, hn s hs⟩) hc hp hb) hf hk h0 hs ha ht
  refine ⟨n, fun m hm s hs => ?_⟩
  obtain ⟨_, _, h2⟩ := h1 m hm
  obtain ⟨d, _, h3, _, _, r, t, h4, h5, _⟩ := h2 s hs
  obtain ⟨h6, h7⟩ := (hw s hs).tally (hc s hs) (hn s hs) (hb s hs) h5
  exact ⟨d, r, t, h3, h4, h6, h7⟩

@[inherit_doc C60_total]
theorem C60_total_mpi (hw : ∀ s ∈ ss, w.Setting s.cfg) (hc : ∀ s ∈ ss, s.cfg.Feasible)
    (hn : ∀ s hs k, (hw s hs).count k < 4611686018427387904) (hp : (ss.map fun s => s.cfg.resultPath).Nodup)
    (hb : ∀ s ∈ ss, Terminates (w.blocks s.cfg) s.blocks) (hf : Mpi.Past w.env ss fs) {kinds : List (List Bool)}
    (hk : ∀ k ∈ kinds, k.length < 4294967296) (hx : ∃ k ∈ kinds, k ≠ [])
    {σ : Nat → Locks.Config MpiLocks.Agent MpiLocks.Lock MpiLocks.Var MpiLocks.Val} {who : Nat → Option MpiLocks.Agent}
    (hs : Fair (MpiLocks.system kinds w.env) MpiLocks.sleeper (MpiLocks.initial kinds fs (Run.program ss)) σ who)
    (ha : ∀ n a, who n = some a → MpiLocks.Alert (σ n) a)
    (ht : ∀ n, ((σ n).mem .master : MpiLocks.MasterData).pc = .flush (.wait .exit) →
      ((σ n).mem .master : MpiLocks.MasterData).todo = []) :
    ∃ n, ∀ m, n ≤ m → ∀ s hs, ∃ d r t, ((σ m).mem .master : MpiLocks.MasterData).fs s.cfg.resultPath = some d ∧
      Merger.merge d = .ok ⟨0, some (Store.print t, Record.print r)⟩ ∧ OMap.Sorted t ∧
      ∀ k z, (k, z) ∈ t ↔ 0 < z ∧ z = (hw s hs).count k := by
  obtain ⟨n, h1⟩ := MpiLocks.C60_complete_mpi (Flint.input (fun s hs => ⟨hw s hs, hn s hs⟩) hc hp hb) hf hk hx hs ha ht
  refine ⟨n, fun m hm s hs => ?_⟩
  obtain ⟨_, _, _, h2⟩ := h1 m hm
  obtain ⟨d, _, h3, _, _, r, t, h4, h5, _⟩ := h2 s hs
  obtain ⟨h6, h7⟩ := (hw s hs).tally (hc s hs) (hn s hs) (hb s hs) h5
  exact ⟨d, r, t, h3, h4, h6, h7⟩

end

end Hycu
