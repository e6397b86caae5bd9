import Verif.Lemmas.PoolLive

/-!
Lemmas for C68: threads of hycu-threaded.
-/

namespace Hycu
namespace Run

/-- The number of threads that have been told to stop, if there are `size` threads. -/
def Pc.told (size : Nat) : Pc → Nat
  | .shutdown i => i
  | .shutNotify i | .join i => i + 1
  | .finished => size
  | _ => 0

/-- The number of threads that have been joined. -/
def Pc.joined (size : Nat) : Pc → Nat
  | .shutdown i | .shutNotify i | .join i => i
  | .finished => size
  | _ => 0

/-- Threads are told to stop and joined in order. -/
structure StopInv (st : State) : Prop where
  bound : st.pc.told st.size ≤ st.size
  told : ∀ i, (st.thr i).stop = true ↔ i < st.pc.told st.size
  joined : ∀ i, i < st.pc.joined st.size → (st.thr i).phase = .done

theorem wake_stop (st : State) (i k : Nat) : ((wake st i).thr k).stop = (st.thr k).stop := by
  unfold wake
  split
  · exact setThread_cases (t := { st.thr i with phase := .check }) (P := fun k t => t.stop = (st.thr k).stop)
      (fun _ => rfl) rfl k
  · rfl

theorem wake_done {st : State} {i k : Nat} (h : (st.thr k).phase = .done) : ((wake st i).thr k).phase = .done := by
  unfold wake
  split
  · rename_i hp
    rw [setThread_other _ (by rintro rfl; rw [h] at hp; cases hp)]
    exact h
  · exact h

/-- Steps of threads. -/
theorem StopInv.phase {st st' : State} (h : StopInv st) {i : Nat} {t : Thread} (h1 : st'.thr = (st.setThread i t).thr)
    (h2 : st'.pc = st.pc) (h3 : st'.size = st.size) (h4 : t.stop = (st.thr i).stop) (h5 : (st.thr i).phase ≠ .done) :
    StopInv st' := by
  rw [show st' = { st' with thr := st'.thr } from rfl]
  refine ⟨by simp only [h2, h3]; exact h.bound, ?_, ?_⟩
  · simp only [h1, h2, h3]
    exact setThread_cases (P := fun k t => t.stop = true ↔ k < st.pc.told st.size) h.told (by rw [h4]; exact h.told i)
  · simp only [h1, h2, h3]
    intro k hk
    have h6 := h.joined k hk
    rw [setThread_other _ (by rintro rfl; exact h5 h6)]
    exact h6

/-- Steps of the main thread without effect on threads. -/
theorem StopInv.move {st st' : State} (h : StopInv st) (h1 : st'.thr = st.thr) (h3 : st'.size = st.size)
    (h4 : st'.pc.told st'.size = st.pc.told st.size) (h5 : st'.pc.joined st'.size = st.pc.joined st.size) : StopInv st' :=
  ⟨by rw [h4, h3]; exact h.bound, by rw [h4, h1]; exact h.told, by rw [h5, h1]; exact h.joined⟩

theorem StopInv.keep {st st' : State} (h : StopInv st) (h1 : ∀ i, (st'.thr i).stop = (st.thr i).stop)
    (h2 : ∀ i, (st.thr i).phase = .done → (st'.thr i).phase = .done) (h3 : st'.size = st.size)
    (h4 : st'.pc.told st'.size = st.pc.told st.size) (h5 : st'.pc.joined st'.size = st.pc.joined st.size) : StopInv st' :=
  ⟨by rw [h4, h3]; exact h.bound, fun i => by rw [h4, h1]; exact h.told i, fun i hi => h2 i (h.joined i (by rw [← h5]; exact hi))⟩

theorem afterSave_told (k : Cont) (n : Nat) : (afterSave k).told n = 0 ∧ (afterSave k).joined n = 0 := by
  cases k <;> exact ⟨rfl, rfl⟩

theorem StopInv.trans {env : Env} {a : Option Nat} {st st' : State} (h : StopInv st) (hi : Inv st) (ht : Trans env st a st') :
    StopInv st' := by
  have noop : st.pc.told st.size = 0 → st.pc.joined st.size = 0 → st'.thr = st.thr → st'.size = st.size →
      st'.pc.told st'.size = 0 → st'.pc.joined st'.size = 0 → StopInv st' :=
    fun a b c d e f => h.move c d (by rw [e, a]) (by rw [f, b])
  cases ht with
  | checkDone i hi hp hs => exact h.phase rfl rfl rfl rfl (by rw [hp]; simp)
  | checkWait i hi hp hs hq => exact h.phase rfl rfl rfl rfl (by rw [hp]; simp)
  | checkPop i hi hp hs hq => exact h.phase rfl rfl rfl rfl (by rw [hp]; simp)
  | doze i hi hp => exact h.phase rfl rfl rfl rfl (by rw [hp]; simp)
  | pop i hi hp j q hq =>
    exact h.phase (i := i) (t := { st.thr i with queue := q, phase := .compute j }) rfl rfl rfl rfl (by rw [hp]; simp)
  | compute i hi j hp tb ht m hm p hf =>
    exact h.phase (i := i) (t := { st.thr i with phase := .report j }) rfl rfl rfl rfl (by rw [hp]; simp)
  | report i hi j hp p hf =>
    exact h.phase (i := i) (t := { st.thr i with phase := .check }) rfl rfl rfl rfl (by rw [hp]; simp)
  | spurious i hi hp => exact h.phase rfl rfl rfl rfl (by rw [hp]; simp)
  | notify i b hpc =>
    refine h.keep (wake_stop st i) (fun k hk => wake_done hk) (wake_size st i) ?_ ?_ <;> rw [hpc] <;> rfl
  | shutNotify i hpc =>
    refine h.keep (wake_stop st i) (fun k hk => wake_done hk) (wake_size st i) ?_ ?_ <;> rw [hpc] <;> rfl
  | shutdown i hpc hi =>
    refine ⟨hi, fun k => ?_, fun k hk => ?_⟩
    · show (Function.update st.thr i { st.thr i with stop := true } k).stop = true ↔ k < i + 1
      by_cases hki : k = i
      · subst hki
        rw [Function.update_self]
        simp
      · rw [Function.update_of_ne hki, h.told k, hpc]
        show k < i ↔ k < i + 1
        omega
    · have h1 := h.joined k (by rw [hpc]; exact hk)
      have hki : k ≠ i := by
        have : k < i := hk
        omega
      show (Function.update st.thr i { st.thr i with stop := true } k).phase = .done
      rw [Function.update_of_ne hki]
      exact h1
  | shutdownEnd i hpc hi =>
    have hb := h.bound
    have ht := h.told
    have hj := h.joined
    rw [hpc] at hb ht hj
    have hb : i ≤ st.size := hb
    obtain rfl : i = st.size := by omega
    exact ⟨Nat.le_refl _, ht, hj⟩
  | join i hpc hd =>
    have hb := h.bound
    have ht := h.told
    have hj := h.joined
    rw [hpc] at hb ht hj
    refine ⟨hb, ht, fun k hk => ?_⟩
    have hk : k < i + 1 := hk
    rcases Nat.lt_or_eq_of_le (Nat.lt_succ_iff.1 hk) with hk | rfl
    · exact hj k hk
    · exact hd
  | update hpc c rest ht =>
    exact h.keep (fun _ => rfl) (fun _ h => h) rfl (by rw [hpc]; rfl) (by rw [hpc]; rfl)
  | takeOpencl hpc b rest ht ho p hp =>
    have hs := hi.stop (by rw [hpc]; rfl)
    refine ⟨Nat.zero_le _, fun k => ?_, fun k hk => absurd hk (Nat.not_lt_zero k)⟩
    have : ((pushJob { st with todo := rest, nmbOpencl := st.nmbOpencl - 1, pool := p.1 } p.2 b).thr k).stop = false :=
      setThread_cases (st := st) (i := p.2) (t := { st.thr p.2 with queue := (st.thr p.2).queue ++ [⟨b, (st.thr p.2).tables⟩] })
        (P := fun _ t => t.stop = false) hs (hs p.2) k
    exact ⟨fun h => absurd (this.symm.trans h) (by simp), fun h => absurd h (Nat.not_lt_zero k)⟩
  | takeCpu hpc b rest ht ho p hp =>
    have hs := hi.stop (by rw [hpc]; rfl)
    refine ⟨Nat.zero_le _, fun k => ?_, fun k hk => absurd hk (Nat.not_lt_zero k)⟩
    have : ((pushJob { st with todo := rest, nmbCpu := st.nmbCpu - 1, pool := p.1 } p.2 b).thr k).stop = false :=
      setThread_cases (st := st) (i := p.2) (t := { st.thr p.2 with queue := (st.thr p.2).queue ++ [⟨b, (st.thr p.2).tables⟩] })
        (P := fun _ t => t.stop = false) hs (hs p.2) k
    exact ⟨fun h => absurd (this.symm.trans h) (by simp), fun h => absurd h (Nat.not_lt_zero k)⟩
  | mainConfig hpc c rest ht create v hv =>
    refine noop (by rw [hpc]; rfl) (by rw [hpc]; rfl) rfl rfl ?_ ?_ <;> simp only <;> split <;> rfl
  | mainAssign hpc b rest ht now =>
    refine noop (by rw [hpc]; rfl) (by rw [hpc]; rfl) rfl rfl ?_ ?_ <;> simp only <;> split <;> rfl
  | wait k hpc a ha =>
    refine noop (by rw [hpc]; rfl) (by rw [hpc]; rfl) rfl rfl ?_ ?_ <;> simp only <;> split <;> rfl
  | saveNone k hpc hf => exact noop (by rw [hpc]; rfl) (by rw [hpc]; rfl) rfl rfl (afterSave_told k _).1 (afterSave_told k _).2
  | saveLost k hpc f hf h' => exact noop (by rw [hpc]; rfl) (by rw [hpc]; rfl) rfl rfl (afterSave_told k _).1 (afterSave_told k _).2
  | writeEnd k hpc => exact noop (by rw [hpc]; rfl) (by rw [hpc]; rfl) rfl rfl (afterSave_told k _).1 (afterSave_told k _).2
  | fillReady hpc =>
    refine noop (by rw [hpc]; rfl) (by rw [hpc]; rfl) rfl rfl ?_ ?_ <;> unfold fillReadyStep <;> simp only <;> split <;> rfl
  | mainEnd hpc ht => exact noop (by rw [hpc]; rfl) (by rw [hpc]; rfl) rfl rfl rfl rfl
  | insert b hpc => exact noop (by rw [hpc]; rfl) (by rw [hpc]; rfl) rfl rfl rfl rfl
  | _ => exact noop (by simp_all [Pc.told]) (by simp_all [Pc.joined]) rfl rfl rfl rfl

theorem StopInv.init (kinds : List Bool) (fs : FileSystem) (todo : List Cmd) : StopInv (initial kinds fs todo) :=
  ⟨Nat.zero_le _, fun i => ⟨fun h => absurd h (by simp [initial]), fun h => absurd h (Nat.not_lt_zero i)⟩,
    fun i h => absurd h (Nat.not_lt_zero i)⟩

theorem StopInv.reachable {env : Env} {st₀ st : State} (h : StopInv st₀) (hi : Inv st₀) (hr : Reachable env st₀ st) :
    StopInv st := by
  induction hr with
  | refl => exact h
  | step l hr hs ih => exact ih.trans (hi.reachable hr) (step_trans hs)

/-- Nothing happens after the end. -/
theorem StopInv.final {env : Env} {st : State} (h : StopInv st) (hpc : st.pc = .finished) (l : Label) :
    Run.step env st l = .ok none := by
  have hj := h.joined
  rw [hpc] at hj
  cases l with
  | thread i =>
    show (if i < st.size then threadStep env st i else .ok none) = _
    split
    · rename_i hi
      unfold threadStep
      simp only [hj i hi]
    · rfl
  | master ch =>
    show masterStep st ch = _
    unfold masterStep
    rw [hpc]
  | spurious i =>
    show (if i < st.size ∧ (st.thr i).phase = .sleep then (.ok (some (wake st i)) : Res (Option State)) else .ok none) = _
    rw [if_neg]
    rintro ⟨hi, h1⟩
    rw [hj i hi] at h1
    cases h1

theorem Gathers.empty {env : Env} {s : Store.Static} (h : Gathers env [] s) : s = ⟨[], []⟩ := by
  obtain ⟨r, m⟩ := s
  obtain ⟨ms, h1, h2⟩ := h.results
  cases h1
  have hr : r = [] := List.eq_nil_iff_forall_not_mem.2 fun b hb => by
    obtain ⟨j, hj, _⟩ := (h.mem b).1 hb
    cases hj
  have hm : m = [] := List.eq_nil_iff_forall_not_mem.2 fun e he => by
    have := ((h2.entry e.1 e.2).1 he).1
    cases this
  rw [hr, hm]

end Run
end Hycu
