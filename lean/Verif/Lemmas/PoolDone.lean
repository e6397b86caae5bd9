import Verif.Lemmas.PoolEnds
import Verif.Lemmas.RunSafe

/-!
Runs that end have made all calls, and there are such runs.
-/

namespace Hycu
namespace Run

theorem thread_fs {env : Env} {st st' : State} {i : Nat} (ht : Trans env st (some i) st') : st'.fs = st.fs := by
  cases ht <;> rfl

/-- The main thread is in the destructor. -/
def Pc.leaving : Pc → Bool
  | .wait .exit | .save .exit | .write _ .exit | .shutdown _ | .shutNotify _ | .join _ | .finished => true
  | _ => false

/-- The destructor is called only at the end, or if the next configuration has a number that is zero; the configurations
to come are among the given ones. -/
structure Leaving (cs : List ConfigNode) (st : State) : Prop where
  todo : st.pc.leaving = true → st.todo = [] ∨ ∃ c rest, st.todo = .config c :: rest ∧ ¬ Nonzero c
  accept : ∀ c, Cmd.config c ∈ st.todo → c ∈ cs

theorem verify_accepts {c : ConfigNode} (hc : Nonzero c) (fs : FileSystem) {v : FileSystem × Bool}
    (h : c.verify fs (.ok true) = .ok v) : v.2 = true := by
  unfold ConfigNode.verify at h
  rw [if_pos ⟨hc.prime, hc.exponent, hc.genus, hc.count⟩] at h
  split at h <;> cases h <;> simpa using hc.package

theorem Leaving.afterSave {cs : List ConfigNode} {st : State} (h : Leaving cs st) {k : Cont}
    (hk : k = .exit → st.pc.leaving = true) {st' : State} (ht : st'.todo = st.todo)
    (hpc : st'.pc = Run.afterSave k) : Leaving cs st' := by
  refine ⟨fun hl => ?_, by rw [ht]; exact h.accept⟩
  rw [ht]
  rw [hpc] at hl
  cases k with
  | exit => exact h.todo (hk rfl)
  | _ => cases hl

theorem Leaving.step {env : Env} {cs : List ConfigNode} {st st' : State} {l : Label} (h : Leaving cs st)
    (hl : ∀ ch, l = .master ch → ch.create = true) (hs : step env st l = .ok (some st')) : Leaving cs st' := by
  have keep : ∀ {st' : State}, st'.todo = st.todo → (st'.pc.leaving = true → st.pc.leaving = true) →
      Leaving cs st' :=
    fun h1 h2 => ⟨fun h3 => (by rw [h1]; exact h.todo (h2 h3)), by rw [h1]; exact h.accept⟩
  have drop : ∀ {st' : State} {c : Cmd}, st.todo = c :: st'.todo → st'.pc.leaving = false → Leaving cs st' :=
    fun h1 h2 => ⟨fun h3 => (by rw [h2] at h3; cases h3), fun c hc => h.accept c (by rw [h1]; exact List.mem_cons_of_mem _ hc)⟩
  by_cases hm : st.pc = .main
  · cases l with
    | master ch =>
      have hch := hl ch rfl
      simp only [Run.step, masterStep, hm] at hs
      replace hs := some_map_ok hs
      unfold mainStep at hs
      split at hs
      · rename_i ht
        cases hs
        exact ⟨fun _ => Or.inl ht, h.accept⟩
      · rename_i c rest ht
        obtain ⟨v, hv, hs⟩ := Res.bind_eq_ok.1 hs
        cases hs
        rw [hch] at hv
        refine ⟨fun hl => Or.inr ⟨c, rest, ht, fun hc => ?_⟩, h.accept⟩
        simp only [verify_accepts hc _ hv, if_true] at hl
        cases hl
      · cases hs
        refine ⟨fun hl => ?_, h.accept⟩
        simp only at hl
        split at hl <;> cases hl
    | _ =>
      obtain ⟨h1, h2, _⟩ := thread_pc (step_trans hs)
      exact keep h2 fun hl => by rw [← h1]; exact hl
  · have ht := step_trans hs
    clear hs hl
    generalize l.actor = a at ht
    cases ht with
    | mainEnd hpc => exact absurd hpc hm
    | mainConfig hpc => exact absurd hpc hm
    | mainAssign hpc => exact absurd hpc hm
    | wait k hpc a ha =>
      refine keep rfl fun hl => ?_
      rw [hpc]
      cases k with
      | exit => rfl
      | _ => simp only at hl; split at hl <;> cases hl
    | saveNone k hpc hf => exact h.afterSave (fun hk => by rw [hpc, hk]; rfl) rfl rfl
    | saveLost k hpc f hf hh => exact h.afterSave (fun hk => by rw [hpc, hk]; rfl) rfl rfl
    | saveStart k hpc f hf hv d hd id hid =>
      refine keep rfl fun hl => ?_
      rw [hpc]
      cases k with
      | exit => rfl
      | _ => cases hl
    | writeEnd k hpc => exact h.afterSave (fun hk => by rw [hpc, hk]; rfl) rfl rfl
    | writeLost k n c ws hpc hh =>
      refine keep rfl fun hl => ?_
      rw [hpc]
      cases k with
      | exit => rfl
      | _ => cases hl
    | write k n c ws hpc f hf d hd =>
      refine keep rfl fun hl => ?_
      rw [hpc]
      cases k with
      | exit => rfl
      | _ => cases hl
    | update hpc c rest ht => exact drop ht rfl
    | skip hpc b rest ht f hf hc => exact drop ht rfl
    | fillReady hpc =>
      refine keep rfl fun hl => ?_
      simp only [fillReadyStep] at hl
      split at hl <;> cases hl
    | takeOpencl hpc b rest ht ho p hp => exact drop ht rfl
    | takeCpu hpc b rest ht ho p hp => exact drop ht rfl
    | notify i b hpc => exact keep (wake_todo _ _) fun hl => by cases hl
    | shutNotify i hpc => exact keep (wake_todo _ _) fun _ => by rw [hpc]; rfl
    | shutdown i hpc hi => exact keep rfl fun _ => by rw [hpc]; rfl
    | shutdownEnd i hpc hi => exact keep rfl fun _ => by rw [hpc]; rfl
    | join i hpc hp => exact keep rfl fun _ => by rw [hpc]; rfl
    | newStoreInvalid => exact keep rfl fun hl => by cases hl
    | newStore => exact keep rfl fun hl => by cases hl
    | fill => exact keep rfl fun hl => by cases hl
    | noFill => exact keep rfl fun hl => by cases hl
    | fillFinished => exact keep rfl fun hl => by cases hl
    | insert => exact keep rfl fun hl => by cases hl
    | _ => exact keep rfl fun hl => hl

namespace Exec

variable {env : Env} {kinds : List Bool} {ss : List Sect} {fs : FileSystem} {σ : Nat → State} {ls : Nat → Label}

theorem leaving (h : Exec env (initial kinds fs (program ss)) σ ls) (hc : Creating ls)
    (n : Nat) : Leaving (ss.map fun s => s.cfg) (σ n) := by
  induction n with
  | zero =>
    rw [h.start]
    refine ⟨fun hl => (by cases hl), fun c hc => ?_⟩
    obtain ⟨s, h1, h2⟩ := List.mem_flatMap.1 hc
    rcases List.mem_cons.1 h2 with h2 | h2
    · cases h2
      exact List.mem_map.2 ⟨s, h1, rfl⟩
    · obtain ⟨b, _, h2⟩ := List.mem_map.1 h2
      cases h2
  | succ n ih =>
    rcases h.next n with h1 | ⟨_, h1⟩
    · exact ih.step (hc n) h1
    · rw [h1]
      exact ih

/-- If no number is zero, all calls have been made. -/
theorem left_todo (h : Exec env (initial kinds fs (program ss)) σ ls) (hc : Creating ls)
    (hs : ∀ s ∈ ss, Nonzero s.cfg) {n : Nat} (hl : (σ n).pc.leaving = true) : (σ n).todo = [] := by
  rcases (h.leaving hc n).todo hl with h1 | ⟨c, rest, h1, h2⟩
  · exact h1
  · obtain ⟨s, h3, h4⟩ := List.mem_map.1 ((h.leaving hc n).accept c (by rw [h1]; exact List.mem_cons_self))
    exact absurd (h4 ▸ hs s h3) h2

end Exec

/-! ### A schedule -/

theorem regular_mem {d : Dir} {name : List Char} (h : Dir.isRegularFile d name = true) : name ∈ d.map Prod.fst := by
  unfold Dir.isRegularFile at h
  split at h
  · rename_i e he
    clear h
    induction d with
    | nil => cases he
    | cons a d ih =>
      unfold Dir.lookup at he
      split at he
      · rename_i ha
        exact List.mem_map.2 ⟨a, List.mem_cons_self, ha⟩
      · exact List.mem_cons_of_mem _ (ih he)
  · cases h

theorem showNat_injective : Function.Injective showNat := fun a b h => by
  rw [← showNat_val a, h, showNat_val]

/-- There are names for new files. -/
theorem exists_fresh (d : Dir) : ∃ id, FileStore.fresh d id = true := by
  have hfin : ∀ ext : List Char, {id | showNat id ++ ext ∈ d.map Prod.fst}.Finite := fun ext =>
    Set.Finite.preimage (f := fun id => showNat id ++ ext)
      (fun a _ b _ h => showNat_injective (List.append_cancel_right h)) (List.finite_toSet (d.map Prod.fst))
  obtain ⟨id, hid⟩ := ((hfin FileStore.recordExtension).union (hfin FileStore.storeExtension)).infinite_compl.nonempty
  refine ⟨id, ?_⟩
  simp only [Set.mem_compl_iff, Set.mem_union, Set.mem_ofPred_eq, not_or] at hid
  unfold FileStore.fresh
  cases h1 : Dir.isRegularFile d (FileStore.recordName id) with
  | true => exact absurd (regular_mem h1) hid.1
  | false =>
    cases h2 : Dir.isRegularFile d (FileStore.storeName id) with
    | true => exact absurd (regular_mem h2) hid.2
    | false => rfl

section

variable (env : Env) (st₀ : State)

open Classical in
/-- An id for new files. -/
noncomputable def newId (st : State) : Nat :=
  match st.fileStore with
  | none => 0
  | some f =>
    match st.fs f.config.resultPath with
    | none => 0
    | some d => (exists_fresh d).choose

/-- All threads in turn, but no notification of a thread that does not wait yet. -/
noncomputable def pick (n : Nat) (st : State) : Label :=
  if n % (st₀.size + 1) < st₀.size then .thread (n % (st₀.size + 1)) else
  let m : Label := .master ⟨false, true, newId st⟩
  match st.pc with
  | .notify i _ => if (st.thr i).phase = .wait then .thread i else m
  | .shutNotify i => if (st.thr i).phase = .wait then .thread i else m
  | _ => m

/-- The states under this schedule. -/
noncomputable def sched : Nat → State
  | 0 => st₀
  | n + 1 =>
    match step env (sched n) (pick st₀ n (sched n)) with
    | .ok (some st) => st
    | _ => sched n

theorem newId_fresh {st : State} {f : FileStoreObj} {d : Dir} (h1 : st.fileStore = some f)
    (h2 : st.fs f.config.resultPath = some d) : FileStore.fresh d (newId st) = true := by
  unfold newId
  rw [h1]
  simp only
  rw [h2]
  exact (exists_fresh d).choose_spec

theorem pick_create {n : Nat} {st : State} {ch : Choice} (h : pick st₀ n st = .master ch) :
    ch = ⟨false, true, newId st⟩ := by
  unfold pick at h
  split at h
  · cases h
  · simp only at h
    split at h
    · split at h <;> cases h
      rfl
    · split at h <;> cases h
      rfl
    · cases h
      rfl

theorem pick_alert (n : Nat) (st : State) : Alert st (pick st₀ n st) := by
  unfold pick
  split
  · trivial
  · simp only
    split
    · rename_i i b hpc
      split
      · trivial
      · rename_i hp
        intro k hk
        rw [hpc] at hk
        rcases hk with hk | ⟨_, hk⟩ <;> cases hk
        exact hp
    · rename_i i hpc
      split
      · trivial
      · rename_i hp
        intro k hk
        rw [hpc] at hk
        rcases hk with hk | ⟨_, hk⟩ <;> cases hk
        exact hp
    · rename_i h1 h2
      intro k hk
      rcases hk with hk | ⟨b, hk⟩
      · exact absurd hk (h2 k)
      · exact absurd hk (h1 k b)

variable {env st₀}

/-- The main thread is scheduled, or it would notify a thread that does not wait yet, which is scheduled instead. -/
theorem pick_last {n : Nat} (hn : n % (st₀.size + 1) = st₀.size) (st : State) :
    pick st₀ n st = .master ⟨false, true, newId st⟩ ∨
      ∃ i, (st.pc = .shutNotify i ∨ ∃ b, st.pc = .notify i b) ∧ (st.thr i).phase = .wait ∧ pick st₀ n st = .thread i := by
  unfold pick
  rw [if_neg (by omega)]
  simp only
  split
  · rename_i i b hpc
    split
    · rename_i hp
      exact Or.inr ⟨i, Or.inr ⟨b, hpc⟩, hp, rfl⟩
    · exact Or.inl rfl
  · rename_i i hpc
    split
    · rename_i hp
      exact Or.inr ⟨i, Or.inl hpc, hp, rfl⟩
    · exact Or.inl rfl
  · exact Or.inl rfl

theorem sched_reachable (n : Nat) : Reachable env st₀ (sched env st₀ n) := by
  induction n with
  | zero => exact .refl
  | succ n ih =>
    unfold sched
    split
    · rename_i st h
      exact .step _ ih h
    · exact ih

theorem sched_next (hsafe : ∀ st, Reachable env st₀ st → ∀ l, ∃ o, step env st l = .ok o) (n : Nat) :
    step env (sched env st₀ n) (pick st₀ n (sched env st₀ n)) = .ok (some (sched env st₀ (n + 1))) ∨
    (step env (sched env st₀ n) (pick st₀ n (sched env st₀ n)) = .ok none ∧
      sched env st₀ (n + 1) = sched env st₀ n) := by
  obtain ⟨o, ho⟩ := hsafe _ (sched_reachable n) (pick st₀ n (sched env st₀ n))
  cases o with
  | none =>
    right
    refine ⟨ho, ?_⟩
    rw [sched, ho]
  | some st =>
    left
    rw [sched, ho]

end

section

variable {env : Env} {kinds : List Bool} {ss : List Sect} {fs : FileSystem} {st : State}

theorem phase_beyond (hk : kinds.length < 4294967296) (hd : ∀ s ∈ ss, s.blocks.Nodup)
    (hr : Reachable env (initial kinds fs (program ss)) st) {i : Nat} (hi : kinds.length ≤ i) :
    (st.thr i).phase = .check := by
  induction hr with
  | refl => rfl
  | @step st st' l hr hs ih =>
    have h := (Good.init env hk fs hd).reachable hr
    have ht := step_trans hs
    cases hl : l.actor with
    | some k =>
      rw [hl] at ht
      have hk : k < st.size := by
        cases ht <;> assumption
      rw [h.size] at hk
      rw [(trans_other ht rfl (by omega)).1]
      exact ih
    | none =>
      rw [hl] at ht
      rw [master_phase ht (by rw [ih]; simp), ih]

theorem doze_step {i : Nat} (hi : i < st.size) (hp : (st.thr i).phase = .wait) :
    step env st (.thread i) = .ok (some (st.setThread i { st.thr i with phase := .sleep })) := by
  simp only [step, if_pos hi, threadStep, hp]

/-- There is an execution in which all threads are scheduled, no notification is lost, and the file names and
directories that are needed can be made. -/
theorem exists_exec (hk : kinds.length < 4294967296) (hd : ∀ s ∈ ss, s.blocks.Nodup)
    (hsafe : ∀ st, Reachable env (initial kinds fs (program ss)) st → ∀ l, ∃ o, step env st l = .ok o) :
    ∃ σ ls, Exec env (initial kinds fs (program ss)) σ ls ∧ (∀ n, Alert (σ n) (ls n)) ∧ Renewing σ ls ∧ Creating ls := by
  generalize hst : initial kinds fs (program ss) = st₀ at hsafe
  have hsize : st₀.size = kinds.length := by rw [← hst]; rfl
  let σ := sched env st₀
  let ls := fun n => pick st₀ n (σ n)
  have hnext := sched_next hsafe
  have hreach : ∀ n, Reachable env (initial kinds fs (program ss)) (σ n) := fun n => by
    rw [hst]
    exact sched_reachable n
  have hgood : ∀ n, Good env kinds ss (σ n) := fun n => (Good.init env hk fs hd).reachable (hreach n)
  have hslot : ∀ n k, n % (st₀.size + 1) = st₀.size → k < st₀.size → ls (n + 1 + k) = .thread k := by
    intro n k hn hk
    have : (n + 1 + k) % (st₀.size + 1) = k := by
      rw [Nat.add_assoc, Nat.add_mod, hn, Nat.mod_eq_of_lt (a := 1 + k) (by omega),
        show st₀.size + (1 + k) = k + (st₀.size + 1) by omega, Nat.add_mod_right, Nat.mod_eq_of_lt (by omega)]
    show pick _ _ _ = _
    unfold pick
    rw [this, if_pos hk]
  have hmaster : ∀ n, ∃ m, n ≤ m ∧ ls m = .master ⟨false, true, newId (σ m)⟩ := by
    intro n
    have hm : (n + st₀.size - n % (st₀.size + 1)) % (st₀.size + 1) = st₀.size := by
      have h1 := Nat.mod_add_div n (st₀.size + 1)
      have h2 : n + st₀.size - n % (st₀.size + 1) = st₀.size + (st₀.size + 1) * (n / (st₀.size + 1)) := by omega
      rw [h2, Nat.add_mul_mod_self_left, Nat.mod_eq_of_lt (by omega)]
    have hmod := Nat.mod_lt n (show 0 < st₀.size + 1 by omega)
    generalize hm' : n + st₀.size - n % (st₀.size + 1) = m at hm
    have hle : n ≤ m := by omega
    rcases pick_last hm (σ m) with h1 | ⟨i, h1, h2, h3⟩
    · exact ⟨m, hle, h1⟩
    · have hi : i < (σ m).size := by
        rw [(hgood m).size]
        by_contra hi
        have := phase_beyond hk hd (hreach m) (Nat.le_of_not_lt hi)
        rw [h2] at this
        cases this
      have hs : (σ (m + 1)).pc = (σ m).pc ∧ ((σ (m + 1)).thr i).phase = .sleep := by
        have h4 : step env (σ m) (pick st₀ m (σ m)) = .ok (some (σ (m + 1))) ∨ _ := hnext m
        rw [h3] at h4
        rcases h4 with h4 | ⟨h4, _⟩
        · refine ⟨(thread_pc (step_trans h4)).1, ?_⟩
          rw [doze_step hi h2] at h4
          rw [← Option.some.inj (Res.ok.inj h4), setThread_self]
        · rw [doze_step hi h2] at h4
          cases h4
      have hk' : ∀ k, k ≤ st₀.size → (σ (m + 1 + k)).pc = (σ m).pc ∧ ((σ (m + 1 + k)).thr i).phase = .sleep := by
        intro k
        induction k with
        | zero => exact fun _ => hs
        | succ k ih =>
          intro hk
          obtain ⟨h5, h6⟩ := ih (by omega)
          have h4 : step env (σ (m + 1 + k)) (ls (m + 1 + k)) = .ok (some (σ (m + 1 + k + 1))) ∨ _ := hnext (m + 1 + k)
          rw [hslot m k hm (by omega)] at h4
          rcases h4 with h4 | ⟨_, h4⟩
          · have ht := step_trans h4
            refine ⟨(thread_pc ht).1.trans h5, ?_⟩
            by_cases hik : i = k
            · subst hik
              simp only [step, threadStep, h6] at h4
              split at h4 <;> cases h4
            · show ((σ (m + 1 + k + 1)).thr i).phase = .sleep
              rw [(trans_other ht rfl hik).1, h6]
          · show (σ (m + 1 + k + 1)).pc = (σ m).pc ∧ ((σ (m + 1 + k + 1)).thr i).phase = .sleep
            rw [show σ (m + 1 + k + 1) = σ (m + 1 + k) from h4]
            exact ⟨h5, h6⟩
      obtain ⟨h5, h6⟩ := hk' st₀.size le_rfl
      have hm2 : (m + 1 + st₀.size) % (st₀.size + 1) = st₀.size := by
        rw [Nat.add_assoc, Nat.add_comm 1, Nat.add_mod_right, hm]
      rcases pick_last hm2 (σ (m + 1 + st₀.size)) with h7 | ⟨i', h7, h8, _⟩
      · exact ⟨_, by omega, h7⟩
      · exfalso
        rw [h5] at h7
        have : i' = i := by
          rcases h1 with h1 | ⟨b, h1⟩
          · rw [h1] at h7
            rcases h7 with h7 | ⟨b', h7⟩ <;> cases h7
            rfl
          · rw [h1] at h7
            rcases h7 with h7 | ⟨b', h7⟩ <;> cases h7
            rfl
        rw [this, h6] at h8
        cases h8
  refine ⟨σ, ls, ⟨rfl, hnext, fun i hi n => ?_, fun n => ?_⟩, fun n => pick_alert st₀ n _, fun n => ?_, fun n ch h => ?_⟩
  · refine ⟨(st₀.size + 1) * n + i, by nlinarith, ?_⟩
    have : ((st₀.size + 1) * n + i) % (st₀.size + 1) = i := by
      rw [Nat.mul_add_mod, Nat.mod_eq_of_lt (by omega)]
    show pick _ _ _ = _
    unfold pick
    rw [this, if_pos hi]
  · obtain ⟨m, h1, h2⟩ := hmaster n
    exact ⟨m, h1, _, h2⟩
  · obtain ⟨m, h1, h2⟩ := hmaster n
    exact ⟨m, h1, _, h2, fun k f d _ h4 _ h5 => newId_fresh h4 h5⟩
  · rw [pick_create st₀ h]

end

end Run
end Hycu
