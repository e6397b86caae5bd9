import Verif.Lemmas.PoolLog

/-!
How many blocks are in work or finished and not yet acknowledged.
-/

namespace Hycu.Run

theorem ThreadPool.assign_lists {oc : Nat → Bool} {p : ThreadPool} {b : Block} {o : Bool} {r : ThreadPool × Nat}
    (h : p.assign oc b o = .ok r) : r.1.ready = p.ready ∧ r.1.finished = p.finished := by
  unfold ThreadPool.assign at h
  split at h
  · cases h
  · split at h
    · cases h; exact ⟨rfl, rfl⟩
    · cases h

/-- Blocks that have been finished and are not acknowledged belong to threads that have reported since, apart from one for
each thread; and to those only, between the two steps of filling the queues. -/
structure Pace (st : State) : Prop where
  always : st.pool.finished.length ≤ st.pool.ready.length + st.size
  window : st.pc = .fillReady → st.pool.finished.length ≤ st.pool.ready.length

theorem Inv.ready_le {st : State} (h : Inv st) : st.pool.ready.length + st.pool.busy.length ≤ st.size := by
  have := h.book.perm.length_eq
  simp only [List.length_append, List.length_map, List.length_range] at this
  omega

theorem Pace.trans {env : Env} {a : Option Nat} {st st' : State} (h : Pace st) (hi : Inv st) (ht : Trans env st a st') :
    Pace st' := by
  have hr := hi.ready_le
  have h1 := h.always
  have h2 := h.window
  have keep : ∀ {u : State}, u.pool = st.pool → u.size = st.size → (u.pc = st.pc ∨ u.pc ≠ .fillReady) → Pace u := by
    intro u e1 e2 e3
    refine ⟨by rw [e1, e2]; exact h1, fun hp => ?_⟩
    rw [e1]
    rcases e3 with e3 | e3
    · exact h2 (e3 ▸ hp)
    · exact absurd hp e3
  have push : ∀ {u : State}, u.pool.ready = st.pool.ready → u.pool.finished = st.pool.finished → u.size = st.size →
      u.pc ≠ .fillReady → Pace u := by
    intro u e1 e2 e3 e4
    exact ⟨by rw [e1, e2, e3]; exact h1, fun hp => absurd hp e4⟩
  cases ht with
  | report i hi j hp p hf =>
    unfold ThreadPool.finishedBlock at hf
    split at hf
    · cases hf
    · cases hf
      refine ⟨?_, fun hp => ?_⟩
      · show (st.pool.finished ++ _).length ≤ (st.pool.ready ++ _).length + st.size
        simp only [List.length_append, List.length_singleton]
        omega
      · have := h2 hp
        show (st.pool.finished ++ _).length ≤ (st.pool.ready ++ _).length
        simp only [List.length_append, List.length_singleton]
        omega
  | mainConfig hpc c rest ht create v hv => exact keep rfl rfl (Or.inr (by simp only; split <;> simp))
  | mainAssign hpc b rest ht now => exact keep rfl rfl (Or.inr (by simp only; split <;> simp))
  | wait k hpc a ha => exact ⟨Nat.zero_le _, fun _ => Nat.zero_le _⟩
  | saveNone k => exact keep rfl rfl (Or.inr (by cases k <;> simp [afterSave]))
  | saveLost k => exact keep rfl rfl (Or.inr (by cases k <;> simp [afterSave]))
  | writeEnd k => exact keep rfl rfl (Or.inr (by cases k <;> simp [afterSave]))
  | fillFinished hpc a ha => exact ⟨Nat.zero_le _, fun _ => Nat.zero_le _⟩
  | fillReady hpc =>
    have := h2 hpc
    refine ⟨?_, fun hp => ?_⟩
    · show st.pool.finished.length ≤ 0 + st.size
      omega
    · have hp : (if _ then Pc.fillFinished else Pc.take) = Pc.fillReady := hp
      split at hp <;> cases hp
  | takeOpencl hpc b rest ht ho p hp =>
    obtain ⟨e1, e2⟩ := ThreadPool.assign_lists hp
    exact push e1 e2 rfl (by simp [pushJob])
  | takeCpu hpc b rest ht ho p hp =>
    obtain ⟨e1, e2⟩ := ThreadPool.assign_lists hp
    exact push e1 e2 rfl (by simp [pushJob])
  | notify i b hpc => exact keep (wake_pool st i) (wake_size st i) (Or.inr (by simp))
  | shutNotify i hpc => exact keep (wake_pool st i) (wake_size st i) (Or.inr (by simp))
  | checkDone => exact keep rfl rfl (Or.inl rfl)
  | checkWait => exact keep rfl rfl (Or.inl rfl)
  | checkPop => exact keep rfl rfl (Or.inl rfl)
  | doze => exact keep rfl rfl (Or.inl rfl)
  | pop => exact keep rfl rfl (Or.inl rfl)
  | compute => exact keep rfl rfl (Or.inl rfl)
  | spurious => exact keep rfl rfl (Or.inl rfl)
  | _ => exact keep rfl rfl (Or.inr (by simp [updateStep]))

theorem Pace.initial (kinds : List Bool) (fs : FileSystem) (todo : List Cmd) : Pace (Run.initial kinds fs todo) :=
  ⟨Nat.zero_le _, fun _ => Nat.zero_le _⟩

theorem Pace.reachable {env : Env} {kinds : List Bool} {ss : List Sect} {fs : FileSystem} {st : State}
    (hk : kinds.length < 4294967296) (hd : ∀ s ∈ ss, s.blocks.Nodup)
    (h : Reachable env (Run.initial kinds fs (program ss)) st) : Pace st := by
  induction h with
  | refl => exact .initial ..
  | step l hr hs ih => exact ih.trans ((Good.init env hk fs hd).reachable hr).inv (step_trans hs)

end Hycu.Run
