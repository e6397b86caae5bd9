import Verif.Lemmas.Ahead
import Verif.Lemmas.MpiSched

/-!
Runs that stop at a configuration which is not accepted.
-/

namespace Hycu

namespace Run

variable {L : Layout} {P : Course} {env : Env} {result : ConfigNode → Block → StoreMap} {ss : List Sect} {st st' : State} {kinds : List Bool}
  {fs₀ : FileSystem}

/-- The configurations to come are those of the last sections. -/
theorem DataInvIn.configs (h : DataInvIn P result ss st) :
    (configsOf st.todo).Sublist (ss.map fun s => s.cfg) := by
  rcases h.sects with ⟨a1, _⟩ | ⟨pre, s, post, done, rs, tb, ha, _⟩
  · rw [a1, configsOf_program]
  · rw [ha.todo, configsOf_append, configsOf_assign, configsOf_program, ha.sections, List.map_append, List.map_cons]
    exact ((List.sublist_cons_self _ _).trans (List.sublist_append_right _ _))

theorem configs_nodup (hi : Input env ss result) {cs : List ConfigNode} (h : cs.Sublist (ss.map fun s => s.cfg)) :
    (cs.map fun c => c.resultPath).Nodup := by
  have h1 := h.map fun c => c.resultPath
  rw [List.map_map] at h1
  exact h1.nodup hi.paths

theorem Ahead.trans {a : Option Nat} (h : Ahead fs₀ (ss.map fun s => s.cfg) st.fs st.todo st.pc.leaving st.pc.ver)
    (hd : DataInvIn P result ss st) (hi : Input env ss result) (hg : Good env kinds ss st) (ht : Trans env st a st') :
    Ahead fs₀ (ss.map fun s => s.cfg) st'.fs st'.todo st'.pc.leaving st'.pc.ver := by
  cases ht with
  | mainEnd hpc ht => exact ⟨h.later, h.head, fun _ => Or.inl ht, (by intro h; cases h), h.passed⟩
  | mainConfig hpc c rest ht create v hv =>
    have hn := configs_nodup hi hd.configs
    rw [ht] at h hn
    have h1 := h.verify hv hn
    show Ahead fs₀ _ v.1 st.todo _ _
    rw [ht]
    cases hv2 : v.2 <;> rw [hv2] at h1 <;> exact h1.keep (fun h => h) (fun h => h)
  | mainAssign hpc b rest ht now => cases now <;> exact h.keep (by intro h; cases h) (by intro h; cases h)
  | wait k hpc a ha =>
    rw [hpc] at h
    show Ahead fs₀ _ st.fs st.todo (if a = [] then Pc.save k else .wait k).leaving
      (if a = [] then Pc.save k else .wait k).ver
    split <;> cases k <;> exact h.keep (fun h => h) (fun h => h)
  | saveNone k hpc hf => rw [hpc] at h; cases k <;> exact h.keep (fun h => h) (fun h => h)
  | saveLost k hpc f hf hh => rw [hpc] at h; cases k <;> exact h.keep (fun h => h) (fun h => h)
  | saveStart k hpc f hf hv d hd id hid => rw [hpc] at h; cases k <;> exact h.keep (fun h => h) (fun h => h)
  | writeEnd k hpc => rw [hpc] at h; cases k <;> exact h.keep (fun h => h) (fun h => h)
  | writeLost k n c ws hpc hh => rw [hpc] at h; cases k <;> exact h.keep (fun h => h) (fun h => h)
  | write k n c ws hpc f hf d hdir =>
    obtain ⟨pre, s, post, done, rs, tb, ha, _, _, _, _, _, _, _, hcfg, _⟩ := hd.current hg hf (by rw [hpc]; simp)
    have hne := path_ne hi ha.sections
    refine h.write (d.write n c) (fun c' hc' => ?_) (fun hl => ?_) fun hv => ?_
    · rw [ha.todo, configsOf_append, configsOf_assign, configsOf_program] at hc'
      obtain ⟨s', hs', rfl⟩ := List.mem_map.1 hc'
      rw [hcfg]
      exact hne s' (Or.inr hs')
    · rw [hpc]
      cases k <;> exact hl
    · rw [hpc]
      cases k <;> exact hv
  | newStoreInvalid hpc => rw [hpc] at h; exact h.keep (fun h => h) (fun h => h)
  | newStore hpc => rw [hpc] at h; exact h.keep (fun h => h) (fun h => h)
  | update hpc c rest ht => rw [hpc, ht] at h; exact h.config
  | skip hpc b rest ht f hf hc => rw [hpc, ht] at h; exact h.assign
  | takeOpencl hpc b rest ht ho p hp => rw [hpc, ht] at h; exact h.assign
  | takeCpu hpc b rest ht ho p hp => rw [hpc, ht] at h; exact h.assign
  | fillReady hpc =>
    show Ahead fs₀ _ st.fs st.todo (fillReadyStep st).pc.leaving (fillReadyStep st).pc.ver
    simp only [fillReadyStep]
    split <;> exact h.keep (by intro h; cases h) (by intro h; cases h)
  | notify i b hpc =>
    show Ahead fs₀ _ (wake st i).fs (wake st i).todo _ _
    rw [wake_fs, wake_todo]
    exact h.keep (by intro h; cases h) (by intro h; cases h)
  | shutNotify i hpc =>
    show Ahead fs₀ _ (wake st i).fs (wake st i).todo _ _
    rw [wake_fs, wake_todo]
    exact h.keep (by rw [hpc]; exact fun h => h) (by intro h; cases h)
  | shutdown i hpc hi => rw [hpc] at h; exact h.keep (fun h => h) (fun h => h)
  | shutdownEnd i hpc hi => rw [hpc] at h; exact h.keep (fun h => h) (fun h => h)
  | join i hpc hp => rw [hpc] at h; exact h.keep (fun h => h) (fun h => h)
  | fill hpc => exact h.keep (by intro h; cases h) (by intro h; cases h)
  | noFill hpc => exact h.keep (by intro h; cases h) (by intro h; cases h)
  | fillFinished hpc => exact h.keep (by intro h; cases h) (by intro h; cases h)
  | insert b hpc => exact h.keep (by intro h; cases h) (by intro h; cases h)
  | _ => exact h.keep (fun h => h) (fun h => h)

theorem Ahead.reachable (hi : Input env ss result) (hk : kinds.length < 4294967296) (h : ∀ s ∈ ss, KeptIn L result fs₀ s)
    (hr : Reachable env (initial kinds fs₀ (program ss)) st) :
    Ahead fs₀ (ss.map fun s => s.cfg) st.fs st.todo st.pc.leaving st.pc.ver := by
  induction hr with
  | refl => exact .start fs₀ ss
  | step l hr hs ih =>
    exact ih.trans (DataInvIn.reachable hi hk h hr) hi ((Good.init env hk fs₀ hi.blocks).reachable hr) (step_trans hs)

end Run

namespace Mpi

open Run (Tables Job FileStoreObj Cmd Cont Env Sect program Nonzero Input Course Layout CompleteIn KeptIn configsOf configsOf_append
  configsOf_assign configsOf_program configs_nodup path_ne)

variable {L : Layout} {P : Course} {env : Env} {result : ConfigNode → Block → StoreMap} {ss : List Sect} {st st' : State}
  {kinds : List (List Bool)} {fs₀ : FileSystem}

theorem DataInvIn.configs (h : DataInvIn P result ss st) : (configsOf st.todo).Sublist (ss.map fun s => s.cfg) := by
  rcases h.sects with hu | ⟨pre, s, post, done, rs, ha, _⟩
  · rw [hu.todo, configsOf_program]
  · rw [ha.todo, configsOf_append, configsOf_assign, configsOf_program, ha.sections, List.map_append, List.map_cons]
    exact ((List.sublist_cons_self _ _).trans (List.sublist_append_right _ _))

theorem ahead_master (h : Run.Ahead fs₀ (ss.map fun s => s.cfg) st.fs st.todo st.pc.leaving st.pc.ver)
    (hd : DataInvIn P result ss st) (hi : Input env ss result) (ht : MStep st st') :
    Run.Ahead fs₀ (ss.map fun s => s.cfg) st'.fs st'.todo st'.pc.leaving st'.pc.ver := by
  cases ht with
  | mainEnd hpc ht => exact ⟨h.later, h.head, fun _ => Or.inl ht, (by intro h; cases h), h.passed⟩
  | mainConfig hpc c rest ht create v hv =>
    have hn := configs_nodup hi hd.configs
    rw [ht] at h hn
    have h1 := h.verify hv hn
    show Run.Ahead fs₀ _ v.1 st.todo _ _
    rw [ht]
    cases hv2 : v.2 <;> rw [hv2] at h1 <;> exact h1.keep (fun h => h) (fun h => h)
  | mainAssign hpc b rest ht now => cases now <;> exact h.keep (by intro h; cases h) (by intro h; cases h)
  | flush c hpc a ha => rw [hpc] at h; rcases c with k | _ <;> try cases k
                        all_goals exact h.keep (fun h => h) (fun h => h)
  | flushSend ix c hpc hi => rw [hpc] at h; rcases c with k | _ <;> try cases k
                             all_goals exact h.keep (fun h => h) (fun h => h)
  | flushEnd ix c hpc hi => rw [hpc] at h; rcases c with k | _ <;> try cases k
                            all_goals exact h.keep (fun h => h) (fun h => h)
  | flushRecv ix c hpc bs rest ho a ha => rw [hpc] at h; rcases c with k | _ <;> try cases k
                                          all_goals exact h.keep (fun h => h) (fun h => h)
  | waited k hpc hh => rw [hpc] at h; cases k <;> exact h.keep (fun h => h) (fun h => h)
  | waitOn k hpc => rw [hpc] at h; cases k <;> exact h.keep (fun h => h) (fun h => h)
  | saveNone k hpc hf => rw [hpc] at h; cases k <;> exact h.keep (fun h => h) (fun h => h)
  | saveLost k hpc f hf hh => rw [hpc] at h; cases k <;> exact h.keep (fun h => h) (fun h => h)
  | saveStart k hpc f hf hv d hd id hid => rw [hpc] at h; cases k <;> exact h.keep (fun h => h) (fun h => h)
  | saveSend ix k hpc hi => rw [hpc] at h; cases k <;> exact h.keep (fun h => h) (fun h => h)
  | saveEnd ix k hpc hi => rw [hpc] at h; cases k <;> exact h.keep (fun h => h) (fun h => h)
  | recvLost ix k hpc s rest ho f hf hh => rw [hpc] at h; cases k <;> exact h.keep (fun h => h) (fun h => h)
  | recvStart ix k hpc s rest ho f hf hv d hd id hid =>
    rw [hpc] at h; cases k <;> exact h.keep (fun h => h) (fun h => h)
  | writeEnd ix k hpc => rw [hpc] at h; cases k <;> exact h.keep (fun h => h) (fun h => h)
  | writeLost ix k n c ws hpc hh => rw [hpc] at h; cases k <;> exact h.keep (fun h => h) (fun h => h)
  | write ix k n c ws hpc f hf d hdir =>
    obtain ⟨pre, s, post, done, rs, ha, _, _, _, _, _, _, _, _, hcfg, _⟩ := hd.current hf (by rw [hpc]; rfl)
    have hne := path_ne hi ha.sections
    refine h.write (d.write n c) (fun c' hc' => ?_) (fun hl => ?_) fun hv => ?_
    · rw [ha.todo, configsOf_append, configsOf_assign, configsOf_program] at hc'
      obtain ⟨s', hs', rfl⟩ := List.mem_map.1 hc'
      rw [hcfg]
      exact hne s' (Or.inr hs')
    · rw [hpc]
      cases k <;> exact hl
    · rw [hpc]
      cases k <;> exact hv
  | newStoreInvalid hpc => rw [hpc] at h; exact h.keep (fun h => h) (fun h => h)
  | newStore hpc => rw [hpc] at h; exact h.keep (fun h => h) (fun h => h)
  | update hpc c rest ht => rw [hpc] at h; exact h.keep (fun h => h) (fun h => h)
  | configSend ix hpc c rest ht hi => rw [hpc] at h; exact h.keep (fun h => h) (fun h => h)
  | configEnd ix hpc c rest ht hi => rw [hpc, ht] at h; exact h.config
  | skip hpc b rest ht f hf hc => rw [hpc, ht] at h; exact h.assign
  | takeLocal hpc b rest ht o cq oq hq r hr => rw [hpc, ht] at h; exact h.assign
  | takeRemote hpc b rest ht o ix hix cq oq hq => rw [hpc, ht] at h; exact h.assign
  | stopSend ix hpc hi => rw [hpc] at h; exact h.keep (fun h => h) (fun h => h)
  | stopEnd ix hpc hi => rw [hpc] at h; exact h.keep (fun h => h) (fun h => h)
  | shutdown i hpc hi => rw [hpc] at h; exact h.keep (fun h => h) (fun h => h)
  | shutdownEnd i hpc hi => rw [hpc] at h; exact h.keep (fun h => h) (fun h => h)
  | shutNotify i hpc => rw [hpc] at h; exact h.keep (fun h => h) (fun h => h)
  | join i hpc hp => rw [hpc] at h; exact h.keep (fun h => h) (fun h => h)
  | _ => exact h.keep (by intro h; cases h) (by intro h; cases h)

theorem ahead_reachable (hi : Input env ss result) (h0 : kinds ≠ []) (hk : ∀ k ∈ kinds, k.length < 4294967296)
    (h : ∀ s ∈ ss, KeptIn L result fs₀ s) (hr : Reachable env (initial kinds fs₀ (program ss)) st) :
    Run.Ahead fs₀ (ss.map fun s => s.cfg) st.fs st.todo st.pc.leaving st.pc.ver := by
  induction hr with
  | refl => exact .start fs₀ ss
  | @step st st' l hr hs ih =>
    by_cases hl : ∃ ch, l = .master ch
    · obtain ⟨ch, rfl⟩ := hl
      exact ahead_master ih (DataInvIn.reachable hi h0 hk h hr) hi (masterStep_cases hs)
    · obtain ⟨h1, h2, h3, _⟩ := step_pc (fun ch hch => hl ⟨ch, hch⟩) hs
      rw [h1, h2, h3]
      exact ih

end Mpi
end Hycu
