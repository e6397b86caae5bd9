import Verif.Lemmas.RunData
import Verif.Lemmas.PoolLive

/-!
Runs with one process never fail.
-/

namespace Hycu

/-- Counts of a single entry are bounded by the total. -/
theorem le_total {l : List (Key × Int)} (h : ∀ e ∈ l, 0 ≤ e.2) {e : Key × Int} (he : e ∈ l) : e.2 ≤ total l e.1 := by
  obtain ⟨l1, l2, rfl⟩ := List.append_of_mem he
  have h1 := Run.total_nonneg (l := l1) (fun x hx => h x (by simp [hx])) e.1
  have h2 := Run.total_nonneg (l := l2) (fun x hx => h x (by simp [hx])) e.1
  rw [total_append, show e :: l2 = [e] ++ l2 from rfl, total_append]
  have h3 : total [e] e.1 = e.2 := by simp [total]
  omega

/-- Counts of the results can be copied. -/
theorem Run.Tasks.entry_small {env : Run.Env} {ss : List Run.Sect} {result : ConfigNode → Block → StoreMap}
    (hi : Run.Tasks env ss result) {s : Run.Sect} (hs : s ∈ ss) {b : Block} (hb : b ∈ s.blocks) :
    ∀ e ∈ result s.cfg b, Small e.2 := by
  intro e he
  have h1 := hi.counts s hs b hb e he
  have h2 := hi.small s hs e.1
  have h3 := le_total (l := s.blocks.flatMap (result s.cfg)) (fun x hx => by
    obtain ⟨b', hb', hx'⟩ := List.mem_flatMap.1 hx
    exact hi.counts s hs b' hb' x hx') (List.mem_flatMap.2 ⟨b, hb, he⟩)
  unfold Small at h2 ⊢
  omega

namespace Run

section

variable {L : Layout} {P : Course} {env : Env} {result : ConfigNode → Block → StoreMap} {ss : List Sect} {st : State} {kinds : List Bool}

/-- A block that is being computed belongs to the current section, with which it was assigned. -/
theorem DataInvIn.job (h : DataInvIn P result ss st) (hg : Good env kinds ss st) {i : Nat} (hlt : i < st.size) {j : Job}
    (hp : (st.thr i).phase = .compute j) :
    ∃ s ∈ ss, j.block ∈ s.blocks ∧ (∃ tb, j.tables = some tb ∧ tb.cfg = s.cfg) ∧
      Match (result s.cfg) st.static.record st.static.store := by
  have hj : j ∈ (st.thr i).jobs := by
    unfold Thread.jobs
    rw [hp]
    exact List.mem_cons_self
  obtain ⟨hc1, hc2⟩ := hg.inv.jobTables i hlt j hj
  rcases h.sects with ⟨a1, a2, a3⟩ | ⟨pre, s, post, done, rs, tb, ha, a1, d, ps, w, ps₀, sv, hc⟩
  · exact absurd a2 hc2
  · have ht : j.tables = some tb := hc1.trans ha.current
    have hs : s ∈ ss := by rw [ha.sections]; simp
    have hasg : (i, j) ∈ assignedJobs st.log := by
      have h1 := hg.count i j
      rw [hp] at h1
      have : 0 < (assignedJobs st.log).count (i, j) := by
        rw [h1.1, h1.2.1]
        simp [Phase.computing]
      exact List.count_pos_iff.1 this
    have h1 : j.block ∈ blocksOf tb (assignedJobs st.log) :=
      List.mem_map.2 ⟨(i, j), List.mem_filter.2 ⟨hasg, by simpa using ht⟩, rfl⟩
    refine ⟨s, hs, ?_, ⟨tb, ht, ha.cfg⟩, hc.static⟩
    rw [ha.blocks]
    exact List.mem_append_left _ (List.mem_filter.1 (hc.asg.mem_iff.1 h1)).1

/-- The records of the next section can be read. -/
theorem DataInvIn.readable (h : DataInvIn P result ss st) (hP : P.Keeps result ss) (hw : st.pc.writes = [])
    {c : ConfigNode} {rest : List Cmd} (ht : st.todo = .config c :: rest) {d : Dir} (hd : st.fs c.resultPath = some d) :
    ∃ (L : Layout) (s : Sect) (ps : List (OSet Block × StoreMap)), L.holds s d ps := by
  rcases h.sects with ⟨h1, _, hk⟩ | ⟨pre, s, post, done, rs, tb, ha, a1, d₀, ps, w, ps₀, sv, hc⟩
  · rw [ht] at h1
    cases ss with
    | nil => cases h1
    | cons s ss =>
      cases h1
      have h2 := hk s.cfg.resultPath
      rw [hd] at h2
      obtain ⟨ps, _, h3, _⟩ := hP.opens (pre := []) rfl h2
      exact ⟨_, _, ps, h3⟩
  · have h1 := ha.todo
    rw [ht] at h1
    cases rs with
    | cons b rs => cases h1
    | nil =>
      cases post with
      | nil => cases h1
      | cons s' post =>
        cases h1
        by_cases hp : s'.cfg.resultPath = s.cfg.resultPath
        · have hh := hc.holding
          have h2 := hc.dir
          rw [← hp, hd] at h2
          cases h2
          rw [hw] at hh
          exact ⟨_, _, _, hh.done.1⟩
        · have h2 := hP.other ha.sections hp (a1 _ hp)
          rw [hd] at h2
          obtain ⟨ps, _, h3, _⟩ := hP.opens (post := post) (by rw [ha.sections, List.append_assoc]; rfl) h2
          exact ⟨_, _, ps, h3⟩

/-- No step fails. -/
theorem safe_step (h : DataInvIn P result ss st) (hP : P.Keeps result ss) (hi : Tasks env ss result)
    (hg : Good env kinds ss st) (l : Label) : ∃ o, step env st l = .ok o := by
  rcases hg.inv.step_ok env l with ho | ⟨i, j, rfl, hlt, hp⟩ | ⟨ch, rfl, hpc⟩
  · exact ho
  · simp only [step, if_pos hlt]
    obtain ⟨s, hs, hb, ⟨tb, htb, hc⟩, hm⟩ := h.job hg hlt hp
    obtain ⟨m', h1, _⟩ := Store.addEntries_tally _ hm.tally (hi.entry_small hs hb)
    unfold threadStep
    simp only [hp]
    rw [htb]
    refine ⟨some ?_, ?_⟩
    rotate_left
    · simp only [hc, hi.compute s hs _ hb, Store.flushToStatic]
      show (do
        let r ← (do
          let m ← List.foldlM _ _ (result s.cfg j.block)
          pure _)
        _ : Res _) = _
      rw [h1]
      rfl
  · simp only [step, masterStep, hpc]
    split
    · rename_i c rest ht
      refine map_ok ?_
      unfold newStoreStep
      split
      · exact ⟨_, rfl⟩
      · rename_i d hd
        obtain ⟨L, s, ps, hps⟩ := h.readable hP (by rw [hpc]; rfl) ht hd
        obtain ⟨r, hr, _⟩ := L.initial hps
        rw [hr]
        exact ⟨_, rfl⟩
    · exact ⟨_, rfl⟩

theorem step_ok (h : DataInvIn (L.course result ss) result ss st) (hi : Input env ss result) (hg : Good env kinds ss st)
    (l : Label) : ∃ o, step env st l = .ok o := safe_step h (L.keeps hi) hi.toTasks hg l

end

end Run
end Hycu
