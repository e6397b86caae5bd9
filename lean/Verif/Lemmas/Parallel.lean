import Verif.Lemmas.ParallelTrans

/-!
Several runs: every state that can be reached has the invariant.
-/

namespace Hycu
namespace Parallel

open Run (Cmd Cont Env FileStoreObj Input Sect program Open since KeptIn CompleteIn recorded Plain)

namespace Prog

theorem verifying_head {s : Prog} {c : ConfigNode} (h : s.verifying = some c) :
    (∃ rest, s.todo = .config c :: rest) ∧ s.stage = 0 := by
  cases s with
  | threaded st =>
    unfold verifying at h
    dsimp only at h
    split at h
    · rename_i c' rest hpc htd
      split at h
      · cases h
        exact ⟨⟨_, htd⟩, by show pcStage st.pc = 0; rw [hpc]; rfl⟩
      · cases h
    · cases h
  | mpi st =>
    unfold verifying at h
    dsimp only at h
    split at h
    · rename_i c' rest hpc htd
      split at h
      · cases h
        exact ⟨⟨_, htd⟩, by show mpiStage st.pc = 0; rw [hpc]; rfl⟩
      · cases h
    · cases h

theorem refused_facts (s : Prog) : s.refused.todo = s.todo ∧ s.refused.stage = 2 ∧ s.refused.target = s.target := by
  cases s <;> exact ⟨rfl, rfl, rfl⟩

/-- The run would have come to the same state if the directory could not be made. -/
theorem refused_step {env : Env} {s : Prog} {c : ConfigNode} (h : s.verifying = some c) {F : FileSystem}
    (hF : F c.resultPath = none) : ∃ l, (s.withFs F).step env l = .ok (some (s.refused.withFs F)) := by
  cases s with
  | threaded st =>
    refine ⟨.threaded (.master ⟨false, false, 0⟩), ?_⟩
    unfold verifying at h
    dsimp only at h
    split at h
    · rename_i c' rest hpc htd
      split at h
      · rename_i hz
        cases h
        show ((Run.masterStep { st with fs := F } ⟨false, false, 0⟩).bind _) = _
        obtain ⟨a1, a2, a3, a4, a5, a6, a7, a8, a9, a10, a11, a12⟩ := st
        dsimp only at hpc htd
        subst hpc htd
        simp only [Run.masterStep, Run.mainStep, ConfigNode.verify, if_pos hz, hF]
        rfl
      · cases h
    · cases h
  | mpi st =>
    refine ⟨.mpi (.master ⟨false, false, 0⟩), ?_⟩
    unfold verifying at h
    dsimp only at h
    split at h
    · rename_i c' rest hpc htd
      split at h
      · rename_i hz
        cases h
        show ((Mpi.masterStep { st with fs := F } ⟨false, false, 0⟩).bind _) = _
        obtain ⟨a1, a2, a3, a4, a5, a6, a7, a8, a9⟩ := st
        dsimp only at hpc htd
        subst hpc htd
        simp only [Mpi.masterStep, Mpi.mainStep, ConfigNode.verify, if_pos hz, hF]
        rfl
      · cases h
    · cases h

end Prog

section

variable {env : Env} {result : ConfigNode → Block → StoreMap} {jobs : List Job} {fs₀ : FileSystem} {P P' : State} {g : Ghost}

theorem fresh_sub {d d' : Dir} (hn : d.NamesDiffer) (hs : ∀ e ∈ d', e ∈ d) {id : Nat} (h : FileStore.fresh d id = true) :
    FileStore.fresh d' id = true := by
  have key : ∀ n, Dir.isRegularFile d n = false → Dir.isRegularFile d' n = false := by
    intro n h1
    unfold Dir.isRegularFile at h1 ⊢
    cases h2 : Dir.lookup d' n with
    | none => rfl
    | some e =>
      have h3 := Dir.lookup_of_mem hn (hs _ (Dir.mem_of_lookup h2))
      dsimp only at h3
      rw [h3] at h1
      exact h1
  unfold FileStore.fresh at h ⊢
  simp only [Bool.not_eq_true', Bool.or_eq_false_iff] at h ⊢
  exact ⟨key _ h.1, key _ h.2⟩

/-- The invariant at the beginning. -/
theorem Inv.initial (h0 : ∀ j ∈ jobs, Open j.sects fs₀) : Inv env jobs fs₀ (Parallel.initial jobs fs₀)
    ⟨fun _ => fs₀, fun _ => fs₀, fun _ _ => [], fun _ => []⟩ where
  reach := by
    intro i j hj
    simp only [Parallel.initial, hj, Prog.start_withFs]
    exact .refl
  opens := fun i j hj => h0 j (List.mem_of_getElem? hj)
  base := by simp
  fresh := by simp
  exist := fun _ _ h => h
  lower := fun _ _ _ => List.prefix_refl _
  upper := fun _ _ => List.prefix_refl _
  stay := fun _ h => h
  real := by simp [Parallel.initial]
  names := fun _ h => h
  all := by simp
  target := by
    intro i j p hj h
    simp [Parallel.initial, hj] at h
  ver := by
    intro i j c rest hj _ h
    simp [Parallel.initial, hj] at h
  used := by simp

/-- What a run does is done alone as well. -/
theorem Inv.step (h : Inv env jobs fs₀ P g) (hsy : ∀ p, Synced jobs P g p) (H : Jobs env result jobs)
    (h0 : ∀ j ∈ jobs, Open j.sects fs₀) {l : Label} (hc : NoClash P l)
    (hs : Parallel.step env jobs.length P l = .ok (some P')) : ∃ g', Inv env jobs fs₀ P' g' ∧ ∀ p, Synced jobs P' g' p := by
  cases l with
  | test i =>
    unfold Parallel.step at hs
    dsimp only at hs
    split at hs
    · cases hs
    · split at hs
      · cases hs
        exact ⟨g, ⟨h.reach, h.opens, h.base, h.fresh, h.exist, h.lower, h.upper, h.stay, h.real, h.names, h.all, h.target, h.ver,
          h.used⟩, hsy⟩
      · cases hs
  | refuse i =>
    unfold Parallel.step at hs
    dsimp only at hs
    split at hs
    · cases hs
    · rename_i c hver
      split at hs
      · rename_i hcond
        cases hs
        have hj := List.getElem?_eq_getElem hcond.1
        obtain ⟨⟨rest, h1⟩, h2⟩ := Prog.verifying_head hver
        obtain ⟨f1, f2, f3⟩ := (P.runs i).refused_facts
        have hb : Before 1 c.resultPath (P.runs i) := by
          refine ⟨?_, fun c' r h3 h4 => by omega⟩
          rw [h1]
          show _ ∈ c.resultPath :: _
          exact List.mem_cons_self
        obtain ⟨g', a1, a2, a3⟩ := h.forget H hj hb
        obtain ⟨l, h3⟩ := Prog.refused_step (env := env) hver a2
        have hbb : ∀ p, Before 2 p (P.runs i).refused → Before 2 p (P.runs i) ∧ p ≠ c.resultPath := by
          intro p hp
          have hpp : p ≠ c.resultPath := by
            rintro rfl
            have := hp.2 c rest (f1.trans h1) rfl
            omega
          exact ⟨⟨f1 ▸ hp.1, fun c' r h5 h6 => by omega⟩, hpp⟩
        obtain ⟨b1, b2⟩ := a1.move hj (r := (P.runs i).refused) (Function.update P.tested i false)
          (.step l (a1.reach i _ hj) h3) (fun p hp => (hbb p hp).1) (fun p hp => a1.target i _ p hj (f3 ▸ hp))
          (fun c' r h5 h6 => by omega)
        refine ⟨g', b1, fun p i' j' hj' hp => ?_⟩
        by_cases hi : i' = i
        · subst hi
          have h7 : Before 2 p (P.runs i').refused := by simpa using hp
          rw [a3 p i' (Or.inr (hbb p h7).2)]
          exact hsy p i' j' hj' (hbb p h7).1
        · rw [a3 p i' (Or.inl hi)]
          exact hsy p i' j' hj' (by simpa [Function.update_of_ne hi] using hp)
      · cases hs
  | step i l =>
    unfold Parallel.step at hs
    dsimp only at hs
    split at hs
    swap
    · cases hs
    rename_i hcond
    obtain ⟨o, h1, h2⟩ := Res.bind_eq_ok.1 hs
    cases o with
    | none => cases h2
    | some r =>
      simp only [Option.map_some] at h2
      generalize (if l.main = true then Function.update P.tested i false else P.tested) = t at h2
      cases h2
      have hj := List.getElem?_eq_getElem hcond.1
      generalize jobs[i] = j at hj
      have hac := access h1
      obtain ⟨hnd, huse⟩ := h.nodup H hj
      have hbb : ∀ p, Before 2 p r → Before 2 p (P.runs i) := by
        intro p hp
        have := hac.goes.before (by simpa using hnd) hp
        simpa using this
      have hkv : Keeps ((P.runs i).withFs P.fs) r → ∀ c rest, r.todo = .config c :: rest → r.stage = 1 →
          (P.fs c.resultPath).isSome = true := by
        rintro (⟨k1, k2, k3⟩ | ⟨c', k1, k2⟩) c rest h3 h4
        · exact h.ver i j c rest hj (by rw [k1] at h3; simpa using h3) (by simpa using k3 h4)
        · exact absurd h4 k2
      have htg : r.target = ((P.runs i).withFs P.fs).target → ∀ p, r.target = some p →
          (g.view i p).isSome = true ∧ Uses j p := by
        intro h3 p hp
        exact h.target i j p hj (by rw [h3] at hp; simpa using hp)
      have hhead : ∀ {c : ConfigNode} {rest : List Cmd}, (P.runs i).todo = .config c :: rest → (P.runs i).stage < 2 →
          Before 2 c.resultPath (P.runs i) := by
        intro c rest h3 h4
        refine ⟨?_, fun _ _ _ _ => h4⟩
        rw [h3]
        show _ ∈ c.resultPath :: _
        exact List.mem_cons_self
      cases hac with
      | quiet hf hk ht hl =>
        rw [Prog.fs_withFs] at hf
        rw [hf]
        have h3 := hl (g.view i)
        rw [Prog.withFs_withFs] at h3
        obtain ⟨b1, b2⟩ := h.move hj t (.step l (h.reach i j hj) h3) hbb (htg ht) (hkv hk)
        exact ⟨g, b1, fun p => b2 p (hsy p)⟩
      | verify c rest hc' h0' hc2 hst ht hf hl =>
        rw [Prog.fs_withFs] at hf
        rw [Prog.todo_withFs] at hc'
        rw [Prog.stage_withFs] at h0'
        have hb2 := hhead hc' (by omega)
        -- the directory is there
        have key : ∃ g', Inv env jobs fs₀ { P with fs := r.fs } g' ∧ (∀ p, Synced jobs { P with fs := r.fs } g' p) ∧
            (r.fs c.resultPath).isSome = true := by
          rw [hf]
          unfold opened
          split
          · rename_i hsome
            exact ⟨g, h, hsy, hsome⟩
          · rename_i hsome
            have hnone : P.fs c.resultPath = none := by simpa using hsome
            obtain ⟨g', c1, c2, c3⟩ := (h.made hnone).sync H h0 (p := c.resultPath) (d := []) (by simp [FileSystem.set])
            refine ⟨g', c1, fun q => ?_, by simp [FileSystem.set]⟩
            by_cases hq : q = c.resultPath
            · subst hq
              exact c2
            · refine c3 q hq fun i' j' hj' hp => ?_
              rw [hsy q i' j' hj' hp]
              show _ = P.fs.set c.resultPath [] q
              rw [set_eq_setAt, setAt_ne _ _ hq]
        obtain ⟨g', d1, d2, d3⟩ := key
        have hview : g'.view i c.resultPath = r.fs c.resultPath := d2 _ i j hj hb2
        have h3 := hl (g'.view i) (Or.inl (by rw [hview]; exact d3))
        rw [Prog.withFs_withFs] at h3
        have h4 : opened (g'.view i) c.resultPath = g'.view i := if_pos (by rw [hview]; exact d3)
        rw [h4] at h3
        obtain ⟨b1, b2⟩ := d1.move hj t (.step l (d1.reach i j hj) h3) hbb
          (fun p hp => d1.target i j p hj (by rw [ht] at hp; simpa using hp)) (fun c' rest' h5 h6 => by
            rw [hc2, Prog.todo_withFs, hc'] at h5
            cases h5
            exact d3)
        exact ⟨g', b1, fun p => b2 p (d2 p)⟩
      | refuse c rest hc' h0' hc2 hst ht hn hf hl =>
        rw [Prog.fs_withFs] at hf hn
        rw [Prog.todo_withFs] at hc'
        rw [Prog.stage_withFs] at h0'
        rw [hf]
        have hview := hsy _ i j hj (hhead hc' (by omega))
        have h3 := hl (g.view i) (hview.trans hn)
        rw [Prog.withFs_withFs] at h3
        obtain ⟨b1, b2⟩ := h.move hj t (.step l (h.reach i j hj) h3) hbb (htg ht) (fun _ _ _ h6 => by omega)
        exact ⟨g, b1, fun p => b2 p (hsy p)⟩
      | load c rest hc' h0' hc2 hst ht hf hl =>
        rw [Prog.fs_withFs] at hf
        rw [Prog.todo_withFs] at hc'
        rw [Prog.stage_withFs] at h0'
        rw [hf]
        have hb2 := hhead hc' (by omega)
        have hview := hsy _ i j hj hb2
        have h3 := hl (g.view i) (by rw [Prog.fs_withFs]; exact hview)
        rw [Prog.withFs_withFs] at h3
        obtain ⟨b1, b2⟩ := h.move hj t (.step l (h.reach i j hj) h3) hbb (fun p hp => by
          rw [ht] at hp
          cases hp
          rw [hview]
          exact ⟨h.ver i j c rest hj hc' h0', huse _ hb2.1⟩) (fun _ _ _ h6 => by omega)
        exact ⟨g, b1, fun p => b2 p (hsy p)⟩
      | save p id d hp hd hi hf hk ht hl =>
        rw [Prog.fs_withFs] at hf hd
        rw [hf]
        rw [Prog.target_withFs] at hp
        obtain ⟨e1, s, e2, e3⟩ := h.target i j p hj hp
        obtain ⟨d', e4⟩ := Option.isSome_iff_exists.1 e1
        have h3 := hl (g.view i) d' e4 (by
          subst e3
          have hn := h.names _ (open_dir (h0 j (List.mem_of_getElem? hj)) e2).1
          rw [hd] at hn
          refine fresh_sub hn ?_ hi
          have := h.sub i s.cfg.resultPath
          rw [e4, hd] at this
          exact this)
        rw [Prog.withFs_withFs] at h3
        obtain ⟨b1, b2⟩ := h.move hj t (.step l (h.reach i j hj) h3) hbb (htg ht) (hkv hk)
        exact ⟨g, b1, fun p => b2 p (hsy p)⟩
      | lost p hp hn hf hk ht hl =>
        rw [Prog.fs_withFs] at hn
        rw [Prog.target_withFs] at hp
        have := h.exist i p (h.target i j p hj hp).1
        rw [hn] at this
        cases this
      | write p n c d hw hp hd hf hk ht hl =>
        rw [Prog.fs_withFs] at hf hd
        rw [Prog.target_withFs] at hp
        rw [Prog.writing_withFs] at hw
        obtain ⟨e1, hu⟩ := h.target i j p hj hp
        obtain ⟨d', e4⟩ := Option.isSome_iff_exists.1 e1
        have hne : ∀ e ∈ d, e.1 ≠ n := hc p n hw d hd
        have hsub : ∀ e ∈ d', e ∈ d := by
          have := h.sub i p
          rw [e4, hd] at this
          exact this
        have h3 := hl (g.view i) d' e4
        rw [Prog.withFs_withFs, Dir.write_new fun e he => hne e (hsub e he)] at h3
        rw [hf, Dir.write_new hne]
        obtain ⟨g', b1, b2⟩ := h.wrote H hj (r := r) t hd e4 hu hp hne (.step l (h.reach i j hj) h3) hbb
          (by simpa using ht) (hkv hk)
        obtain ⟨g'', c1, c2, c3⟩ := b1.sync H h0 (p := p) (d := d ++ [(n, .file c)]) (by simp [FileSystem.set])
        refine ⟨g'', c1, fun q => ?_⟩
        by_cases hq : q = p
        · subst hq
          exact c2
        · exact c3 q hq (b2 q hq (hsy q))

theorem Inv.reachable (H : Jobs env result jobs) (h0 : ∀ j ∈ jobs, Open j.sects fs₀)
    (hr : Reachable env jobs.length NoClash (Parallel.initial jobs fs₀) P) : ∃ g, Inv env jobs fs₀ P g ∧ ∀ p, Synced jobs P g p := by
  induction hr with
  | refl => exact ⟨_, Inv.initial h0, fun p i j hj _ => rfl⟩
  | step l _ ho hs ih =>
    obtain ⟨g, h1, h2⟩ := ih
    exact h1.step h2 H h0 ho hs

end

end Parallel
end Hycu
