import Verif.Lemmas.ParallelInv

/-!
The steps of several runs.
-/

namespace Hycu
namespace Parallel

open Run (Cmd Cont Env FileStoreObj Input Sect program Open since KeptIn CompleteIn recorded Plain)

section

variable {env : Env} {result : ConfigNode → Block → StoreMap} {jobs : List Job} {fs₀ : FileSystem} {P : State} {g : Ghost}

theorem open_dir {ss : List Sect} {fs : FileSystem} (h : Open ss fs) {s : Sect} (hs : s ∈ ss) :
    (dirOf (fs s.cfg.resultPath)).NamesDiffer ∧ Plain (dirOf (fs s.cfg.resultPath)) ∧
      ∃ r, FileStore.initialRecord (dirOf (fs s.cfg.resultPath)) = .ok r := by
  cases hd : fs s.cfg.resultPath with
  | none => exact ⟨List.nodup_nil, by simp [Plain, dirOf], [], rfl⟩
  | some d => exact h s hs d hd

/-- The files that a run sees are there. -/
theorem Inv.sub (h : Inv env jobs fs₀ P g) (i : Nat) (p : List Char) : ∀ e ∈ dirOf (g.view i p), e ∈ dirOf (P.fs p) := by
  intro e he
  rw [h.base] at he
  rcases List.mem_append.1 he with he | he
  · exact (h.upper i p).subset he
  · rw [h.real]
    refine List.mem_append_right _ ((h.all p).mem_iff.2 (List.mem_flatMap.2 ⟨i, List.mem_range.2 ?_, he⟩))
    obtain ⟨j, h1, _⟩ := h.used i p (List.ne_nil_of_mem he)
    exact (List.getElem?_eq_some_iff.1 h1).1

open Classical in
/-- All runs that have not come to a directory see it as it is. -/
theorem Inv.sync (h : Inv env jobs fs₀ P g) (H : Jobs env result jobs) (h0 : ∀ j ∈ jobs, Open j.sects fs₀) {p : List Char}
    {d : Dir} (hp : P.fs p = some d) :
    ∃ g', Inv env jobs fs₀ P g' ∧ Synced jobs P g' p ∧ ∀ q, q ≠ p → Synced jobs P g q → Synced jobs P g' q := by
  let B : Nat → Prop := fun i => Before 2 p (P.runs i) ∧ ∃ j, jobs[i]? = some j
  let g' : Ghost := ⟨fun i => if B i then setAt (g.base i) p (P.fs p) else g.base i,
    fun i => if B i then setAt (g.view i) p (P.fs p) else g.view i, g.new, g.all⟩
  have hb1 : ∀ i, B i → g'.base i = setAt (g.base i) p (P.fs p) := fun i hi => if_pos hi
  have hb2 : ∀ i, ¬ B i → g'.base i = g.base i := fun i hi => if_neg hi
  have hv1 : ∀ i, B i → g'.view i = setAt (g.view i) p (P.fs p) := fun i hi => if_pos hi
  have hv2 : ∀ i, ¬ B i → g'.view i = g.view i := fun i hi => if_neg hi
  refine ⟨g', ⟨?_, ?_, ?_, h.fresh, ?_, ?_, ?_, h.stay, h.real, h.names, h.all, ?_, h.ver, h.used⟩, ?_, ?_⟩
  · intro i j hj
    by_cases hi : B i
    · rw [hb1 i hi, hv1 i hi]
      have := (h.reach i j hj).late (H.nodup hj) (p := p) (x := P.fs p) (by
        rw [hp]
        simpa using hi.1)
      simpa using this
    · rw [hb2 i hi, hv2 i hi]
      exact h.reach i j hj
  · intro i j hj
    by_cases hi : B i
    · rw [hb1 i hi]
      intro s hs d' hd'
      by_cases hsp : s.cfg.resultPath = p
      · subst hsp
        rw [setAt_same] at hd'
        obtain ⟨a1, a2, r, a3⟩ := open_dir (h0 j (List.mem_of_getElem? hj)) hs
        obtain ⟨ps, b1, _, _, _, _, _, _, b2, _⟩ := h.content H hj hs a1 a2 a3
        have b3 := h.names _ a1
        rw [hd'] at b1 b2 b3
        exact ⟨b3, b1, _, b2⟩
      · rw [setAt_ne _ _ hsp] at hd'
        exact h.opens i j hj s hs d' hd'
    · rw [hb2 i hi]
      exact h.opens i j hj
  · intro i q
    by_cases hi : B i
    · rw [hb1 i hi, hv1 i hi]
      by_cases hq : q = p
      · subst hq
        obtain ⟨hb, j, hj⟩ := hi
        rw [setAt_same, setAt_same, h.fresh i j q hj hb, List.append_nil]
      · rw [setAt_ne _ _ hq, setAt_ne _ _ hq]
        exact h.base i q
    · rw [hb2 i hi, hv2 i hi]
      exact h.base i q
  · intro i q
    by_cases hi : B i
    · rw [hv1 i hi]
      by_cases hq : q = p
      · subst hq
        rw [setAt_same]
        exact id
      · rw [setAt_ne _ _ hq]
        exact h.exist i q
    · rw [hv2 i hi]
      exact h.exist i q
  · intro i q
    by_cases hi : B i
    · rw [hb1 i hi, hv1 i hi]
      by_cases hq : q = p
      · subst hq
        intro _
        rw [setAt_same, h.real]
        exact List.prefix_append _ _
      · rw [setAt_ne _ _ hq, setAt_ne _ _ hq]
        exact h.lower i q
    · rw [hb2 i hi, hv2 i hi]
      exact h.lower i q
  · intro i q
    by_cases hi : B i
    · rw [hb1 i hi]
      by_cases hq : q = p
      · subst hq
        rw [setAt_same]
      · rw [setAt_ne _ _ hq]
        exact h.upper i q
    · rw [hb2 i hi]
      exact h.upper i q
  · intro i j q hj ht
    by_cases hi : B i
    · have hq : q ≠ p := by
        rintro rfl
        exact h.notBefore H hj ht hi.1
      rw [hv1 i hi, setAt_ne _ _ hq]
      exact h.target i j q hj ht
    · rw [hv2 i hi]
      exact h.target i j q hj ht
  · intro i j hj hb
    rw [hv1 i ⟨hb, j, hj⟩, setAt_same]
  · intro q hq hs i j hj hb
    by_cases hi : B i
    · rw [hv1 i hi, setAt_ne _ _ hq]
      exact hs i j hj hb
    · rw [hv2 i hi]
      exact hs i j hj hb

/-- A directory is made. -/
theorem Inv.made (h : Inv env jobs fs₀ P g) {p : List Char} (hp : P.fs p = none) :
    Inv env jobs fs₀ { P with fs := P.fs.set p [] } g := by
  have h1 : ∀ q, dirOf (P.fs.set p [] q) = dirOf (P.fs q) := by
    intro q
    rw [set_eq_setAt]
    by_cases hq : q = p
    · subst hq
      rw [setAt_same, hp]
      rfl
    · rw [setAt_ne _ _ hq]
  have h2 : ∀ q, (P.fs q).isSome = true → (P.fs.set p [] q).isSome = true := by
    intro q
    rw [set_eq_setAt]
    by_cases hq : q = p
    · subst hq
      rw [setAt_same]
      exact fun _ => rfl
    · rw [setAt_ne _ _ hq]
      exact id
  exact ⟨h.reach, h.opens, h.base, h.fresh, fun i q hq => h2 q (h.exist i q hq), h.lower,
    fun i q => (h1 q).symm ▸ h.upper i q, fun q hq => h2 q (h.stay q hq), fun q => (h1 q).trans (h.real q),
    fun q hq => (h1 q).symm ▸ h.names q hq, h.all, h.target,
    fun i j c rest hj h3 h4 => h2 _ (h.ver i j c rest hj h3 h4), h.used⟩

/-- A run makes a step that changes no files. -/
theorem Inv.move (h : Inv env jobs fs₀ P g) {i : Nat} {j : Job} (hj : jobs[i]? = some j) {r : Prog} (t : Nat → Bool)
    (hr : Prog.Reach env (.start (g.base i) (program j.sects) j.pool) (r.withFs (g.view i)))
    (hb : ∀ p, Before 2 p r → Before 2 p (P.runs i))
    (ht : ∀ p, r.target = some p → (g.view i p).isSome = true ∧ Uses j p)
    (hv : ∀ c rest, r.todo = .config c :: rest → r.stage = 1 → (P.fs c.resultPath).isSome = true) :
    Inv env jobs fs₀ ⟨P.fs, Function.update P.runs i r, t⟩ g ∧
      ∀ p, Synced jobs P g p → Synced jobs ⟨P.fs, Function.update P.runs i r, t⟩ g p := by
  refine ⟨⟨?_, h.opens, h.base, ?_, h.exist, h.lower, h.upper, h.stay, h.real, h.names, h.all, ?_, ?_, h.used⟩, ?_⟩
  · intro i' j' hj'
    by_cases hi : i' = i
    · subst hi
      rw [hj] at hj'
      cases hj'
      simpa using hr
    · simpa [Function.update_of_ne hi] using h.reach i' j' hj'
  · intro i' j' p hj' hp
    by_cases hi : i' = i
    · subst hi
      exact h.fresh i' j' p hj' (hb p (by simpa using hp))
    · exact h.fresh i' j' p hj' (by simpa [Function.update_of_ne hi] using hp)
  · intro i' j' p hj' hp
    by_cases hi : i' = i
    · subst hi
      rw [hj] at hj'
      cases hj'
      exact ht p (by simpa using hp)
    · exact h.target i' j' p hj' (by simpa [Function.update_of_ne hi] using hp)
  · intro i' j' c rest hj' h1 h2
    by_cases hi : i' = i
    · subst hi
      exact hv c rest (by simpa using h1) (by simpa using h2)
    · exact h.ver i' j' c rest hj' (by simpa [Function.update_of_ne hi] using h1) (by simpa [Function.update_of_ne hi] using h2)
  · intro p hs i' j' hj' hp
    by_cases hi : i' = i
    · subst hi
      exact hs i' j' hj' (hb p (by simpa using hp))
    · exact hs i' j' hj' (by simpa [Function.update_of_ne hi] using hp)

theorem perm_update {α : Type} (f : Nat → List α) (i : Nat) (l : List α) : ∀ xs : List Nat, xs.Nodup → i ∈ xs →
    (xs.flatMap f ++ l).Perm (xs.flatMap (Function.update f i (f i ++ l)))
  | [], _, h => by cases h
  | x :: xs, hn, h => by
    rw [List.nodup_cons] at hn
    rw [List.flatMap_cons, List.flatMap_cons]
    by_cases hx : x = i
    · subst hx
      have h1 : xs.flatMap (Function.update f x (f x ++ l)) = xs.flatMap f := by
        refine List.flatMap_congr fun y hy => ?_
        rw [Function.update_of_ne]
        rintro rfl
        exact hn.1 hy
      rw [h1, Function.update_self, List.append_assoc, List.append_assoc]
      exact (List.perm_append_comm).append_left _
    · rw [Function.update_of_ne hx, List.append_assoc]
      refine (perm_update f i l xs hn.2 ?_).append_left _
      rcases List.mem_cons.1 h with h | h
      · exact absurd h.symm hx
      · exact h

/-- A run writes a file. -/
theorem Inv.wrote (h : Inv env jobs fs₀ P g) (H : Jobs env result jobs) {i : Nat} {j : Job} (hj : jobs[i]? = some j)
    {r : Prog} (t : Nat → Bool) {p : List Char} {e : List Char × FileEntry} {d d' : Dir} (hd : P.fs p = some d)
    (hd' : g.view i p = some d') (hu : Uses j p) (hpt : (P.runs i).target = some p) (hne : ∀ e' ∈ d, e'.1 ≠ e.1)
    (hr : Prog.Reach env (.start (g.base i) (program j.sects) j.pool) (r.withFs ((g.view i).set p (d' ++ [e]))))
    (hb : ∀ p, Before 2 p r → Before 2 p (P.runs i)) (htt : r.target = (P.runs i).target)
    (hv : ∀ c rest, r.todo = .config c :: rest → r.stage = 1 → (P.fs c.resultPath).isSome = true) :
    ∃ g', Inv env jobs fs₀ ⟨P.fs.set p (d ++ [e]), Function.update P.runs i r, t⟩ g' ∧
      ∀ q, q ≠ p → Synced jobs P g q → Synced jobs ⟨P.fs.set p (d ++ [e]), Function.update P.runs i r, t⟩ g' q := by
  let g' : Ghost := ⟨g.base, Function.update g.view i ((g.view i).set p (d' ++ [e])),
    fun k q => if q = p then Function.update (fun k => g.new k p) i (g.new i p ++ [e]) k else g.new k q,
    fun q => if q = p then g.all p ++ [e] else g.all q⟩
  have hF : ∀ q, q ≠ p → P.fs.set p (d ++ [e]) q = P.fs q := fun q hq => by rw [set_eq_setAt, setAt_ne _ _ hq]
  have hFp : P.fs.set p (d ++ [e]) p = some (d ++ [e]) := by rw [set_eq_setAt, setAt_same]
  have hV : ∀ k q, q ≠ p → g'.view k q = g.view k q := by
    intro k q hq
    by_cases hk : k = i
    · subst hk
      show Function.update g.view k _ k q = _
      rw [Function.update_self, set_eq_setAt, setAt_ne _ _ hq]
    · show Function.update g.view i _ k q = _
      rw [Function.update_of_ne hk]
  have hVk : ∀ k, k ≠ i → g'.view k = g.view k := fun k hk => Function.update_of_ne hk _ _
  have hVi : g'.view i p = some (d' ++ [e]) := by
    show Function.update g.view i _ i p = _
    rw [Function.update_self, set_eq_setAt, setAt_same]
  have hN : ∀ k q, q ≠ p → g'.new k q = g.new k q := fun k q hq => if_neg hq
  have hNk : ∀ k, k ≠ i → g'.new k p = g.new k p := by
    intro k hk
    show (if p = p then _ else _) = _
    rw [if_pos rfl, Function.update_of_ne hk]
  have hNi : g'.new i p = g.new i p ++ [e] := by
    show (if p = p then _ else _) = _
    rw [if_pos rfl, Function.update_self]
  have hA : ∀ q, q ≠ p → g'.all q = g.all q := fun q hq => if_neg hq
  have hAp : g'.all p = g.all p ++ [e] := if_pos rfl
  have hS : ∀ q, (P.fs q).isSome = true → (P.fs.set p (d ++ [e]) q).isSome = true := by
    intro q
    by_cases hq : q = p
    · subst hq
      rw [hFp]
      exact fun _ => rfl
    · rw [hF q hq]
      exact id
  have hSv : ∀ k q, (g'.view k q).isSome = true → (g.view k q).isSome = true := by
    intro k q
    by_cases hq : q = p
    · subst hq
      by_cases hk : k = i
      · subst hk
        rw [hd']
        exact fun _ => rfl
      · rw [hVk k hk]
        exact id
    · rw [hV k q hq]
      exact id
  refine ⟨g', ⟨?_, h.opens, ?_, ?_, ?_, ?_, ?_, ?_, ?_, ?_, ?_, ?_, ?_, ?_⟩, ?_⟩
  · intro i' j' hj'
    by_cases hi : i' = i
    · subst hi
      rw [hj] at hj'
      cases hj'
      show Prog.Reach env _ ((Function.update P.runs i' r i').withFs (Function.update g.view i' _ i'))
      rw [Function.update_self, Function.update_self]
      exact hr
    · show Prog.Reach env _ ((Function.update P.runs i r i').withFs (g'.view i'))
      rw [Function.update_of_ne hi, hVk i' hi]
      exact h.reach i' j' hj'
  · intro k q
    by_cases hq : q = p
    · subst hq
      by_cases hk : k = i
      · subst hk
        rw [hVi, hNi, ← List.append_assoc]
        have := h.base k q
        rw [hd'] at this
        exact congrArg (· ++ [e]) this
      · rw [hVk k hk, hNk k hk]
        exact h.base k q
    · rw [hV k q hq, hN k q hq]
      exact h.base k q
  · intro i' j' q hj' hp
    by_cases hi : i' = i
    · subst hi
      have h1 := hb q (by simpa using hp)
      by_cases hq : q = p
      · subst hq
        exact absurd h1 (h.notBefore H hj hpt)
      · rw [hN i' q hq]
        exact h.fresh i' j' q hj' h1
    · have h1 := h.fresh i' j' q hj' (by simpa [Function.update_of_ne hi] using hp)
      by_cases hq : q = p
      · subst hq
        rw [hNk i' hi]
        exact h1
      · rw [hN i' q hq]
        exact h1
  · intro k q hq
    exact hS q (h.exist k q (hSv k q hq))
  · intro k q hq
    exact h.lower k q (hSv k q hq)
  · intro k q
    by_cases hq : q = p
    · subst hq
      refine (h.upper k q).trans ?_
      show dirOf (P.fs q) <+: dirOf (P.fs.set q (d ++ [e]) q)
      rw [hFp, hd]
      exact List.prefix_append _ _
    · show _ <+: dirOf (P.fs.set p (d ++ [e]) q)
      rw [hF q hq]
      exact h.upper k q
  · intro q hq
    exact hS q (h.stay q hq)
  · intro q
    show dirOf (P.fs.set p (d ++ [e]) q) = _
    by_cases hq : q = p
    · subst hq
      rw [hFp, hAp, ← List.append_assoc, ← h.real, hd]
      rfl
    · rw [hF q hq, hA q hq]
      exact h.real q
  · intro q hq
    show (dirOf (P.fs.set p (d ++ [e]) q)).NamesDiffer
    have h1 := h.names q hq
    by_cases hqp : q = p
    · subst hqp
      rw [hFp]
      rw [hd] at h1
      show ((d ++ [e]).map Prod.fst).Nodup
      rw [List.map_append, List.nodup_append]
      refine ⟨h1, List.nodup_singleton _, ?_⟩
      intro a ha b hb
      obtain ⟨e', he', rfl⟩ := List.mem_map.1 ha
      rw [List.mem_singleton.1 hb]
      exact hne e' he'
    · rw [hF q hqp]
      exact h1
  · intro q
    by_cases hq : q = p
    · subst hq
      rw [hAp]
      have hi : i < jobs.length := (List.getElem?_eq_some_iff.1 hj).1
      have h1 := perm_update (fun k => g.new k q) i [e] (List.range jobs.length) List.nodup_range (List.mem_range.2 hi)
      have h2 : (fun k => g'.new k q) = Function.update (fun k => g.new k q) i (g.new i q ++ [e]) := by
        funext k
        show (if q = q then _ else _) = _
        rw [if_pos rfl]
      rw [h2]
      exact ((h.all q).append_right _).trans h1
    · rw [hA q hq]
      have h2 : (fun k => g'.new k q) = fun k => g.new k q := by
        funext k
        exact hN k q hq
      rw [h2]
      exact h.all q
  · intro i' j' q hj' hp
    have key : (g.view i' q).isSome = true ∧ Uses j' q := by
      by_cases hi : i' = i
      · subst hi
        refine h.target i' j' q hj' ?_
        rw [← htt]
        simpa using hp
      · exact h.target i' j' q hj' (by simpa [Function.update_of_ne hi] using hp)
    refine ⟨?_, key.2⟩
    by_cases hq : q = p
    · subst hq
      by_cases hi : i' = i
      · subst hi
        rw [hVi]
        rfl
      · rw [hVk i' hi]
        exact key.1
    · rw [hV i' q hq]
      exact key.1
  · intro i' j' c rest hj' h1 h2
    refine hS _ ?_
    by_cases hi : i' = i
    · subst hi
      exact hv c rest (by simpa using h1) (by simpa using h2)
    · exact h.ver i' j' c rest hj' (by simpa [Function.update_of_ne hi] using h1) (by simpa [Function.update_of_ne hi] using h2)
  · intro k q hq
    by_cases hqp : q = p
    · subst hqp
      by_cases hk : k = i
      · subst hk
        exact ⟨j, hj, hu⟩
      · rw [hNk k hk] at hq
        exact h.used k q hq
    · rw [hN k q hqp] at hq
      exact h.used k q hq
  · intro q hq hs i' j' hj' hp
    rw [hV i' q hq]
    show _ = P.fs.set p (d ++ [e]) q
    rw [hF q hq]
    by_cases hi : i' = i
    · subst hi
      exact hs i' j' hj' (hb q (by simpa using hp))
    · exact hs i' j' hj' (by simpa [Function.update_of_ne hi] using hp)

open Classical in
/-- A run has not yet come to a directory: nothing depends on it. -/
theorem Inv.forget (h : Inv env jobs fs₀ P g) (H : Jobs env result jobs) {i : Nat} {j : Job} (hj : jobs[i]? = some j)
    {p : List Char} (hb : Before 1 p (P.runs i)) :
    ∃ g', Inv env jobs fs₀ P g' ∧ g'.view i p = none ∧ (∀ q k, k ≠ i ∨ q ≠ p → g'.view k q = g.view k q) := by
  let g' : Ghost := ⟨fun k => if k = i then setAt (g.base k) p none else g.base k,
    fun k => if k = i then setAt (g.view k) p none else g.view k, g.new, g.all⟩
  have hb1 : g'.base i = setAt (g.base i) p none := if_pos rfl
  have hb2 : ∀ k, k ≠ i → g'.base k = g.base k := fun k hi => if_neg hi
  have hv1 : g'.view i = setAt (g.view i) p none := if_pos rfl
  have hv2 : ∀ k, k ≠ i → g'.view k = g.view k := fun k hi => if_neg hi
  have hb' : Before 2 p (P.runs i) := hb.mono (by omega)
  refine ⟨g', ⟨?_, ?_, ?_, h.fresh, ?_, ?_, ?_, h.stay, h.real, h.names, h.all, ?_, h.ver, h.used⟩, ?_, ?_⟩
  · intro k j' hj'
    by_cases hi : k = i
    · subst hi
      rw [hb1, hv1]
      have := (h.reach k j' hj').late (H.nodup hj') (p := p) (x := none) (by simpa using hb)
      simpa using this
    · rw [hb2 k hi, hv2 k hi]
      exact h.reach k j' hj'
  · intro k j' hj'
    by_cases hi : k = i
    · subst hi
      rw [hb1]
      intro s hs d' hd'
      by_cases hsp : s.cfg.resultPath = p
      · rw [hsp, setAt_same] at hd'
        cases hd'
      · rw [setAt_ne _ _ hsp] at hd'
        exact h.opens k j' hj' s hs d' hd'
    · rw [hb2 k hi]
      exact h.opens k j' hj'
  · intro k q
    by_cases hi : k = i
    · subst hi
      rw [hb1, hv1]
      by_cases hq : q = p
      · subst hq
        rw [setAt_same, setAt_same, h.fresh k j q hj hb', List.append_nil]
      · rw [setAt_ne _ _ hq, setAt_ne _ _ hq]
        exact h.base k q
    · rw [hb2 k hi, hv2 k hi]
      exact h.base k q
  · intro k q
    by_cases hi : k = i
    · subst hi
      rw [hv1]
      by_cases hq : q = p
      · subst hq
        rw [setAt_same]
        intro h; cases h
      · rw [setAt_ne _ _ hq]
        exact h.exist k q
    · rw [hv2 k hi]
      exact h.exist k q
  · intro k q
    by_cases hi : k = i
    · subst hi
      rw [hb1, hv1]
      by_cases hq : q = p
      · subst hq
        rw [setAt_same]
        intro h; cases h
      · rw [setAt_ne _ _ hq, setAt_ne _ _ hq]
        exact h.lower k q
    · rw [hb2 k hi, hv2 k hi]
      exact h.lower k q
  · intro k q
    by_cases hi : k = i
    · subst hi
      rw [hb1]
      by_cases hq : q = p
      · subst hq
        rw [setAt_same]
        exact List.nil_prefix
      · rw [setAt_ne _ _ hq]
        exact h.upper k q
    · rw [hb2 k hi]
      exact h.upper k q
  · intro k j' q hj' ht
    by_cases hi : k = i
    · subst hi
      have hq : q ≠ p := by
        rintro rfl
        exact h.notBefore H hj ht hb'
      rw [hv1, setAt_ne _ _ hq]
      exact h.target k j' q hj' ht
    · rw [hv2 k hi]
      exact h.target k j' q hj' ht
  · rw [hv1, setAt_same]
  · intro q k hk
    by_cases hi : k = i
    · subst hi
      rw [hv1, setAt_ne _ _ (hk.resolve_left fun h => h rfl)]
    · rw [hv2 k hi]

end

end Parallel
end Hycu
