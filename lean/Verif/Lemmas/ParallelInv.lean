import Verif.Lemmas.ParallelView

/-!
What the runs have done together.
-/

namespace Hycu
namespace Parallel

open Run (Cmd Cont Env FileStoreObj Input Sect program Open since KeptIn CompleteIn recorded Plain recorded_append)

/-- The files in a directory, if there is one. -/
def dirOf (o : Option Dir) : Dir := o.getD []

/-- What is known about the files that a run has added. -/
theorem facts {result : ConfigNode → Block → StoreMap} {G₀ G : FileSystem} {s : Sect} {new : Dir} {C : Prop}
    (hk : KeptIn (since G₀) result G s) (hc : C → CompleteIn (since G₀) result G s) (hn : s.blocks.Nodup)
    (hg : dirOf (G s.cfg.resultPath) = dirOf (G₀ s.cfg.resultPath) ++ new) :
    ∃ r₀ sv, FileStore.initialRecord (dirOf (G₀ s.cfg.resultPath)) = .ok r₀ ∧
      (dirOf (G₀ s.cfg.resultPath)).NamesDiffer ∧ Plain (dirOf (G s.cfg.resultPath)) ∧ Pairs new new sv ∧
      Apart (dirOf (G₀ s.cfg.resultPath)) new ∧ (∀ p ∈ sv, Match (result s.cfg) p.1 p.2) ∧ (∀ p ∈ sv, PairOk p) ∧
      (recorded sv).Nodup ∧ (∀ b ∈ recorded sv, b ∈ s.blocks ∧ b ∉ r₀) ∧
      (C → ∀ b ∈ s.blocks, b ∈ r₀ ∨ b ∈ recorded sv) := by
  have h1 : ∃ ps, Plain (dirOf (G s.cfg.resultPath)) ∧ (since G₀).holds s (dirOf (G s.cfg.resultPath)) ps ∧
      Run.Sound result s ps ∧ (C → (recorded ps).Perm s.blocks) := by
    by_cases h : C
    · obtain ⟨d, ps, h1, h2, h3, h4, h5⟩ := hc h
      exact ⟨ps, by rw [h1]; exact h2, by rw [h1]; exact h3, h4, fun _ => h5⟩
    · rcases hk with ⟨h1, h2⟩ | ⟨d, ps, h1, h2, h3, h4⟩
      · exact ⟨[], by rw [h1]; simp [Plain, dirOf], by rw [h1]; exact h2, ⟨by simp, by simp [recorded]⟩, fun h' => absurd h' h⟩
      · exact ⟨ps, by rw [h1]; exact h2, by rw [h1]; exact h3, h4, fun h' => absurd h' h⟩
  obtain ⟨ps, h2, ⟨d₀, r₀, vs, sv, h3, h4, h5, h6, rfl, h7⟩, h8, h9⟩ := h1
  have h10 : dirOf (G₀ s.cfg.resultPath) = d₀ := by
    rcases h3 with h3 | ⟨h3, h, _⟩
    · rw [h3]; rfl
    · rw [h3, h]; rfl
  obtain ⟨es, h11, h12, h13⟩ := grows_new h7
  rw [h10] at hg ⊢
  rw [hg] at h11
  obtain rfl := List.append_cancel_left h11
  obtain ⟨l, h14, h15⟩ := h8.once
  have h16 : (recorded (vs ++ sv)).Nodup := h14.nodup_iff.1 (hn.sublist h15)
  have h17 := h16
  rw [recorded_append, List.nodup_append] at h17
  refine ⟨r₀, sv, h5, h4, h2, h12, h13, fun p hp => h8.tally p (List.mem_append_right _ hp), h7.pairs, h17.2.1,
    fun b hb => ?_, fun h b hb => ?_⟩
  · have hb' : b ∈ s.blocks := h8.once.subset (by rw [recorded_append]; exact List.mem_append_right _ hb)
    exact ⟨hb', fun hr => h17.2.2 b ((h6 b hb').2 hr) b hb rfl⟩
  · have h18 := (h9 h).mem_iff.2 hb
    rw [recorded_append, List.mem_append, h6 b hb] at h18
    exact h18

/-- For every run: the file system from which it would have come to its state alone, what it would have made of it, and
the files that it has added to each directory.  `all` are the files that were added by all runs. -/
structure Ghost where
  base : Nat → FileSystem
  view : Nat → FileSystem
  new : Nat → List Char → Dir
  all : List Char → Dir

/-- A job uses a directory. -/
def Uses (j : Job) (p : List Char) : Prop := ∃ s ∈ j.sects, s.cfg.resultPath = p

structure Inv (env : Env) (jobs : List Job) (fs₀ : FileSystem) (P : State) (g : Ghost) : Prop where
  reach : ∀ i j, jobs[i]? = some j → Prog.Reach env (.start (g.base i) (program j.sects) j.pool) ((P.runs i).withFs (g.view i))
  opens : ∀ i j, jobs[i]? = some j → Open j.sects (g.base i)
  base : ∀ i p, dirOf (g.view i p) = dirOf (g.base i p) ++ g.new i p
  fresh : ∀ i j p, jobs[i]? = some j → Before 2 p (P.runs i) → g.new i p = []
  exist : ∀ i p, (g.view i p).isSome = true → (P.fs p).isSome = true
  lower : ∀ i p, (g.view i p).isSome = true → dirOf (fs₀ p) <+: dirOf (g.base i p)
  upper : ∀ i p, dirOf (g.base i p) <+: dirOf (P.fs p)
  stay : ∀ p, (fs₀ p).isSome = true → (P.fs p).isSome = true
  real : ∀ p, dirOf (P.fs p) = dirOf (fs₀ p) ++ g.all p
  names : ∀ p, (dirOf (fs₀ p)).NamesDiffer → (dirOf (P.fs p)).NamesDiffer
  all : ∀ p, (g.all p).Perm ((List.range jobs.length).flatMap fun i => g.new i p)
  target : ∀ i j p, jobs[i]? = some j → (P.runs i).target = some p → (g.view i p).isSome = true ∧ Uses j p
  ver : ∀ i j c rest, jobs[i]? = some j → (P.runs i).todo = .config c :: rest → (P.runs i).stage = 1 →
    (P.fs c.resultPath).isSome = true
  used : ∀ i p, g.new i p ≠ [] → ∃ j, jobs[i]? = some j ∧ Uses j p

/-- What is still to come is seen as it is. -/
def Synced (jobs : List Job) (P : State) (g : Ghost) (p : List Char) : Prop :=
  ∀ i j, jobs[i]? = some j → Before 2 p (P.runs i) → g.view i p = P.fs p

theorem cmdPaths_program (ss : List Sect) : cmdPaths (program ss) = ss.map fun s => s.cfg.resultPath := by
  unfold program cmdPaths
  induction ss with
  | nil => rfl
  | cons s ss ih =>
    rw [List.flatMap_cons, List.filterMap_append, ih, List.map_cons]
    have h1 : List.filterMap cmdPath (s.blocks.map Cmd.assign) = [] := by
      rw [List.filterMap_eq_nil_iff]
      intro c hc
      obtain ⟨b, _, rfl⟩ := List.mem_map.1 hc
      rfl
    show (s.cfg.resultPath :: List.filterMap cmdPath (s.blocks.map Cmd.assign)) ++ _ = _
    rw [h1]
    rfl

section

variable {env : Env} {result : ConfigNode → Block → StoreMap} {jobs : List Job} {fs₀ : FileSystem} {P : State} {g : Ghost}

theorem Jobs.nodup (H : Jobs env result jobs) {i : Nat} {j : Job} (hj : jobs[i]? = some j) :
    (cmdPaths (program j.sects)).Nodup := by
  rw [cmdPaths_program]
  exact (H.input j (List.mem_of_getElem? hj)).paths

theorem Inv.nodup (h : Inv env jobs fs₀ P g) (H : Jobs env result jobs) {i : Nat} {j : Job} (hj : jobs[i]? = some j) :
    (cmdPaths (P.runs i).todo).Nodup ∧ ∀ p ∈ cmdPaths (P.runs i).todo, Uses j p := by
  have h1 := (h.reach i j hj).goes (by simpa using H.nodup hj)
  simp only [Prog.todo_withFs, Prog.start_todo, cmdPaths_program] at h1
  refine ⟨h1.1, fun p hp => ?_⟩
  obtain ⟨s, h2, h3⟩ := List.mem_map.1 (h1.2 p hp)
  exact ⟨s, h2, h3⟩

theorem Inv.notBefore (h : Inv env jobs fs₀ P g) (H : Jobs env result jobs) {i : Nat} {j : Job} (hj : jobs[i]? = some j)
    {p : List Char} (hp : (P.runs i).target = some p) : ¬ Before 2 p (P.runs i) := by
  have := (h.reach i j hj).target (H.nodup hj) p (by simpa using hp)
  simpa using this

/-- What a run has added to a directory. -/
theorem Inv.run (h : Inv env jobs fs₀ P g) (H : Jobs env result jobs) {i₀ : Nat} {j₀ : Job} (hj₀ : jobs[i₀]? = some j₀)
    {s : Sect} (hs : s ∈ j₀.sects) {r₀ : OSet Block} (hr : FileStore.initialRecord (dirOf (fs₀ s.cfg.resultPath)) = .ok r₀)
    {i : Nat} {j : Job} (hj : jobs[i]? = some j) :
    ∃ sv, Pairs (g.new i s.cfg.resultPath) (g.new i s.cfg.resultPath) sv ∧
      Apart (dirOf (fs₀ s.cfg.resultPath)) (g.new i s.cfg.resultPath) ∧ Plain (g.new i s.cfg.resultPath) ∧
      (∀ p ∈ sv, Match (result s.cfg) p.1 p.2) ∧ (∀ p ∈ sv, PairOk p) ∧
      (∀ b, (recorded sv).count b ≤ if j.sects.any (fun s' => s'.cfg.resultPath = s.cfg.resultPath) then 1 else 0) ∧
      (∀ b ∈ recorded sv, b ∈ s.blocks ∧ b ∉ r₀) ∧
      ((P.runs i).complete → s ∈ j.sects → ∃ r₁, FileStore.initialRecord (dirOf (g.base i s.cfg.resultPath)) = .ok r₁ ∧
        ∀ b ∈ s.blocks, b ∈ r₁ ∨ b ∈ recorded sv) := by
  by_cases hu : Uses j s.cfg.resultPath
  · obtain ⟨s', hs', hp⟩ := hu
    have hjm := List.mem_of_getElem? hj
    obtain rfl := H.agree j hjm j₀ (List.mem_of_getElem? hj₀) s' hs' s hs hp
    have hi := H.input j hjm
    have hpo := H.possible j hjm
    have hkept := reach_kept hi hpo (h.opens i j hj) (h.reach i j hj) s' hs'
    rw [Prog.fs_withFs] at hkept
    obtain ⟨r₁, sv, f1, f2, f3, f4, f5, f6, f7, f8, f9, f10⟩ := facts (C := (P.runs i).complete) hkept (fun hc => by
      have := reach_complete hi hpo (h.opens i j hj) (h.reach i j hj) (by simpa using hc) s' hs'
      rwa [Prog.fs_withFs] at this) (hi.blocks s' hs') (h.base i s'.cfg.resultPath)
    have hlow : g.new i s'.cfg.resultPath ≠ [] → dirOf (fs₀ s'.cfg.resultPath) <+: dirOf (g.base i s'.cfg.resultPath) := by
      intro hne
      refine h.lower i _ ?_
      have := h.base i s'.cfg.resultPath
      cases hv : g.view i s'.cfg.resultPath with
      | some d => rfl
      | none =>
        rw [hv] at this
        exact absurd (List.append_eq_nil_iff.1 this.symm).2 hne
    refine ⟨sv, f4, ?_, ?_, f6, f7, fun b => ?_, fun b hb => ⟨(f9 b hb).1, fun hr0 => (f9 b hb).2 ?_⟩, fun hc _ => ⟨r₁, f1, f10 hc⟩⟩
    · intro f hf e he
      exact f5 f hf e ((hlow (List.ne_nil_of_mem hf)).subset he)
    · intro e he
      refine f3 e ?_
      rw [h.base i]
      exact List.mem_append_right _ he
    · rw [if_pos (by simpa using ⟨s', hs', rfl⟩)]
      exact List.nodup_iff_count_le_one.1 f8 b
    · refine initialRecord_prefix f2 (hlow fun h0 => ?_) hr f1 b hr0
      rw [h0] at f4
      cases f4
      cases hb
  · have hnew : g.new i s.cfg.resultPath = [] := by
      by_contra h0
      obtain ⟨j', h1, h2⟩ := h.used i _ h0
      rw [hj] at h1
      exact hu (Option.some.inj h1 ▸ h2)
    rw [hnew]
    refine ⟨[], .nil, by simp [Apart], by simp [Plain], by simp, by simp, by simp [recorded], by simp [recorded],
      fun _ hsj => absurd ⟨s, hsj, rfl⟩ hu⟩

theorem sum_range {α : Type} (l : List α) (f : Option α → Nat) :
    ((List.range l.length).map fun i => f l[i]?).sum = (l.map fun x => f (some x)).sum := by
  congr 1
  apply List.ext_getElem
  · simp
  · intro i h1 h2
    simp at h1
    simp [h1]

theorem sum_uses (jobs : List Job) (p : List Char) :
    (jobs.map fun j => if j.sects.any (fun s' => s'.cfg.resultPath = p) then 1 else 0).sum = (users jobs p).length := by
  unfold users
  induction jobs with
  | nil => rfl
  | cons j jobs ih =>
    rw [List.map_cons, List.sum_cons, ih, List.filter_cons]
    split
    · rw [List.length_cons]; omega
    · omega

/-- What all runs have added to a directory. -/
theorem Inv.content (h : Inv env jobs fs₀ P g) (H : Jobs env result jobs) {i₀ : Nat} {j₀ : Job} (hj₀ : jobs[i₀]? = some j₀)
    {s : Sect} (hs : s ∈ j₀.sects) (hn : (dirOf (fs₀ s.cfg.resultPath)).NamesDiffer)
    (hpl : Plain (dirOf (fs₀ s.cfg.resultPath)))
    {r₀ : OSet Block} (hr : FileStore.initialRecord (dirOf (fs₀ s.cfg.resultPath)) = .ok r₀) :
    ∃ ps, Plain (dirOf (P.fs s.cfg.resultPath)) ∧ Pairs (dirOf (P.fs s.cfg.resultPath)) (g.all s.cfg.resultPath) ps ∧
      Apart (dirOf (fs₀ s.cfg.resultPath)) (g.all s.cfg.resultPath) ∧
      (∀ p ∈ ps, Match (result s.cfg) p.1 p.2) ∧ (∀ p ∈ ps, PairOk p) ∧
      (∀ b, (recorded ps).count b ≤ (users jobs s.cfg.resultPath).length) ∧
      (∀ b ∈ recorded ps, b ∈ s.blocks ∧ b ∉ r₀) ∧
      FileStore.initialRecord (dirOf (P.fs s.cfg.resultPath)) =
        .ok ((ps.flatMap fun p => (pairReads p).1).foldl OSet.insert r₀) ∧
      ∀ i j, jobs[i]? = some j → (P.runs i).complete → s ∈ j.sects → ∀ b ∈ s.blocks, b ∈ r₀ ∨ b ∈ recorded ps := by
  have hrun : ∀ i, ∃ sv, i < jobs.length → Pairs (g.new i s.cfg.resultPath) (g.new i s.cfg.resultPath) sv ∧
      Apart (dirOf (fs₀ s.cfg.resultPath)) (g.new i s.cfg.resultPath) ∧ Plain (g.new i s.cfg.resultPath) ∧
      (∀ p ∈ sv, Match (result s.cfg) p.1 p.2) ∧ (∀ p ∈ sv, PairOk p) ∧
      (∀ b, (recorded sv).count b ≤ match jobs[i]? with
        | some j => if j.sects.any (fun s' => s'.cfg.resultPath = s.cfg.resultPath) then 1 else 0
        | none => 0) ∧
      (∀ b ∈ recorded sv, b ∈ s.blocks ∧ b ∉ r₀) ∧
      (∀ j, jobs[i]? = some j → (P.runs i).complete → s ∈ j.sects → ∃ r₁,
        FileStore.initialRecord (dirOf (g.base i s.cfg.resultPath)) = .ok r₁ ∧
        ∀ b ∈ s.blocks, b ∈ r₁ ∨ b ∈ recorded sv) := by
    intro i
    by_cases hi : i < jobs.length
    · obtain ⟨sv, h1, h2, h3, h4, h5, h6, h7, h8⟩ := h.run H hj₀ hs hr (List.getElem?_eq_getElem hi)
      refine ⟨sv, fun _ => ⟨h1, h2, h3, h4, h5, ?_, h7, ?_⟩⟩
      · rw [List.getElem?_eq_getElem hi]
        exact h6
      · intro j hj
        rw [List.getElem?_eq_getElem hi] at hj
        cases hj
        exact h8
    · exact ⟨[], fun h => absurd h hi⟩
  choose sv hsv using hrun
  have hall := h.all s.cfg.resultPath
  have hreal := h.real s.cfg.resultPath
  have hin : ∀ i < jobs.length, ∀ e ∈ g.new i s.cfg.resultPath, e ∈ g.all s.cfg.resultPath := by
    intro i hi e he
    exact hall.mem_iff.2 (List.mem_flatMap.2 ⟨i, List.mem_range.2 hi, he⟩)
  have hout : ∀ e ∈ g.all s.cfg.resultPath, ∃ i < jobs.length, e ∈ g.new i s.cfg.resultPath := by
    intro e he
    obtain ⟨i, hi, he⟩ := List.mem_flatMap.1 (hall.mem_iff.1 he)
    exact ⟨i, List.mem_range.1 hi, he⟩
  have hp1 : Pairs (dirOf (P.fs s.cfg.resultPath)) ((List.range jobs.length).flatMap fun i => g.new i s.cfg.resultPath)
      ((List.range jobs.length).flatMap sv) :=
    Pairs.flatMap _ fun i hi => (hsv i (List.mem_range.1 hi)).1.mono fun e he => by
      rw [hreal]
      exact List.mem_append_right _ (hin i (List.mem_range.1 hi) e he)
  obtain ⟨ps, hp2, hp3⟩ := hp1.perm hall
  have hmem : ∀ p, p ∈ ps → ∃ i < jobs.length, p ∈ sv i := by
    intro p hp
    obtain ⟨i, hi, hp⟩ := List.mem_flatMap.1 (hp3.mem_iff.1 hp)
    exact ⟨i, List.mem_range.1 hi, hp⟩
  have hrec : ∀ b, b ∈ recorded ps ↔ ∃ i < jobs.length, b ∈ recorded (sv i) := by
    intro b
    unfold recorded
    constructor
    · intro hb
      obtain ⟨p, hp, hb⟩ := List.mem_flatMap.1 hb
      obtain ⟨i, hi, hp⟩ := hmem p hp
      exact ⟨i, hi, List.mem_flatMap.2 ⟨p, hp, hb⟩⟩
    · rintro ⟨i, hi, hb⟩
      obtain ⟨p, hp, hb⟩ := List.mem_flatMap.1 hb
      exact List.mem_flatMap.2 ⟨p, hp3.mem_iff.2 (List.mem_flatMap.2 ⟨i, List.mem_range.2 hi, hp⟩), hb⟩
  have hap : Apart (dirOf (fs₀ s.cfg.resultPath)) (g.all s.cfg.resultPath) := by
    intro f hf
    obtain ⟨i, hi, hf⟩ := hout f hf
    exact (hsv i hi).2.1 f hf
  have hok : ∀ p ∈ ps, PairOk p := by
    intro p hp
    obtain ⟨i, hi, hp⟩ := hmem p hp
    exact (hsv i hi).2.2.2.2.1 p hp
  have hnm := h.names _ hn
  have hini : FileStore.initialRecord (dirOf (P.fs s.cfg.resultPath)) =
        .ok ((ps.flatMap fun p => (pairReads p).1).foldl OSet.insert r₀) := by
    rw [hreal] at hp2 hnm ⊢
    exact initial_pairs hnm hap hp2 hok hr
  refine ⟨ps, ?_, hp2, hap, ?_, hok, ?_, ?_, hini, ?_⟩
  · rw [hreal]
    intro e he
    rcases List.mem_append.1 he with he | he
    · exact hpl e he
    · obtain ⟨i, hi, he⟩ := hout e he
      exact (hsv i hi).2.2.1 e he
  · intro p hp
    obtain ⟨i, hi, hp⟩ := hmem p hp
    exact (hsv i hi).2.2.2.1 p hp
  · intro b
    have h1 : (recorded ps).count b = (((List.range jobs.length).flatMap fun i => recorded (sv i))).count b := by
      refine List.Perm.count_eq ?_ b
      have h2 : (recorded ps).Perm (recorded ((List.range jobs.length).flatMap sv)) := hp3.flatMap_right _
      refine h2.trans (List.Perm.of_eq ?_)
      unfold recorded
      rw [List.flatMap_assoc]
    rw [h1, List.count_flatMap, ← sum_uses]
    rw [← sum_range jobs fun o => match o with
      | some j => if j.sects.any (fun s' => s'.cfg.resultPath = s.cfg.resultPath) then 1 else 0
      | none => 0]
    refine List.sum_le_sum ?_
    intro i hi
    exact (hsv i (List.mem_range.1 hi)).2.2.2.2.2.1 b
  · intro b hb
    obtain ⟨i, hi, hb⟩ := (hrec b).1 hb
    exact (hsv i hi).2.2.2.2.2.2.1 b hb
  · intro i j hj hc hsj b hb
    have hi : i < jobs.length := (List.getElem?_eq_some_iff.1 hj).1
    obtain ⟨r₁, h1, h2⟩ := (hsv i hi).2.2.2.2.2.2.2 j hj hc hsj
    rcases h2 b hb with h2 | h2
    · have h3 := initialRecord_prefix hnm (h.upper i _) h1 hini b h2
      rw [Record.mem_foldl_insert] at h3
      rcases h3 with h3 | h3
      · exact Or.inl h3
      · obtain ⟨p, hp, hb'⟩ := List.mem_flatMap.1 h3
        have hne := (H.input j (List.mem_of_getElem? hj)).nonempty s hsj b hb
        exact Or.inr (List.mem_flatMap.2 ⟨p, hp, (mem_pairReads hne).1 hb'⟩)
    · exact Or.inr ((hrec b).2 ⟨i, hi, h2⟩)

end

end Parallel
end Hycu
