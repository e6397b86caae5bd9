import Verif.Lemmas.PoolLive
import Verif.Lemmas.RunDir

/-!
Where the results of the blocks are in the course of a run.
-/

namespace Hycu
namespace Run

/-- Pairs that can be found in the directory of a section. -/
structure Sound (result : ConfigNode → Block → StoreMap) (s : Sect) (ps : List (OSet Block × StoreMap)) : Prop where
  tally : ∀ p ∈ ps, Match (result s.cfg) p.1 p.2
  once : (recorded ps).Subperm s.blocks

/-- The directory of a section that is not being written. -/
def KeptIn (L : Layout) (result : ConfigNode → Block → StoreMap) (fs : FileSystem) (s : Sect) : Prop :=
  (fs s.cfg.resultPath = none ∧ L.holds s [] []) ∨
    ∃ d ps, fs s.cfg.resultPath = some d ∧ Plain d ∧ L.holds s d ps ∧ Sound result s ps

/-- The directory of a section for which all blocks have been recorded. -/
def CompleteIn (L : Layout) (result : ConfigNode → Block → StoreMap) (fs : FileSystem) (s : Sect) : Prop :=
  ∃ d ps, fs s.cfg.resultPath = some d ∧ Plain d ∧ L.holds s d ps ∧ Sound result s ps ∧ (recorded ps).Perm s.blocks

theorem CompleteIn.kept {L : Layout} {result : ConfigNode → Block → StoreMap} {fs : FileSystem} {s : Sect} (h : CompleteIn L result fs s) :
    KeptIn L result fs s := by
  obtain ⟨d, ps, h1, h2, h3, h4, _⟩ := h
  exact Or.inr ⟨d, ps, h1, h2, h3, h4⟩

/-- The blocks of the jobs that have the given tables. -/
def blocksOf (tb : Tables) (l : List (Nat × Job)) : List Block :=
  (l.filter fun e => e.2.tables = some tb).map fun e => e.2.block

/-- What is still to be written. -/
def Pc.writes : Pc → List (List Char × List Char)
  | .write ws _ => ws
  | _ => []

/-- The next configuration has been verified. -/
def Pc.ver : Pc → Bool
  | .wait .config | .save .config | .write _ .config | .newStore | .update => true
  | _ => false

/-- A block is about to be assigned. -/
def Pc.filling : Pc → Bool
  | .fillFinished | .fillReady | .take => true
  | _ => false

/-- The current section: `ps₀` was recorded before, `sv` has been saved since. -/
structure CurIn (L : Layout) (result : ConfigNode → Block → StoreMap) (s : Sect) (done : List Block) (tb : Tables) (st : State)
    (d : Dir) (ps w ps₀ sv : List (OSet Block × StoreMap)) : Prop where
  dir : st.fs s.cfg.resultPath = some d
  plain : Plain d
  holding : HoldingIn L s d st.pc.writes ps w
  split : ps ++ w = ps₀ ++ sv
  sound : Sound result s ps₀
  tally : ∀ p ∈ sv, Match (result s.cfg) p.1 p.2
  static : Match (result s.cfg) st.static.record st.static.store
  asg : (blocksOf tb (assignedJobs st.log)).Perm (done.filter fun b => b ∉ recorded ps₀)
  law : (recorded sv ++ st.static.record).Perm (blocksOf tb (flushedJobs st.log))
  store : st.pc ≠ .update → ∃ f, st.fileStore = some f ∧ f.valid = true ∧ 
      ∀ b ∈ s.blocks, b ≠ [] → (FileStore.contains f.initial b = true ↔ b ∈ recorded ps₀)

/-- What the directories contain in the course of a run: the layout of the directory of a section that follows the given
sections, and what a directory may be after the given sections. -/
structure Course where
  layout : List Sect → Layout
  after : List Sect → List Char → Option Dir → Prop

/-- The course is kept by the sections. -/
structure Course.Keeps (P : Course) (result : ConfigNode → Block → StoreMap) (ss : List Sect) : Prop where
  other : ∀ {pre post : List Sect} {s : Sect} {p : List Char} {x : Option Dir}, ss = pre ++ s :: post →
    p ≠ s.cfg.resultPath → P.after pre p x → P.after (pre ++ [s]) p x
  created : ∀ {pre : List Sect} {p : List Char}, P.after pre p none → P.after pre p (some [])
  opens : ∀ {pre post : List Sect} {s : Sect} {d : Dir}, ss = pre ++ s :: post → P.after pre s.cfg.resultPath (some d) →
    ∃ ps, Plain d ∧ (P.layout pre).holds s d ps ∧ Sound result s ps
  closes : ∀ {pre post : List Sect} {s : Sect} {d : Dir} {ps : List (OSet Block × StoreMap)}, ss = pre ++ s :: post →
    Plain d → (P.layout pre).holds s d ps → Sound result s ps → (recorded ps).Perm s.blocks →
    P.after (pre ++ [s]) s.cfg.resultPath (some d)

/-- The data of a run. -/
structure DataInvIn (P : Course) (result : ConfigNode → Block → StoreMap) (ss : List Sect) (st : State) : Prop where
  sects : (st.todo = program ss ∧ st.current = none ∧ ∀ p, P.after [] p (st.fs p)) ∨
    ∃ pre s post done rest tb, At ss st pre s post done rest tb ∧
      (∀ p, p ≠ s.cfg.resultPath → P.after pre p (st.fs p)) ∧
      ∃ d ps w ps₀ sv, CurIn (P.layout pre) result s done tb st d ps w ps₀ sv
  ver : st.pc.ver = true → ∀ c rest, st.todo = .config c :: rest → ∃ d, st.fs c.resultPath = some d
  next : st.pc = .update → ∀ c rest, st.todo = .config c :: rest → ∃ f d, st.fileStore = some f ∧ f.valid = true ∧
    st.fs c.resultPath = some d ∧ FileStore.initialRecord d = .ok f.initial
  free : st.pc.filling = true → ∀ b rest, st.todo = .assign b :: rest → ∀ f, st.fileStore = some f →
    FileStore.contains f.initial b = false

section

variable {L : Layout} {P : Course} {env : Env} {result : ConfigNode → Block → StoreMap} {ss : List Sect} {st st' : State}

/-- Steps that do not concern the data. -/
theorem DataInvIn.quiet (h : DataInvIn P result ss st) (h1 : st'.fs = st.fs) (h2 : st'.static = st.static)
    (h3 : st'.fileStore = st.fileStore) (h4 : st'.todo = st.todo) (h5 : st'.current = st.current)
    (h6 : assignedJobs st'.log = assignedJobs st.log) (h7 : flushedJobs st'.log = flushedJobs st.log)
    (h8 : st'.pc.writes = st.pc.writes) (h9 : st'.pc.ver = true → st.pc.ver = true)
    (h10 : st'.pc = .update ↔ st.pc = .update) (h11 : st'.pc.filling = true → st.pc.filling = true) :
    DataInvIn P result ss st' := by
  refine ⟨?_, ?_, ?_, ?_⟩
  · rcases h.sects with ⟨a1, a2, a3⟩ | ⟨pre, s, post, done, rest, tb, ha, a1, d, ps, w, ps₀, sv, hc⟩
    · exact Or.inl ⟨by rw [h4]; exact a1, by rw [h5]; exact a2, by rw [h1]; exact a3⟩
    · refine Or.inr ⟨pre, s, post, done, rest, tb, ⟨ha.sections, ha.blocks, by rw [h4]; exact ha.todo,
        by rw [h5]; exact ha.current, ha.cfg⟩, by rw [h1]; exact a1, d, ps, w, ps₀, sv, ?_⟩
      exact ⟨by rw [h1]; exact hc.dir, hc.plain, by rw [h8]; exact hc.holding, hc.split, hc.sound, hc.tally,
        by rw [h2]; exact hc.static, by rw [h6]; exact hc.asg, by rw [h2, h7]; exact hc.law,
        by rw [h3]; exact fun hu => hc.store fun h => hu (h10.2 h)⟩
  · rw [h4, h1]
    exact fun hv => h.ver (h9 hv)
  · rw [h4, h1, h3]
    exact fun hu => h.next (h10.1 hu)
  · rw [h4, h3]
    exact fun hf => h.free (h11 hf)

/-- The blocks of jobs with the same tables are different. -/
theorem blocksOf_nodup {l : List (Nat × Job)} (h : (l.map Prod.snd).Nodup) (tb : Tables) : (blocksOf tb l).Nodup := by
  unfold blocksOf
  rw [List.nodup_map_iff_inj_on]
  · intro a ha b hb hab
    have ha' := List.mem_filter.1 ha
    have hb' := List.mem_filter.1 hb
    have h1 : a.2.tables = some tb := by simpa using ha'.2
    have h2 : b.2.tables = some tb := by simpa using hb'.2
    have h3 : a.2 = b.2 := by
      cases ha2 : a.2 with
      | mk x y =>
        cases hb2 : b.2 with
        | mk x' y' =>
          rw [ha2] at hab h1
          rw [hb2] at hab h2
          simp only at hab h1 h2
          rw [hab, h1, h2]
    exact List.inj_on_of_nodup_map h ha'.1 hb'.1 h3
  · exact (List.Nodup.of_map _ h).filter _

theorem Good.flushed_nodup {kinds : List Bool} (h : Good env kinds ss st) : ((flushedJobs st.log).map Prod.snd).Nodup := by
  have h1 : List.Subperm (flushedJobs st.log) (assignedJobs st.log) := by
    refine List.subperm_iff_count.2 fun e => ?_
    have h2 := h.count e.1 e.2
    have h3 : (flushedJobs st.log).count (e.1, e.2) ≤ (assignedJobs st.log).count (e.1, e.2) := by omega
    convert h3
  obtain ⟨l, h2, h3⟩ := h1
  exact (h2.map Prod.snd).nodup_iff.1 ((h3.map Prod.snd).nodup h.once.nodup)

theorem Good.flushed_sub {kinds : List Bool} (h : Good env kinds ss st) (tb : Tables) :
    (blocksOf tb (flushedJobs st.log)).Subperm (blocksOf tb (assignedJobs st.log)) := by
  have h1 : List.Subperm (flushedJobs st.log) (assignedJobs st.log) := by
    refine List.subperm_iff_count.2 fun e => ?_
    have h2 := h.count e.1 e.2
    have h3 : (flushedJobs st.log).count (e.1, e.2) ≤ (assignedJobs st.log).count (e.1, e.2) := by omega
    convert h3
  obtain ⟨l, h2, h3⟩ := h1
  exact ⟨_, (h2.filter _).map _, (h3.filter _).map _⟩

theorem filter_recorded {blocks r : List Block} (hn : blocks.Nodup) (hs : r.Subperm blocks) :
    (r ++ blocks.filter fun b => b ∉ r).Perm blocks := by
  have hr : r.Nodup := by
    obtain ⟨l, h1, h2⟩ := hs
    exact h1.nodup_iff.1 (h2.nodup hn)
  refine (List.perm_ext_iff_of_nodup ?_ hn).2 fun b => ?_
  · refine List.nodup_append.2 ⟨hr, hn.filter _, ?_⟩
    rintro a ha b hb rfl
    have := (List.mem_filter.1 hb).2
    simp only [decide_eq_true_eq] at this
    exact this ha
  · rw [List.mem_append, List.mem_filter]
    simp only [decide_eq_true_eq]
    constructor
    · rintro (h | h)
      · exact hs.subset h
      · exact h.1
    · intro h
      by_cases hb : b ∈ r
      · exact Or.inl hb
      · exact Or.inr ⟨h, hb⟩

/-- At any time, what the directory contains or will contain is sound. -/
theorem CurIn.kept {s : Sect} {done : List Block} {tb : Tables} {d : Dir} {ps w ps₀ sv : List (OSet Block × StoreMap)}
    {kinds : List Bool} (h : CurIn L result s done tb st d ps w ps₀ sv) (hg : Good env kinds ss st) (hn : s.blocks.Nodup)
    {rest : List Block} (hb : s.blocks = done ++ rest) : Sound result s (ps ++ w) := by
  rw [h.split]
  refine ⟨fun p hp => ?_, ?_⟩
  · rcases List.mem_append.1 hp with hp | hp
    · exact h.sound.tally p hp
    · exact h.tally p hp
  · rw [recorded_append]
    have h1 : (recorded sv).Subperm (s.blocks.filter fun b => b ∉ recorded ps₀) := by
      refine (List.sublist_append_left (recorded sv) st.static.record).subperm.trans ?_
      refine h.law.subperm.trans ((hg.flushed_sub tb).trans (h.asg.subperm.trans ?_))
      rw [hb, List.filter_append]
      exact (List.sublist_append_left _ _).subperm
    refine (List.Subperm.append (List.Subperm.refl _) h1).trans ?_
    exact (filter_recorded hn h.sound.once).subperm

theorem total_nonneg {l : List (Key × Int)} (h : ∀ e ∈ l, 0 ≤ e.2) (k : Key) : 0 ≤ total l k := by
  unfold total
  refine List.sum_nonneg fun z hz => ?_
  obtain ⟨e, he, rfl⟩ := List.mem_map.1 hz
  exact h e (List.mem_filter.1 he).1

/-- Whatever is saved can be read back. -/
theorem pairOk_of {s : Sect} (hi : Tasks env ss result) (hs : s ∈ ss) {r : OSet Block} {m : StoreMap}
    (hm : Match (result s.cfg) r m) (hr : List.Subperm r s.blocks) : PairOk (r, m) := by
  refine ⟨hm.record_sorted, fun b hb => hi.fit s hs b (hr.subset hb), hm.tally.sorted, fun e he => ?_, fun e he => ?_⟩
  · have h1 := ((hm.tally.entry e.1 e.2).1 he).1
    obtain ⟨e', he', h2⟩ := List.mem_map.1 h1
    obtain ⟨b, hb, h3⟩ := List.mem_flatMap.1 he'
    rw [← h2]
    exact hi.keys s hs b (hr.subset hb) e' h3
  · have h1 := ((hm.tally.entry e.1 e.2).1 he).2
    have hnn : ∀ (l : List Block), (∀ b ∈ l, b ∈ s.blocks) → 0 ≤ total (l.flatMap (result s.cfg)) e.1 := by
      intro l hl
      refine total_nonneg (fun x hx => ?_) _
      obtain ⟨b, hb, h3⟩ := List.mem_flatMap.1 hx
      exact hi.counts s hs b (hl b hb) x h3
    have h2 := (filter_recorded (hi.blocks s hs) hr).flatMap_right (result s.cfg)
    have h3 := total_perm h2 e.1
    rw [List.flatMap_append, total_append] at h3
    have h4 := hi.small s hs e.1
    have h5 := hnn r fun b hb => hr.subset hb
    have h6 := hnn (s.blocks.filter fun b => b ∉ r) fun b hb => (List.mem_filter.1 hb).1
    unfold Small at h4 ⊢
    rw [h1]
    omega

/-- What `verify` does to the files. -/
theorem verify_fs {c : ConfigNode} {fs : FileSystem} {create : Bool} {v : FileSystem × Bool}
    (h : c.verify fs (.ok create) = .ok v) :
    (∀ p d, fs p = some d → v.1 p = some d) ∧ (∀ p, fs p = none → v.1 p = none ∨ v.1 p = some []) ∧
      (v.2 = true → ∃ d, v.1 c.resultPath = some d) := by
  unfold ConfigNode.verify at h
  split at h
  · split at h
    · rename_i hp
      cases h
      exact ⟨fun p d h => h, fun p h => Or.inl h, fun _ => Option.isSome_iff_exists.1 hp⟩
    · rename_i hp
      cases create with
      | false =>
        cases h
        exact ⟨fun p d h => h, fun p h => Or.inl h, fun h => by cases h⟩
      | true =>
        cases h
        refine ⟨fun p d h => ?_, fun p h => ?_, fun _ => ⟨[], by simp [FileSystem.set]⟩⟩
        · have : p ≠ c.resultPath := by
            rintro rfl
            rw [h] at hp
            exact hp rfl
          simp [FileSystem.set, this, h]
        · by_cases hpc : p = c.resultPath
          · exact Or.inr (by simp [FileSystem.set, hpc])
          · exact Or.inl (by simp [FileSystem.set, hpc, h])
  · cases h
    exact ⟨fun p d h => h, fun p h => Or.inl h, fun h => by cases h⟩

theorem KeptIn.mono {fs fs' : FileSystem} {s : Sect} (h : KeptIn L result fs s) (h1 : ∀ p d, fs p = some d → fs' p = some d)
    (h2 : ∀ p, fs p = none → fs' p = none ∨ fs' p = some []) : KeptIn L result fs' s := by
  rcases h with ⟨h, he⟩ | ⟨d, ps, h3, h4, h5, h6⟩
  · rcases h2 _ h with h | h
    · exact Or.inl ⟨h, he⟩
    · exact Or.inr ⟨[], [], h, (by intro e he; cases he), he, (by simp), List.nil_subperm⟩
  · exact Or.inr ⟨d, ps, h1 _ _ h3, h4, h5, h6⟩

theorem KeptIn.congr {fs fs' : FileSystem} {s : Sect} (h : KeptIn L result fs s)
    (h1 : fs' s.cfg.resultPath = fs s.cfg.resultPath) : KeptIn L result fs' s := by
  unfold KeptIn
  rw [h1]
  exact h

theorem CompleteIn.congr {fs fs' : FileSystem} {s : Sect} (h : CompleteIn L result fs s)
    (h1 : fs' s.cfg.resultPath = fs s.cfg.resultPath) : CompleteIn L result fs' s := by
  unfold CompleteIn
  rw [h1]
  exact h

theorem DataInvIn.mainConfig (h : DataInvIn P result ss st) (hP : P.Keeps result ss) (hpc : st.pc = .main) {c : ConfigNode} {rest : List Cmd}
    (ht : st.todo = .config c :: rest) {create : Bool} {v : FileSystem × Bool}
    (hv : c.verify st.fs (.ok create) = .ok v) :
    DataInvIn P result ss { st with fs := v.1, pc := if v.2 then .wait .config else .wait .exit } := by
  obtain ⟨h1, h2, h3⟩ := verify_fs hv
  have hafter : ∀ {pre : List Sect} {p : List Char}, P.after pre p (st.fs p) → P.after pre p (v.1 p) := by
    intro pre p ha
    cases hp : st.fs p with
    | some d => rw [h1 p d hp, ← hp]; exact ha
    | none =>
      rw [hp] at ha
      rcases h2 p hp with h | h <;> rw [h]
      · exact ha
      · exact hP.created ha
  have hpc' : ∀ b : Bool, (if b = true then Pc.wait .config else Pc.wait .exit).writes = [] ∧
      (if b = true then Pc.wait .config else Pc.wait .exit) ≠ .update ∧
      (if b = true then Pc.wait .config else Pc.wait .exit).filling = false := by
    intro b
    cases b <;> exact ⟨rfl, by simp, rfl⟩
  refine ⟨?_, ?_, fun hu => absurd hu (hpc' v.2).2.1, fun hu => ?_⟩
  · rcases h.sects with ⟨a1, a2, a3⟩ | ⟨pre, s, post, done, rest, tb, ha, a1, d, ps, w, ps₀, sv, hc⟩
    · exact Or.inl ⟨a1, a2, fun p => hafter (a3 p)⟩
    · refine Or.inr ⟨pre, s, post, done, rest, tb, ⟨ha.sections, ha.blocks, ha.todo, ha.current, ha.cfg⟩,
        fun p hp => hafter (a1 p hp), d, ps, w, ps₀, sv, ?_⟩
      · have hh := hc.holding
        rw [hpc] at hh
        exact ⟨h1 _ _ hc.dir, hc.plain, by rw [(hpc' v.2).1]; exact hh, hc.split, hc.sound, hc.tally, hc.static, hc.asg,
          hc.law, fun _ => hc.store (by rw [hpc]; simp)⟩
  · intro hver c' rest' ht'
    have : st.todo = .config c' :: rest' := ht'
    rw [ht] at this
    cases this
    refine h3 ?_
    cases hv2 : v.2 with
    | true => rfl
    | false =>
      simp only [hv2] at hver
      cases hver
  · rw [(hpc' v.2).2.2] at hu
    cases hu

theorem DataInvIn.newStore (h : DataInvIn P result ss st) (hpc : st.pc = .newStore) {c : ConfigNode} {rest : List Cmd}
    (ht : st.todo = .config c :: rest) {d : Dir} (hd : st.fs c.resultPath = some d) {r : OSet Block}
    (hr : FileStore.initialRecord d = .ok r) :
    DataInvIn P result ss { st with fileStore := some ⟨c, true, r⟩, pc := .update } := by
  refine ⟨?_, ?_, ?_, fun h => by cases h⟩
  · rcases h.sects with ⟨a1, a2, a3⟩ | ⟨pre, s, post, done, rest, tb, ha, a1, d, ps, w, ps₀, sv, hc⟩
    · exact Or.inl ⟨a1, a2, a3⟩
    · have hh := hc.holding
      rw [hpc] at hh
      exact Or.inr ⟨pre, s, post, done, rest, tb, ⟨ha.sections, ha.blocks, ha.todo, ha.current, ha.cfg⟩, a1,
        d, ps, w, ps₀, sv, hc.dir, hc.plain, hh, hc.split, hc.sound, hc.tally, hc.static, hc.asg, hc.law,
        fun hu => absurd rfl hu⟩
  · intro _ c' rest' ht'
    have : st.todo = .config c' :: rest' := ht'
    rw [ht] at this
    cases this
    exact ⟨d, hd⟩
  · intro _ c' rest' ht'
    have : st.todo = .config c' :: rest' := ht'
    rw [ht] at this
    cases this
    exact ⟨_, d, rfl, rfl, hd, hr⟩

/-- After waiting, everything that was to be done for the section is in its directory. -/
theorem CurIn.complete {s : Sect} {tb : Tables} {d : Dir} {ps w ps₀ sv : List (OSet Block × StoreMap)}
    {kinds : List Bool} (h : CurIn L result s s.blocks tb st d ps w ps₀ sv) (hg : Good env kinds ss st) (hn : s.blocks.Nodup)
    (hq : (flushedJobs st.log).Perm (assignedJobs st.log)) (hc : st.pc.clean = true) (hw : st.pc.writes = []) :
    CompleteIn L result st.fs s := by
  have hr : st.static.record = [] := by
    rw [List.eq_nil_iff_forall_not_mem]
    intro b hb
    have := (hg.pend.gathers.mem b).1 hb
    rw [hg.pend.clean hc] at this
    obtain ⟨j, hj, _⟩ := this
    cases hj
  have hh := h.holding
  rw [hw] at hh
  obtain ⟨h1, rfl⟩ := hh.done
  have hs := h.kept hg hn (List.append_nil _).symm
  have h2 := h.split
  rw [List.append_nil] at h2 hs
  refine ⟨d, ps, h.dir, h.plain, h1, hs, ?_⟩
  rw [h2, recorded_append]
  have h3 := h.law
  rw [hr, List.append_nil] at h3
  have h4 : (recorded sv).Perm (s.blocks.filter fun b => b ∉ recorded ps₀) :=
    h3.trans ((((hq.filter _).map _)).trans h.asg)
  exact (h4.append_left _).trans (filter_recorded hn h.sound.once)

theorem blocksOf_none {tb : Tables} {l : List (Nat × Job)} (h : ∀ e ∈ l, e.2.tables ≠ some tb) : blocksOf tb l = [] := by
  unfold blocksOf
  rw [List.filter_eq_nil_iff.2]
  · rfl
  · intro e he
    simpa using h e he

theorem blocksOf_cons_pos {tb : Tables} {e : Nat × Job} {l : List (Nat × Job)} (h : e.2.tables = some tb) :
    blocksOf tb (e :: l) = e.2.block :: blocksOf tb l := by
  unfold blocksOf
  rw [List.filter_cons_of_pos (by simpa using h)]
  rfl

theorem DataInvIn.update {kinds : List Bool} (h : DataInvIn P result ss st) (hP : P.Keeps result ss) (hi : Tasks env ss result)
    (hg : Good env kinds ss st) (hq : (flushedJobs st.log).Perm (assignedJobs st.log)) (hpc : st.pc = .update)
    {c : ConfigNode} {rest : List Cmd} (ht : st.todo = .config c :: rest) :
    DataInvIn P result ss (updateStep st c rest) := by
  refine ⟨?_, (by intro hv; cases hv), (by intro hv; cases hv), (by intro hv; cases hv)⟩
  right
  obtain ⟨f, d, hf, hv, hd, hr⟩ := h.next hpc c rest ht
  -- the next section
  have key : ∃ pre s post, ss = pre ++ s :: post ∧ s.cfg = c ∧ rest = s.blocks.map .assign ++ program post ∧
      ∀ p, P.after pre p (st.fs p) := by
    rcases h.sects with ⟨a1, a2, a3⟩ | ⟨pre, s, post, done, rs, tb, ha, a1, d, ps, w, ps₀, sv, hc⟩
    · rw [ht] at a1
      cases ss with
      | nil => cases a1
      | cons s ss =>
        obtain ⟨b1, b2⟩ := List.cons_eq_cons.1 a1
        cases b1
        exact ⟨[], s, ss, rfl, rfl, b2, a3⟩
    · have b0 := ha.todo
      rw [ht] at b0
      cases rs with
      | cons x rs => cases b0
      | nil =>
        cases post with
        | nil => cases b0
        | cons s' post =>
          obtain ⟨b1, b2⟩ := List.cons_eq_cons.1 b0
          cases b1
          refine ⟨pre ++ [s], s', post, by rw [ha.sections, List.append_assoc]; rfl, rfl, b2, fun p => ?_⟩
          by_cases hp : p = s.cfg.resultPath
          · have hb := ha.blocks
            rw [List.append_nil] at hb
            rw [← hb] at hc
            obtain ⟨d, ps, c1, c2, c3, c4, c5⟩ :=
              hc.complete hg (hi.blocks s (by rw [ha.sections]; simp)) hq (by rw [hpc]; rfl) (by rw [hpc]; rfl)
            rw [hp, c1]
            exact hP.closes ha.sections c2 c3 c4 c5
          · exact hP.other ha.sections hp (a1 p hp)
  obtain ⟨pre, s, post, h1, rfl, h3, h4⟩ := key
  refine ⟨pre, s, post, [], s.blocks, ⟨s.cfg, st.serial⟩, ⟨h1, rfl, h3, rfl, rfl⟩, fun p _ => h4 p, ?_⟩
  have h6 := h4 s.cfg.resultPath
  rw [hd] at h6
  obtain ⟨ps, h7, h8, h9⟩ := hP.opens h1 h6
  · obtain ⟨r, h10, h11⟩ := (P.layout pre).initial h8
    rw [hr] at h10
    have hri := Res.ok.inj h10
    subst hri
    have hst : st.static.record = [] ∧ st.static.store = [] := by
      have hp := hg.pend.clean (by rw [hpc]; rfl)
      have hga := hg.pend.gathers
      rw [hp] at hga
      obtain ⟨ms, b1, b2⟩ := hga.results
      cases b1
      refine ⟨List.eq_nil_iff_forall_not_mem.2 fun b hb => ?_, b2.unique Tally.nil (List.Perm.refl _)⟩
      obtain ⟨j, hj, _⟩ := (hga.mem b).1 hb
      cases hj
    have hno : ∀ e ∈ assignedJobs st.log, e.2.tables ≠ some ⟨s.cfg, st.serial⟩ := by
      intro e he htb
      obtain ⟨tb, b1, b2⟩ := hg.once.serials e he
      rw [htb] at b1
      cases b1
      exact absurd b2 (Nat.lt_irrefl _)
    refine ⟨d, ps, [], ps, [], hd, h7, .idle _ _ h8, rfl, h9, (by simp), ?_, ?_, ?_, ?_⟩
    · show Match _ st.static.record st.static.store
      rw [hst.1, hst.2]
      exact ⟨List.Pairwise.nil, Tally.nil⟩
    · show (blocksOf _ (assignedJobs st.log)).Perm _
      rw [blocksOf_none hno]
      exact List.Perm.refl _
    · show ([] ++ st.static.record).Perm (blocksOf _ (flushedJobs st.log))
      rw [hst.1, blocksOf_none fun e he => hno e (hq.mem_iff.1 he)]
      exact List.Perm.refl _
    · exact fun _ => ⟨f, hf, hv, h11⟩

theorem DataInvIn.flush {kinds : List Bool} (h : DataInvIn P result ss st) (hi : Tasks env ss result)
    (hg : Good env kinds ss st) {i : Nat} (hlt : i < st.size) {j : Job} (hp : (st.thr i).phase = .compute j) {tb : Tables}
    (ht : j.tables = some tb) {m : StoreMap} (hm : env.compute tb.cfg j.block = .ok m) {p : Store.Static × StoreMap}
    (hf : Store.flushToStatic st.static m j.block = .ok p) (t : Thread)
    (hg' : Good env kinds ss { st.setThread i t with static := p.1, log := .flushed i j :: st.log }) :
    DataInvIn P result ss { st.setThread i t with static := p.1, log := .flushed i j :: st.log } := by
  refine ⟨?_, h.ver, h.next, h.free⟩
  have hj : j ∈ (st.thr i).jobs := by
    unfold Thread.jobs
    rw [hp]
    exact List.mem_cons_self
  obtain ⟨hc1, hc2⟩ := hg.inv.jobTables i hlt j hj
  rcases h.sects with ⟨a1, a2, a3⟩ | ⟨pre, s, post, done, rs, tb', ha, a1, d, ps, w, ps₀, sv, hc⟩
  · exact absurd a2 hc2
  · right
    have htb : tb' = tb := by
      have := ha.current
      rw [← hc1, ht] at this
      exact (Option.some.inj this).symm
    subst htb
    have hs : s ∈ ss := by rw [ha.sections]; simp
    have hasg : (i, j) ∈ assignedJobs st.log := by
      have h1 := hg.count i j
      rw [hp] at h1
      have : 0 < (assignedJobs st.log).count (i, j) := by
        rw [h1.1, h1.2.1]
        simp [Phase.computing]
      exact List.count_pos_iff.1 this
    have hb : j.block ∈ s.blocks := by
      have h1 : j.block ∈ blocksOf tb' (assignedJobs st.log) :=
        List.mem_map.2 ⟨(i, j), List.mem_filter.2 ⟨hasg, by simpa using ht⟩, rfl⟩
      have h2 := (List.mem_filter.1 (hc.asg.mem_iff.1 h1)).1
      rw [ha.blocks]
      exact List.mem_append_left _ h2
    have hres : m = result s.cfg j.block := by
      rw [ha.cfg, hi.compute s hs _ hb] at hm
      exact (Res.ok.inj hm).symm
    subst hres
    have hnew : j.block ∉ st.static.record := by
      intro hmem
      have h1 := blocksOf_nodup hg'.flushed_nodup tb'
      rw [show flushedJobs (Event.flushed i j :: st.log) = (i, j) :: flushedJobs st.log from rfl,
        blocksOf_cons_pos ht, List.nodup_cons] at h1
      exact h1.1 (hc.law.mem_iff.1 (List.mem_append_right _ hmem))
    have hstat : p.1.record = OSet.insert st.static.record j.block ∧
        Tally p.1.store (st.static.record.flatMap (result s.cfg) ++ result s.cfg j.block) := by
      unfold Store.flushToStatic at hf
      obtain ⟨m', h3, hf⟩ := Res.bind_eq_ok.1 hf
      cases hf
      exact ⟨rfl, Store.addEntries_ok _ hc.static.tally h3⟩
    have hperm : (OSet.insert st.static.record j.block).Perm (j.block :: st.static.record) :=
      OSet.perm_insert hc.static.record_sorted hnew
    refine ⟨pre, s, post, done, rs, tb', ⟨ha.sections, ha.blocks, ha.todo, ha.current, ha.cfg⟩, a1,
      d, ps, w, ps₀, sv, hc.dir, hc.plain, hc.holding, hc.split, hc.sound, hc.tally, ⟨?_, ?_⟩, hc.asg, ?_, hc.store⟩
    · show OSet.Sorted p.1.record
      rw [hstat.1]
      exact OSet.sorted_insert hc.static.record_sorted _
    · show Tally p.1.store (p.1.record.flatMap (result s.cfg))
      rw [hstat.1]
      refine hstat.2.perm ?_
      refine List.Perm.trans ?_ (hperm.flatMap_right _).symm
      rw [List.flatMap_cons]
      exact List.perm_append_comm
    · show (recorded sv ++ p.1.record).Perm (blocksOf tb' ((i, j) :: flushedJobs st.log))
      rw [hstat.1, blocksOf_cons_pos ht]
      refine (hperm.append_left _).trans ?_
      exact List.perm_middle.trans (hc.law.cons _)

/-- The directories of two sections are different. -/
theorem path_ne (hi : Input env ss result) {pre post : List Sect} {s : Sect} (hs : ss = pre ++ s :: post) :
    ∀ s', s' ∈ pre ∨ s' ∈ post → s'.cfg.resultPath ≠ s.cfg.resultPath := by
  have h := hi.paths
  rw [hs, List.map_append, List.map_cons, List.nodup_append, List.nodup_cons] at h
  rintro s' (hs' | hs')
  · exact fun he => h.2.2 _ (List.mem_map.2 ⟨s', hs', rfl⟩) _ List.mem_cons_self he
  · exact fun he => h.2.1.1 (List.mem_map.2 ⟨s', hs', he⟩)

/-- While the file store is used there is a current section, to which it belongs. -/
theorem DataInvIn.current {kinds : List Bool} (h : DataInvIn P result ss st) (hg : Good env kinds ss st)
    {f : FileStoreObj} (hf : st.fileStore = some f) (hpc : st.pc ≠ .update) :
    ∃ pre s post done rest tb, At ss st pre s post done rest tb ∧
      (∀ p, p ≠ s.cfg.resultPath → P.after pre p (st.fs p)) ∧
      ∃ d ps w ps₀ sv, CurIn (P.layout pre) result s done tb st d ps w ps₀ sv ∧
      f.config = s.cfg ∧ f.valid = true ∧ 
      ∀ b ∈ s.blocks, b ≠ [] → (FileStore.contains f.initial b = true ↔ b ∈ recorded ps₀) := by
  rcases h.sects with ⟨a1, a2, a3⟩ | ⟨pre, s, post, done, rs, tb, ha, a1, d, ps, w, ps₀, sv, hc⟩
  · exact absurd a2 (hg.pend.cur (by rw [hf]; simp) hpc)
  · refine ⟨pre, s, post, done, rs, tb, ha, a1, d, ps, w, ps₀, sv, hc, ?_⟩
    obtain ⟨f', hf', h1⟩ := hg.pend.obj tb ha.current
    rw [hf] at hf'
    cases hf'
    obtain ⟨f', hf', h2, h3⟩ := hc.store hpc
    rw [hf] at hf'
    cases hf'
    exact ⟨by rw [h1 hpc, ha.cfg], h2, h3⟩

theorem DataInvIn.save {kinds : List Bool} (h : DataInvIn P result ss st) (hi : Tasks env ss result)
    (hg : Good env kinds ss st) {k : Cont} (hpc : st.pc = .save k) {f : FileStoreObj} (hf : st.fileStore = some f)
    {d : Dir} (hd : st.fs f.config.resultPath = some d) {id : Nat} (hid : FileStore.fresh d id = true) :
    DataInvIn P result ss { st with
      static := ⟨[], []⟩
      pc := .write (FileStore.saveWrites id (Record.print st.static.record, Store.print st.static.store)) k
      log := .saved (some f.config.resultPath) st.static :: st.log } := by
  obtain ⟨pre, s, post, done, rs, tb, ha, a1, d', ps, w, ps₀, sv, hc, hcfg, hv, hini⟩ :=
    h.current hg hf (by rw [hpc]; simp)
  have hs : s ∈ ss := by rw [ha.sections]; simp
  have hdir := hc.dir
  rw [← hcfg, hd] at hdir
  cases hdir
  have hh := hc.holding
  rw [hpc] at hh
  obtain ⟨h1, rfl⟩ := hh.done
  have hsub : List.Subperm st.static.record s.blocks := by
    refine (List.sublist_append_right (recorded sv) st.static.record).subperm.trans ?_
    refine hc.law.subperm.trans ((hg.flushed_sub tb).trans (hc.asg.subperm.trans ?_))
    refine List.filter_sublist.subperm.trans ?_
    rw [ha.blocks]
    exact (List.sublist_append_left _ _).subperm
  have hpair := pairOk_of hi hs hc.static hsub
  refine ⟨Or.inr ⟨pre, s, post, done, rs, tb, ⟨ha.sections, ha.blocks, ha.todo, ha.current, ha.cfg⟩, a1,
    d, ps, [(st.static.record, st.static.store)], ps₀, sv ++ [(st.static.record, st.static.store)], ?_⟩, ?_,
    (by intro hu; cases hu), (by intro hu; cases hu)⟩
  · refine ⟨hc.dir, hc.plain, .two _ _ id _ h1 (hc.plain.absent ((P.layout pre).names h1) hid) hpair, ?_, hc.sound, ?_,
      ⟨List.Pairwise.nil, Tally.nil⟩, hc.asg, ?_, fun _ => ⟨f, hf, hv, hini⟩⟩
    · have := hc.split
      rw [List.append_nil] at this
      rw [this, List.append_assoc]
    · intro p hp
      rcases List.mem_append.1 hp with hp | hp
      · exact hc.tally p hp
      · rw [List.mem_singleton.1 hp]
        exact hc.static
    · show (recorded (sv ++ [(st.static.record, st.static.store)]) ++ []).Perm (blocksOf tb (flushedJobs st.log))
      rw [List.append_nil, recorded_append]
      unfold recorded
      rw [List.flatMap_singleton]
      exact hc.law
  · intro hver
    refine h.ver ?_
    rw [hpc]
    revert hver
    cases k <;> exact fun h => h

theorem DataInvIn.write {kinds : List Bool} (h : DataInvIn P result ss st)
    (hg : Good env kinds ss st) {k : Cont} {n c : List Char} {ws : List (List Char × List Char)}
    (hpc : st.pc = .write ((n, c) :: ws) k) {f : FileStoreObj} (hf : st.fileStore = some f)
    {d : Dir} (hd : st.fs f.config.resultPath = some d) :
    DataInvIn P result ss { st with fs := st.fs.set f.config.resultPath (d.write n c), pc := .write ws k } := by
  obtain ⟨pre, s, post, done, rs, tb, ha, a1, d', ps, w, ps₀, sv, hc, hcfg, hv, hini⟩ :=
    h.current hg hf (by rw [hpc]; simp)
  have hdir := hc.dir
  rw [← hcfg, hd] at hdir
  cases hdir
  have hh := hc.holding
  rw [hpc] at hh
  obtain ⟨ps', w', h1, h2⟩ := hh.write
  have hset : ∀ p, p ≠ s.cfg.resultPath → st.fs.set f.config.resultPath (d.write n c) p = st.fs p := by
    intro p hp
    simp only [FileSystem.set, hcfg, if_neg hp]
  refine ⟨Or.inr ⟨pre, s, post, done, rs, tb, ⟨ha.sections, ha.blocks, ha.todo, ha.current, ha.cfg⟩,
    fun p hp => by show P.after pre p (st.fs.set _ _ p); rw [hset p hp]; exact a1 p hp,
    d.write n c, ps', w', ps₀, sv, ?_⟩, ?_, (by intro hu; cases hu), (by intro hu; cases hu)⟩
  · exact ⟨by simp [FileSystem.set, hcfg], hc.plain.write _ _, h1, h2.trans hc.split, hc.sound, hc.tally, hc.static,
      hc.asg, hc.law, fun _ => ⟨f, hf, hv, hini⟩⟩
  · intro hver c' rest' ht'
    obtain ⟨d', hd'⟩ := h.ver (by rw [hpc]; revert hver; cases k <;> exact fun h => h) c' rest' ht'
    by_cases hp : c'.resultPath = f.config.resultPath
    · exact ⟨d.write n c, by simp [FileSystem.set, hp]⟩
    · exact ⟨d', by simp [FileSystem.set, hp, hd']⟩

theorem DataInvIn.skip {kinds : List Bool} (h : DataInvIn P result ss st) (hi : Tasks env ss result)
    (hg : Good env kinds ss st) (hpc : st.pc = .contains) {b : Block} {rest : List Cmd} (ht : st.todo = .assign b :: rest)
    {f : FileStoreObj} (hf : st.fileStore = some f) (hb : FileStore.contains f.initial b = true) :
    DataInvIn P result ss { st with todo := rest, pc := .main } := by
  obtain ⟨pre, s, post, done, rs, tb, ha, a1, d', ps, w, ps₀, sv, hc, hcfg, hv, hini⟩ :=
    h.current hg hf (by rw [hpc]; simp)
  have hs : s ∈ ss := by rw [ha.sections]; simp
  obtain ⟨rs', rfl, ha'⟩ := ha.pop (st' := { st with todo := rest, pc := .main }) ht rfl rfl
  have hbs : b ∈ s.blocks := by rw [ha.blocks]; simp
  have hrec := (hini b hbs (hi.nonempty s hs b hbs)).1 hb
  have hh := hc.holding
  rw [hpc] at hh
  refine ⟨Or.inr ⟨pre, s, post, done ++ [b], rs', tb, ha', a1, d', ps, w, ps₀, sv, ?_⟩, (by intro hu; cases hu),
    (by intro hu; cases hu), (by intro hu; cases hu)⟩
  refine ⟨hc.dir, hc.plain, hh, hc.split, hc.sound, hc.tally, hc.static, ?_, hc.law, fun _ => ⟨f, hf, hv, hini⟩⟩
  rw [List.filter_append, List.filter_cons_of_neg (by simpa using hrec), List.filter_nil, List.append_nil]
  exact hc.asg

theorem DataInvIn.take {kinds : List Bool} (h : DataInvIn P result ss st) (hi : Tasks env ss result)
    (hg : Good env kinds ss st) (hpc : st.pc = .take) {b : Block} {rest : List Cmd} (ht : st.todo = .assign b :: rest)
    {st1 : State} (i : Nat) (e1 : st1.fs = st.fs) (e2 : st1.static = st.static) (e3 : st1.fileStore = st.fileStore)
    (e4 : st1.todo = rest) (e5 : st1.current = st.current) (e6 : st1.log = st.log) (e7 : st1.thr = st.thr) :
    DataInvIn P result ss (pushJob st1 i b) := by
  obtain ⟨f, hf⟩ := Option.ne_none_iff_exists'.1 (hg.inv.store (by rw [ht]; simp [lead])).1
  obtain ⟨pre, s, post, done, rs, tb, ha, a1, d', ps, w, ps₀, sv, hc, hcfg, hv, hini⟩ :=
    h.current hg hf (by rw [hpc]; simp)
  have hs : s ∈ ss := by rw [ha.sections]; simp
  obtain ⟨rs', rfl, ha'⟩ := ha.pop (st' := pushJob st1 i b) ht e4 e5
  have hbs : b ∈ s.blocks := by rw [ha.blocks]; simp
  have hfree := h.free (by rw [hpc]; rfl) b rest ht f hf
  have hrec : b ∉ recorded ps₀ := by
    intro hm
    rw [(hini b hbs (hi.nonempty s hs b hbs)).2 hm] at hfree
    cases hfree
  have hh := hc.holding
  rw [hpc] at hh
  refine ⟨Or.inr ⟨pre, s, post, done ++ [b], rs', tb, ha', ?_, d', ps, w, ps₀, sv, ?_⟩, (by intro hu; cases hu),
    (by intro hu; cases hu), (by intro hu; cases hu)⟩
  · show ∀ p, p ≠ s.cfg.resultPath → P.after pre p (st1.fs p)
    rw [e1]; exact a1
  · refine ⟨?_, hc.plain, hh, hc.split, hc.sound, hc.tally, ?_, ?_, ?_, fun _ => ⟨f, ?_, hv, hini⟩⟩
    · show st1.fs _ = _
      rw [e1]; exact hc.dir
    · show Match _ st1.static.record st1.static.store
      rw [e2]; exact hc.static
    · rw [show assignedJobs (pushJob st1 i b).log = (i, ⟨b, (st1.thr i).tables⟩) :: assignedJobs st1.log from rfl, e6, e7,
        hg.inv.tables i, blocksOf_cons_pos (by exact ha.current), List.filter_append,
        List.filter_cons_of_pos (by simpa using hrec), List.filter_nil]
      exact (hc.asg.cons b).trans (List.perm_append_singleton _ _).symm
    · show (recorded sv ++ st1.static.record).Perm (blocksOf tb (flushedJobs st1.log))
      rw [e2, e6]; exact hc.law
    · show st1.fileStore = _
      rw [e3]; exact hf

theorem flushedJobs_erased (bs : List Block) (c : Option Tables) (log : List Event) :
    flushedJobs ((bs.map fun b => Event.erased ⟨b, c⟩).reverse ++ log) = flushedJobs log := by
  rw [erased_eq]
  exact filterMap_erased _ _ _ fun _ => rfl

theorem DataInvIn.trans {kinds : List Bool} {a : Option Nat} (h : DataInvIn P result ss st) (hP : P.Keeps result ss) (hi : Tasks env ss result)
    (hg : Good env kinds ss st) (hq : st.pc.quiet = true → (flushedJobs st.log).Perm (assignedJobs st.log))
    (ht : Trans env st a st') : DataInvIn P result ss st' := by
  have hg' := hg.trans ht
  cases ht with
  | compute i hlt j hp tb ht m hm p hf => exact h.flush hi hg hlt hp ht hm hf _ hg'
  | mainConfig hpc c rest ht create v hv => exact h.mainConfig hP hpc ht hv
  | saveLost k hpc f hf hl =>
    obtain ⟨pre, s, post, done, rs, tb, ha, a1, d', ps, w, ps₀, sv, hc, hcfg, hv, hini⟩ :=
      h.current hg hf (by rw [hpc]; simp)
    rcases hl with hl | hl
    · rw [hv] at hl; cases hl
    · rw [hcfg, hc.dir] at hl; cases hl
  | saveStart k hpc f hf hv d hd id hid => exact h.save hi hg hpc hf hd hid
  | writeLost k n c ws hpc hl =>
    cases hf : st.fileStore with
    | some f =>
      obtain ⟨pre, s, post, done, rs, tb, ha, a1, d', ps, w, ps₀, sv, hc, hcfg, hv, hini⟩ :=
        h.current hg hf (by rw [hpc]; simp)
      have := hl f hf
      rw [hcfg, hc.dir] at this
      cases this
    | none =>
      rcases h.sects with ⟨a1, a2, a3⟩ | ⟨pre, s, post, done, rs, tb, ha, a1, d, ps, w, ps₀, sv, hc⟩
      · refine ⟨Or.inl ⟨a1, a2, a3⟩, fun hver => h.ver ?_, (by intro hu; cases hu), (by intro hu; cases hu)⟩
        rw [hpc]
        revert hver
        cases k <;> exact fun h => h
      · obtain ⟨f, h1, _⟩ := hc.store (by rw [hpc]; simp)
        rw [hf] at h1
        cases h1
  | write k n c ws hpc f hf d hd => exact h.write hg hpc hf hd
  | newStoreInvalid hpc c rest ht hd =>
    obtain ⟨d, hd'⟩ := h.ver (by rw [hpc]; rfl) c rest ht
    rw [hd] at hd'
    cases hd'
  | newStore hpc c rest ht d hd r hr => exact h.newStore hpc ht hd hr
  | update hpc c rest ht => exact h.update hP hi hg (hq (by rw [hpc]; rfl)) hpc ht
  | skip hpc b rest ht f hf hc => exact h.skip hi hg hpc ht hf hc
  | fill hpc b rest ht f hf hc ho =>
    have h1 := h.quiet (st' := { st with pc := .main }) rfl rfl rfl rfl rfl rfl rfl (by rw [hpc]; rfl)
      (by intro h; cases h) (by rw [hpc]; simp) (by intro h; cases h)
    refine ⟨?_, (by intro h; cases h), (by intro h; cases h), fun _ b' rest' ht' f' hf' => ?_⟩
    · rcases h1.sects with a | ⟨pre, s, post, done, rs, tb, ha, a1, d, ps, w, ps₀, sv, hc⟩
      · exact Or.inl a
      · exact Or.inr ⟨pre, s, post, done, rs, tb, ⟨ha.sections, ha.blocks, ha.todo, ha.current, ha.cfg⟩, a1,
          d, ps, w, ps₀, sv, ⟨hc.dir, hc.plain, hc.holding, hc.split, hc.sound, hc.tally, hc.static, hc.asg, hc.law,
            fun _ => hc.store (by simp)⟩⟩
    · have e1 : st.todo = .assign b' :: rest' := ht'
      have e2 : st.fileStore = some f' := hf'
      rw [ht] at e1
      rw [hf] at e2
      cases e1
      cases e2
      exact hc
  | noFill hpc b rest ht f hf hc ho =>
    have h1 := h.quiet (st' := { st with pc := .main }) rfl rfl rfl rfl rfl rfl rfl (by rw [hpc]; rfl)
      (by intro h; cases h) (by rw [hpc]; simp) (by intro h; cases h)
    refine ⟨?_, (by intro h; cases h), (by intro h; cases h), fun _ b' rest' ht' f' hf' => ?_⟩
    · rcases h1.sects with a | ⟨pre, s, post, done, rs, tb, ha, a1, d, ps, w, ps₀, sv, hc⟩
      · exact Or.inl a
      · exact Or.inr ⟨pre, s, post, done, rs, tb, ⟨ha.sections, ha.blocks, ha.todo, ha.current, ha.cfg⟩, a1,
          d, ps, w, ps₀, sv, ⟨hc.dir, hc.plain, hc.holding, hc.split, hc.sound, hc.tally, hc.static, hc.asg, hc.law,
            fun _ => hc.store (by simp)⟩⟩
    · have e1 : st.todo = .assign b' :: rest' := ht'
      have e2 : st.fileStore = some f' := hf'
      rw [ht] at e1
      rw [hf] at e2
      cases e1
      cases e2
      exact hc
  | takeOpencl hpc b rest ht ho p hp => exact h.take hi hg hpc ht _ rfl rfl rfl rfl rfl rfl rfl
  | takeCpu hpc b rest ht ho p hp => exact h.take hi hg hpc ht _ rfl rfl rfl rfl rfl rfl rfl
  | notify i b hpc =>
    refine h.quiet (wake_fs st i) ?_ ?_ (wake_todo st i) (wake_current st i) ?_ ?_ (by rw [hpc]; rfl)
      (by intro h; cases h) (by rw [hpc]; simp) (by intro h; cases h)
    · show (wake st i).static = _
      unfold wake; split <;> rfl
    · show (wake st i).fileStore = _
      unfold wake; split <;> rfl
    · show assignedJobs (wake st i).log = _
      rw [wake_log]
    · show flushedJobs (wake st i).log = _
      rw [wake_log]
  | shutNotify i hpc =>
    refine h.quiet (wake_fs st i) ?_ ?_ (wake_todo st i) (wake_current st i) ?_ ?_ (by rw [hpc]; rfl)
      (by intro h; cases h) (by rw [hpc]; simp) (by intro h; cases h)
    · show (wake st i).static = _
      unfold wake; split <;> rfl
    · show (wake st i).fileStore = _
      unfold wake; split <;> rfl
    · show assignedJobs (wake st i).log = _
      rw [wake_log]
    · show flushedJobs (wake st i).log = _
      rw [wake_log]
  | wait k hpc a ha =>
    refine h.quiet rfl rfl rfl rfl rfl (assignedJobs_erased _ _ _) (flushedJobs_erased _ _ _) ?_ ?_ ?_ ?_
    · rw [hpc]; simp only; split <;> rfl
    · rw [hpc]; simp only; split <;> cases k <;> exact fun h => h
    · rw [hpc]; simp only; split <;> simp
    · simp only; split <;> exact (by intro h; cases h)
  | fillFinished hpc a ha =>
    exact h.quiet rfl rfl rfl rfl rfl (assignedJobs_erased _ _ _) (flushedJobs_erased _ _ _) (by rw [hpc]; rfl)
      (by intro h; cases h) (by rw [hpc]; simp) (by rw [hpc]; exact fun _ => rfl)
  | fillReady hpc =>
    refine h.quiet rfl rfl rfl rfl rfl rfl rfl ?_ ?_ ?_ ?_
    · rw [hpc]; unfold fillReadyStep; simp only; split <;> rfl
    · unfold fillReadyStep; simp only; split <;> exact (by intro h; cases h)
    · rw [hpc]; unfold fillReadyStep; simp only; split <;> simp
    · rw [hpc]; exact fun _ => rfl
  | mainAssign hpc b rest ht now =>
    refine h.quiet rfl rfl rfl rfl rfl rfl rfl ?_ ?_ ?_ ?_
    · rw [hpc]; simp only; split <;> rfl
    · simp only; split <;> exact (by intro h; cases h)
    · rw [hpc]; simp only; split <;> simp
    · simp only; split <;> exact (by intro h; cases h)
  | saveNone k hpc hf =>
    refine h.quiet rfl rfl rfl rfl rfl rfl rfl ?_ ?_ ?_ ?_
    · rw [hpc]; cases k <;> rfl
    · rw [hpc]; cases k <;> exact fun h => h
    · rw [hpc]; cases k <;> simp [afterSave]
    · cases k <;> exact (by intro h; cases h)
  | writeEnd k hpc =>
    refine h.quiet rfl rfl rfl rfl rfl rfl rfl ?_ ?_ ?_ ?_
    · rw [hpc]; cases k <;> rfl
    · rw [hpc]; cases k <;> exact fun h => h
    · rw [hpc]; cases k <;> simp [afterSave]
    · cases k <;> exact (by intro h; cases h)
  | mainEnd hpc ht =>
    exact h.quiet rfl rfl rfl rfl rfl rfl rfl (by rw [hpc]; rfl) (by intro h; cases h) (by rw [hpc]; simp)
      (by intro h; cases h)
  | insert b hpc =>
    exact h.quiet rfl rfl rfl rfl rfl rfl rfl (by rw [hpc]; rfl) (by intro h; cases h) (by rw [hpc]; simp)
      (by intro h; cases h)
  | shutdown i hpc hlt =>
    exact h.quiet rfl rfl rfl rfl rfl rfl rfl (by rw [hpc]; rfl) (by intro h; cases h) (by rw [hpc]; simp)
      (by intro h; cases h)
  | shutdownEnd i hpc hlt =>
    exact h.quiet rfl rfl rfl rfl rfl rfl rfl (by rw [hpc]; rfl) (by intro h; cases h) (by rw [hpc]; simp)
      (by intro h; cases h)
  | join i hpc hp =>
    exact h.quiet rfl rfl rfl rfl rfl rfl rfl (by rw [hpc]; rfl) (by intro h; cases h) (by rw [hpc]; simp)
      (by intro h; cases h)
  | _ => exact h.quiet rfl rfl rfl rfl rfl rfl rfl rfl id Iff.rfl id

theorem DataInvIn.init {kinds : List Bool} {fs : FileSystem} (h : ∀ p, P.after [] p (fs p)) :
    DataInvIn P result ss (initial kinds fs (program ss)) :=
  ⟨Or.inl ⟨rfl, rfl, h⟩, (by intro h; cases h), (by intro h; cases h), (by intro h; cases h)⟩

theorem DataInvIn.course {kinds : List Bool} {fs : FileSystem} (hP : P.Keeps result ss) (hi : Tasks env ss result)
    (hk : kinds.length < 4294967296) (h : ∀ p, P.after [] p (fs p))
    (hr : Reachable env (initial kinds fs (program ss)) st) : DataInvIn P result ss st := by
  induction hr with
  | refl => exact .init h
  | step l hr hs ih =>
    exact ih.trans hP hi ((Good.init env hk fs hi.blocks).reachable hr) (fun hq => (all_done hk hi.blocks hr hq).2.1)
      (step_trans hs)

/-- What the directories are when a run ends or dies in the midst of a section. -/
def Course.Left (P : Course) (result : ConfigNode → Block → StoreMap) (ss : List Sect) (fs : FileSystem) : Prop :=
  (∀ p, P.after [] p (fs p)) ∨ ∃ pre s post, ss = pre ++ s :: post ∧
    (∀ p, p ≠ s.cfg.resultPath → P.after pre p (fs p)) ∧ ∃ d ps, fs s.cfg.resultPath = some d ∧ Plain d ∧
      (P.layout pre).holds s d ps ∧ Sound result s ps

/-- The directories after a run that died. -/
theorem DataInvIn.left {kinds : List Bool} {fs' : FileSystem} (h : DataInvIn P result ss st) (hi : Tasks env ss result)
    (hg : Good env kinds ss st) (hd : Dies st fs') : P.Left result ss fs' := by
  cases hd with
  | between =>
    rcases h.sects with ⟨a1, a2, a3⟩ | ⟨pre, s, post, done, rs, tb, ha, a1, d, ps, w, ps₀, sv, hc⟩
    · exact Or.inl a3
    · have hs : s ∈ ss := by rw [ha.sections]; simp
      have h1 := hc.kept hg (hi.blocks s hs) ha.blocks
      refine Or.inr ⟨pre, s, post, ha.sections, a1, ?_⟩
      rcases hc.holding.crash (.stop _ _) with h2 | h2
      · refine ⟨d, ps, hc.dir, hc.plain, h2, fun p hp => h1.tally p (List.mem_append_left _ hp), ?_⟩
        refine List.Subperm.trans ?_ h1.once
        rw [recorded_append]
        exact (List.sublist_append_left _ _).subperm
      · exact ⟨d, ps ++ w, hc.dir, hc.plain, h2, h1⟩
  | inside ws k f d d' hpc hf hd hcr =>
    obtain ⟨pre, s, post, done, rs, tb, ha, a1, d₀, ps, w, ps₀, sv, hc, hcfg, hv, hini⟩ :=
      h.current hg hf (by rw [hpc]; simp)
    have hdir := hc.dir
    rw [← hcfg, hd] at hdir
    cases hdir
    have hset : ∀ p, p ≠ s.cfg.resultPath → st.fs.set f.config.resultPath d' p = st.fs p := by
      intro p hp
      simp only [FileSystem.set, hcfg, if_neg hp]
    have hs : s ∈ ss := by rw [ha.sections]; simp
    have h1 := hc.kept hg (hi.blocks s hs) ha.blocks
    have hh := hc.holding
    rw [hpc] at hh
    have hfs : st.fs.set f.config.resultPath d' s.cfg.resultPath = some d' := by simp [FileSystem.set, hcfg]
    refine Or.inr ⟨pre, s, post, ha.sections, fun p hp => by rw [hset p hp]; exact a1 p hp, ?_⟩
    rcases hh.crash hcr with h2 | h2
    · refine ⟨d', ps, hfs, hc.plain.crash hcr, h2, fun p hp => h1.tally p (List.mem_append_left _ hp), ?_⟩
      refine List.Subperm.trans ?_ h1.once
      rw [recorded_append]
      exact (List.sublist_append_left _ _).subperm
    · exact ⟨d', ps ++ w, hfs, hc.plain.crash hcr, h2, h1⟩

/-- After a run that has ended: whatever is left to be done, the sections before are complete. -/
theorem DataInvIn.over {kinds : List Bool} (h : DataInvIn P result ss st) (hP : P.Keeps result ss)
    (hi : Tasks env ss result) (hg : Good env kinds ss st) (hq : (flushedJobs st.log).Perm (assignedJobs st.log))
    (hpc : st.pc = .finished) (ht : st.todo = [] ∨ ∃ c rest, st.todo = .config c :: rest) :
    ∃ pre post, ss = pre ++ post ∧ st.todo = program post ∧ ∀ p, P.after pre p (st.fs p) := by
  rcases h.sects with ⟨a1, a2, a3⟩ | ⟨pre, s, post, done, rs, tb, ha, a1, d, ps, w, ps₀, sv, hc⟩
  · exact ⟨[], ss, rfl, a1, a3⟩
  · have hrs : rs = [] := by
      cases rs with
      | nil => rfl
      | cons b rs =>
        have h1 := ha.todo
        rcases ht with ht | ⟨c, rest, ht⟩ <;> rw [ht] at h1 <;> cases h1
    subst hrs
    have hb := ha.blocks
    rw [List.append_nil] at hb
    rw [← hb] at hc
    refine ⟨pre ++ [s], post, by rw [ha.sections]; simp, ha.todo, fun p => ?_⟩
    by_cases hp : p = s.cfg.resultPath
    · obtain ⟨d, ps, c1, c2, c3, c4, c5⟩ :=
        hc.complete hg (hi.blocks s (by rw [ha.sections]; simp)) hq (by rw [hpc]; rfl) (by rw [hpc]; rfl)
      rw [hp, c1]
      exact hP.closes ha.sections c2 c3 c4 c5
    · exact hP.other ha.sections hp (a1 p hp)

/-! Every section has a directory of its own. -/

/-- The course of a run over sections with different directories. -/
def Layout.course (L : Layout) (result : ConfigNode → Block → StoreMap) (ss : List Sect) : Course where
  layout _ := L
  after pre p x := ∀ s ∈ ss, s.cfg.resultPath = p → (s ∈ pre → CompleteIn L result (fun _ => x) s) ∧
    KeptIn L result (fun _ => x) s

theorem Layout.keeps (L : Layout) (hi : Input env ss result) : (L.course result ss).Keeps result ss where
  other hs hp h s' hs' hp' := by
    refine ⟨fun hm => ?_, (h s' hs' hp').2⟩
    rcases List.mem_append.1 hm with hm | hm
    · exact (h s' hs' hp').1 hm
    · rw [List.mem_singleton.1 hm] at hp'
      exact absurd hp'.symm hp
  created h s hs hp := by
    obtain ⟨h1, h2⟩ := h s hs hp
    refine ⟨fun hm => ?_, h2.mono (by simp) (by simp)⟩
    obtain ⟨d, ps, h3, _⟩ := h1 hm
    cases h3
  opens hs h := by
    rcases (h _ (by rw [hs]; simp) rfl).2 with ⟨h1, _⟩ | ⟨d, ps, h1, h2, h3, h4⟩
    · cases h1
    · cases h1
      exact ⟨ps, h2, h3, h4⟩
  closes hs h1 h2 h3 h4 s' hs' hp := by
    have he : s' = _ := List.inj_on_of_nodup_map hi.paths hs' (by rw [hs]; simp) hp
    subst he
    have hc : CompleteIn L result (fun _ => some _) s' := ⟨_, _, rfl, h1, h2, h3, h4⟩
    exact ⟨fun _ => hc, hc.kept⟩

theorem DataInvIn.reachable {kinds : List Bool} {fs : FileSystem} (hi : Input env ss result)
    (hk : kinds.length < 4294967296) (h : ∀ s ∈ ss, KeptIn L result fs s)
    (hr : Reachable env (initial kinds fs (program ss)) st) : DataInvIn (L.course result ss) result ss st :=
  .course (L.keeps hi) hi.toTasks hk (fun p s hs hp => ⟨(by simp), (h s hs).congr (congrArg fs hp).symm⟩) hr

theorem Layout.left {fs : FileSystem} (hi : Input env ss result) (h : (L.course result ss).Left result ss fs) :
    ∀ s ∈ ss, KeptIn L result fs s := by
  intro s hs
  rcases h with h | ⟨pre, t, post, h1, h2, d, ps, h3, h4⟩
  · exact (h s.cfg.resultPath s hs rfl).2.congr rfl
  · by_cases hp : s.cfg.resultPath = t.cfg.resultPath
    · have he : s = t := List.inj_on_of_nodup_map hi.paths hs (by rw [h1]; simp) hp
      subst he
      exact Or.inr ⟨d, ps, h3, h4⟩
    · exact (h2 s.cfg.resultPath hp s hs rfl).2.congr rfl

theorem DataInvIn.dies {kinds : List Bool} {fs' : FileSystem} (h : DataInvIn (L.course result ss) result ss st)
    (hi : Input env ss result) (hg : Good env kinds ss st) (hd : Dies st fs') : ∀ s ∈ ss, KeptIn L result fs' s :=
  Layout.left hi (h.left hi.toTasks hg hd)

/-- Whatever is left to be done at the end: the sections before are complete. -/
theorem DataInvIn.stopped {kinds : List Bool} (h : DataInvIn (L.course result ss) result ss st) (hi : Input env ss result)
    (hg : Good env kinds ss st) (hq : (flushedJobs st.log).Perm (assignedJobs st.log)) (hpc : st.pc = .finished)
    (ht : st.todo = [] ∨ ∃ c rest, st.todo = .config c :: rest) :
    ∃ pre post, ss = pre ++ post ∧ st.todo = program post ∧ ∀ s ∈ pre, CompleteIn L result st.fs s := by
  obtain ⟨pre, post, h1, h2, h3⟩ := h.over (L.keeps hi) hi.toTasks hg hq hpc ht
  exact ⟨pre, post, h1, h2, fun s hs =>
    ((h3 s.cfg.resultPath s (by rw [h1]; exact List.mem_append_left _ hs) rfl).1 hs).congr rfl⟩

/-- After a complete run. -/
theorem DataInvIn.finished {kinds : List Bool} (h : DataInvIn (L.course result ss) result ss st) (hi : Input env ss result)
    (hg : Good env kinds ss st) (hq : (flushedJobs st.log).Perm (assignedJobs st.log)) (hpc : st.pc = .finished)
    (ht : st.todo = []) : ∀ s ∈ ss, CompleteIn L result st.fs s := by
  obtain ⟨pre, post, h1, h2, h3⟩ := h.stopped hi hg hq hpc (Or.inl ht)
  have h4 : post = [] := by
    rw [ht] at h2
    cases post with
    | nil => rfl
    | cons s post => cases h2
  rw [h4, List.append_nil] at h1
  rw [h1]
  exact h3

/-! The directories contain nothing but pairs. -/

abbrev Kept (result : ConfigNode → Block → StoreMap) (fs : FileSystem) (s : Sect) : Prop := KeptIn exactly result fs s

abbrev Complete (result : ConfigNode → Block → StoreMap) (fs : FileSystem) (s : Sect) : Prop :=
  CompleteIn exactly result fs s

abbrev DataInv (result : ConfigNode → Block → StoreMap) (ss : List Sect) (st : State) : Prop :=
  DataInvIn (exactly.course result ss) result ss st

theorem DataInv.reachable {kinds : List Bool} {fs : FileSystem} (hi : Input env ss result)
    (hk : kinds.length < 4294967296) (h : ∀ s ∈ ss, Kept result fs s)
    (hr : Reachable env (initial kinds fs (program ss)) st) : DataInv result ss st := DataInvIn.reachable hi hk h hr

theorem Past.kept {fs : FileSystem} (hi : Input env ss result) (h : Past env ss fs) : ∀ s ∈ ss, Kept result fs s := by
  induction h with
  | start fs h =>
    intro s hs
    cases hd : fs s.cfg.resultPath with
    | none => exact Or.inl ⟨hd, holds_empty⟩
    | some d =>
      obtain ⟨h1, h2⟩ := h.holds hs hd
      exact Or.inr ⟨d, [], hd, h1, h2, (by simp), List.nil_subperm⟩
  | run fs fs' kinds st _ hk hr hd ih =>
    exact (DataInv.reachable hi hk ih hr).dies hi ((Good.init env hk fs hi.blocks).reachable hr) hd

end

end Run
end Hycu
