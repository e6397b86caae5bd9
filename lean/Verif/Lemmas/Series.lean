import Verif.Lemmas.ParallelTrans
import Verif.Lemmas.Together
import Verif.Props.Damage
import Verif.Spec.Series

/-!
Runs one after the other with different inputs.
-/

namespace Hycu
namespace Series

open Run (Env Input Tasks Course Layout Sect program Open grown since KeptIn CompleteIn Sound recorded Plain Untouched
  recorded_append)
open Parallel (dirOf)

section

variable {env : Env} {ss : List Sect} {result : ConfigNode → Block → StoreMap} {fs fs' : FileSystem} {b : Bool}

open Live (PathOf pathOf Now Next)

theorem frame_threaded {kinds : List Bool} {st : Run.State}
    (hr : Run.Reachable env (Run.initial kinds fs (program ss)) st) :
    Run.Uses (PathOf ss) st.todo st.fileStore ∧ ∀ p, ¬ PathOf ss p → st.fs p = fs p := by
  induction hr with
  | refl => exact ⟨Run.Uses.program (pathOf ss), fun _ _ => rfl⟩
  | step l _ hs ih =>
    exact ⟨ih.1.step hs, fun p hp =>
      ((Next.threaded (ss := ss) l hs).frame (w := .threaded _) ih.1 p hp).trans (ih.2 p hp)⟩

theorem frame_mpi {kinds : List (List Bool)} {st : Mpi.State}
    (hr : Mpi.Reachable env (Mpi.initial kinds fs (program ss)) st) :
    Run.Uses (PathOf ss) st.todo st.fileStore ∧ ∀ p, ¬ PathOf ss p → st.fs p = fs p := by
  induction hr with
  | refl => exact ⟨Run.Uses.program (pathOf ss), fun _ _ => rfl⟩
  | step l _ hs ih =>
    exact ⟨ih.1.step_mpi hs, fun p hp =>
      ((Next.mpi (ss := ss) l hs).frame (w := .mpi _) ih.1 p hp).trans (ih.2 p hp)⟩

/-- A run changes nothing but the directories of its input. -/
theorem Left.frame (h : Left env ss fs b fs') (p : List Char) (hp : ∀ s ∈ ss, s.cfg.resultPath ≠ p) : fs' p = fs p := by
  have hp' : ¬ PathOf ss p := fun ⟨s, hs, h⟩ => hp s hs h
  cases h with
  | threaded kinds st fs' hk hr hd =>
    obtain ⟨h1, h2⟩ := frame_threaded hr
    cases hd with
    | between => exact h2 p hp'
    | inside ws k f d d' hpc hf hd hc =>
      exact (if_neg fun hx : p = f.config.resultPath => hp' (hx ▸ h1.store f hf)).trans (h2 p hp')
  | threadedEnd kinds st hk hr => exact (frame_threaded hr).2 p hp'
  | mpi kinds st fs' h0 hk hr hd =>
    obtain ⟨h1, h2⟩ := frame_mpi hr
    cases hd with
    | between => exact h2 p hp'
    | inside ws ix k f d d' hpc hf hd hc =>
      exact (if_neg fun hx : p = f.config.resultPath => hp' (hx ▸ h1.store f hf)).trans (h2 p hp')
  | mpiEnd kinds st h0 hk hr => exact (frame_mpi hr).2 p hp'

end

/-- What a directory holds after the given uses. -/
structure At (result : ConfigNode → Block → StoreMap) (d : Dir) (l : List (ConfigNode × Block)) : Prop where
  names : d.NamesDiffer
  plain : Plain d
  initial : ∃ r, FileStore.initialRecord d = .ok r ∧ ∀ b, b ≠ [] → (b ∈ r ↔ b ∈ l.map Prod.snd)
  loop : ∃ r m, Merger.mergeLoop d d [] [] = .ok (some (r, m)) ∧ (∀ b, b ≠ [] → (b ∈ r ↔ b ∈ l.map Prod.snd)) ∧
    Tally m (l.flatMap fun x => result x.1 x.2)

theorem readRecords_none (d es : Dir) (h : ∀ e ∈ es, FileStore.isRecordFile e ≠ true) (x : OSet Block) :
    es.foldlM (FileStore.readRecord d) x = Res.ok x := by
  induction es with
  | nil => rfl
  | cons e es ih =>
    rw [List.foldlM_cons]
    have h2 : FileStore.readRecord d x e = .ok x := by
      unfold FileStore.readRecord
      rw [if_neg (h e List.mem_cons_self)]
    rw [h2]
    exact ih fun e' he' => h e' (List.mem_cons_of_mem _ he')

theorem mergeLoop_none (d es : Dir) (h : ∀ e ∈ es, FileStore.isRecordFile e ≠ true) (x : OSet Block) (m : StoreMap) :
    Merger.mergeLoop d es x m = .ok (some (x, m)) := by
  induction es with
  | nil => rfl
  | cons e es ih =>
    unfold Merger.mergeLoop
    rw [if_neg (h e List.mem_cons_self)]
    exact ih fun e' he' => h e' (List.mem_cons_of_mem _ he')

/-- A directory without records. -/
theorem At.empty (result : ConfigNode → Block → StoreMap) {d : Dir} (hn : d.NamesDiffer) (hp : Plain d)
    (h : ∀ e ∈ d, ¬ ∃ s, e.1 = s ++ ".hycu_record".toList) : At result d [] := by
  have h1 : ∀ e ∈ d, FileStore.isRecordFile e ≠ true := by
    intro e he hr
    unfold FileStore.isRecordFile at hr
    simp only [Bool.and_eq_true, decide_eq_true_eq] at hr
    exact h e he ⟨_, Dir.eq_of_extension hr.2⟩
  exact ⟨hn, hp, ⟨[], readRecords_none d d h1 [], by simp⟩, ⟨[], [], mergeLoop_none d d h1 [] [], by simp, Tally.nil⟩⟩

section

variable {env : Env} {ss : List Sect} {result : ConfigNode → Block → StoreMap} {fs fs' : FileSystem} {c : Bool}
  {l : List (ConfigNode × Block)} {s : Sect}

/-- What a directory holds that has grown. -/
theorem At.grows {d₀ d : Dir} {r₀ : OSet Block} {vs sv : List (OSet Block × StoreMap)} (ha : At result d₀ l)
    (hr : FileStore.initialRecord d₀ = .ok r₀) (hv : ∀ b ∈ s.blocks, b ∈ recorded vs ↔ b ∈ r₀) (hg : d₀.Grows d sv)
    (hp : Plain d) (hs : Sound result s (vs ++ sv)) (hn : s.blocks.Nodup) (hne : ∀ b ∈ s.blocks, b ≠ []) :
    (recorded sv).Nodup ∧ (∀ b ∈ recorded sv, b ∈ s.blocks ∧ b ∉ l.map Prod.snd) ∧
      ((recorded (vs ++ sv)).Perm s.blocks → ∀ b ∈ s.blocks, b ∉ l.map Prod.snd → b ∈ recorded sv) ∧
      At result d (l ++ (recorded sv).map fun b => (s.cfg, b)) := by
  obtain ⟨r₁, h8, h9⟩ := ha.initial
  obtain ⟨r₂, m, h10, h11, h12⟩ := ha.loop
  obtain rfl : r₀ = r₁ := Res.ok.inj (hr.symm.trans h8)
  have h4 : ∀ p ∈ sv, Match (result s.cfg) p.1 p.2 := fun p hp => hs.tally p (List.mem_append_right _ hp)
  obtain ⟨l', h14, h15⟩ := hs.once
  have h16 : (recorded (vs ++ sv)).Nodup := h14.nodup_iff.1 (hn.sublist h15)
  rw [recorded_append, List.nodup_append] at h16
  have h6 : ∀ b ∈ recorded sv, b ∈ s.blocks ∧ b ∉ r₀ := fun b hb => by
    have hb' : b ∈ s.blocks := hs.once.subset (by rw [recorded_append]; exact List.mem_append_right _ hb)
    exact ⟨hb', fun hr => h16.2.2 b ((hv b hb').2 hr) b hb rfl⟩
  have hread : ∀ (r : OSet Block), (∀ b, b ≠ [] → (b ∈ r ↔ b ∈ l.map Prod.snd)) → ∀ b, b ≠ [] →
      (b ∈ (sv.flatMap fun p => (pairReads p).1).foldl OSet.insert r ↔
        b ∈ (l ++ (recorded sv).map fun b => (s.cfg, b)).map Prod.snd) := by
    intro r hr b hb
    rw [Record.mem_foldl_insert, hr b hb, List.map_append, List.mem_append, List.map_map]
    refine or_congr Iff.rfl ?_
    have h13 : (recorded sv).map (Prod.snd ∘ fun b => (s.cfg, b)) = recorded sv := List.map_id _
    rw [h13]
    unfold recorded
    rw [List.mem_flatMap, List.mem_flatMap]
    exact exists_congr fun p => and_congr Iff.rfl (mem_pairReads hb)
  obtain ⟨m', h13, h17⟩ := hg.loop h10
  refine ⟨h16.2.1, fun b hb => ⟨(h6 b hb).1, fun hl => (h6 b hb).2 ((h9 b (hne b (h6 b hb).1)).2 hl)⟩,
    fun hc b hb hl => ?_, hg.names ha.names, hp, ⟨_, hg.initial hr, hread _ h9⟩, ⟨_, m', h13, hread _ h11, ?_⟩⟩
  · have h18 := hc.mem_iff.2 hb
    rw [recorded_append, List.mem_append, hv b hb] at h18
    exact h18.resolve_left fun hr => hl ((h9 b (hne b hb)).1 hr)
  have h15 := Run.tally_added (l := recorded sv) h4 (.refl _) h17
  rw [List.flatMap_append, List.flatMap_map]
  refine Tally.congr h15 (fun k => ?_) fun k => ?_
  · rw [List.map_append, List.map_append, List.mem_append, List.mem_append, h12.mem_keys k]
  · rw [total_append, total_append, h12.total_eq k]

/-- The sections with the given directory. -/
def here (p : List Char) (ss : List Sect) (c : Bool) : List (Sect × Bool) :=
  (ss.filter fun s => s.cfg.resultPath = p).map fun s => (s, c)

theorem here_append (p : List Char) (ss ss' : List Sect) (c : Bool) : here p (ss ++ ss') c = here p ss c ++ here p ss' c := by
  unfold here
  rw [List.filter_append, List.map_append]

theorem here_same (s : Sect) (c : Bool) : here s.cfg.resultPath [s] c = [(s, c)] := by
  unfold here
  rw [List.filter_cons_of_pos (by simp)]
  rfl

theorem here_other {p : List Char} (hp : p ≠ s.cfg.resultPath) (c : Bool) : here p [s] c = [] := by
  unfold here
  rw [List.filter_cons_of_neg fun h => hp (of_decide_eq_true h).symm]
  rfl

theorem Shares.last {us : List (Sect × Bool)} (h : Shares (us ++ [(s, c)]) l) :
    ∃ (l₀ : List (ConfigNode × Block)) (g : List Block), l = l₀ ++ (g.map fun b => (s.cfg, b)) ∧ Shares us l₀ ∧ g.Nodup ∧
    (∀ b ∈ g, b ∈ s.blocks ∧ b ∉ l₀.map Prod.snd) ∧ (c = true → ∀ b ∈ s.blocks, b ∉ l₀.map Prod.snd → b ∈ g) := by
  generalize hu : us ++ [(s, c)] = us' at h
  cases h with
  | nil => simp at hu
  | use s' c' g h hn hg hc =>
    obtain ⟨rfl, h1⟩ := List.append_inj' hu rfl
    cases h1
    exact ⟨_, g, rfl, h, hn, hg, hc⟩

theorem Shares.none (h : Shares [] l) : l = [] := by
  generalize hu : ([] : List (Sect × Bool)) = us at h
  cases h with
  | nil => rfl
  | use => simp at hu

/-- What is said about the blocks that have been computed, for a directory and after the given sections of a run. -/
abbrev Account := List Char → List Sect → List (ConfigNode × Block) → Prop

/-- What a section adds to its directory. -/
structure Adds (s : Sect) (l : List (ConfigNode × Block)) (g : List Block) : Prop where
  nodup : g.Nodup
  new : ∀ b ∈ g, b ∈ s.blocks ∧ b ∉ l.map Prod.snd

/-- The account stays right in the course of a run. -/
structure Account.Keeps (R : Account) (ss : List Sect) : Prop where
  other : ∀ {pre post : List Sect} {s : Sect} {p : List Char} {l : List (ConfigNode × Block)}, ss = pre ++ s :: post →
    p ≠ s.cfg.resultPath → R p pre l → R p (pre ++ [s]) l
  use : ∀ {pre post : List Sect} {s : Sect} {l : List (ConfigNode × Block)} {g : List Block}, ss = pre ++ s :: post →
    R s.cfg.resultPath pre l → Adds s l g → (∀ b ∈ s.blocks, b ∉ l.map Prod.snd → b ∈ g) →
    R s.cfg.resultPath (pre ++ [s]) (l ++ g.map fun b => (s.cfg, b))

/-- The account of a run that was interrupted. -/
inductive Account.Broken (R : Account) (ss : List Sect) (p : List Char) : List (ConfigNode × Block) → Prop
  | start {l : List (ConfigNode × Block)} (h : R p [] l) : Account.Broken R ss p l
  | other {pre post : List Sect} {s : Sect} {l : List (ConfigNode × Block)} (hs : ss = pre ++ s :: post)
      (hp : p ≠ s.cfg.resultPath) (h : R p pre l) : Account.Broken R ss p l
  | use {pre post : List Sect} {s : Sect} {l : List (ConfigNode × Block)} {g : List Block} (hs : ss = pre ++ s :: post)
      (hp : p = s.cfg.resultPath) (h : R p pre l) (hg : Adds s l g) :
      Account.Broken R ss p (l ++ g.map fun b => (s.cfg, b))

/-- The course of a run: there is an account of the directories that `Q` selects, and those that `D` selects exist. -/
def following (result : ConfigNode → Block → StoreMap) (Q D : List Char → Prop) (R : Account) : Course where
  layout pre := grown fun s d₀ _ => ∃ l, R s.cfg.resultPath pre l ∧ At result d₀ l
  after pre p x := Q p → ((D p ∨ ∃ s ∈ pre, s.cfg.resultPath = p) → x ≠ none) ∧ ∃ l, R p pre l ∧ At result (dirOf x) l

section

variable {Q D : List Char → Prop} {R : Account}

theorem following_closes (hi : Tasks env ss result) {pre post : List Sect} {d : Dir} {ps : List (OSet Block × StoreMap)}
    (hs : ss = pre ++ s :: post) (hp : Plain d) (hh : ((following result Q D R).layout pre).holds s d ps)
    (hd : Sound result s ps) : ∃ l g, R s.cfg.resultPath pre l ∧ Adds s l g ∧
      ((recorded ps).Perm s.blocks → ∀ b ∈ s.blocks, b ∉ l.map Prod.snd → b ∈ g) ∧
      At result d (l ++ g.map fun b => (s.cfg, b)) := by
  obtain ⟨d₀, r₀, vs, sv, ⟨l, h1, h2⟩, _, h3, h4, rfl, h5⟩ := hh
  have hm : s ∈ ss := by rw [hs]; simp
  obtain ⟨h6, h7, h8, h9⟩ := h2.grows h3 h4 h5 hp hd (hi.blocks s hm) (hi.nonempty s hm)
  exact ⟨l, _, h1, ⟨h6, h7⟩, h8, h9⟩

theorem following_keeps (hi : Tasks env ss result) (hR : R.Keeps ss) (hQ : ∀ s ∈ ss, Q s.cfg.resultPath) :
    (following result Q D R).Keeps result ss where
  other hs hp h hq := by
    obtain ⟨h1, l, h2, h3⟩ := h hq
    refine ⟨?_, l, hR.other hs hp h2, h3⟩
    rintro (h | ⟨s, hs, h⟩)
    · exact h1 (Or.inl h)
    rcases List.mem_append.1 hs with hs | hs
    · exact h1 (Or.inr ⟨s, hs, h⟩)
    · rw [List.mem_singleton.1 hs] at h
      exact absurd h.symm hp
  created h hq := by
    obtain ⟨h1, l, h2, h3⟩ := h hq
    exact ⟨fun _ => by simp, l, h2, h3⟩
  opens {pre post s d} hs h := by
    have hm : s ∈ ss := by rw [hs]; simp
    obtain ⟨_, l, h2, h3⟩ := h (hQ s hm)
    obtain ⟨r, h4, _⟩ := h3.initial
    obtain ⟨vs, h5, h6⟩ := Run.exists_recorded hi hm r
    exact ⟨vs, h3.plain, ⟨d, r, vs, [], ⟨l, h2, h3⟩, h3.names, h4, h6, (List.append_nil _).symm, .start⟩, h5⟩
  closes {pre post s d ps} hs h1 h2 h3 h4 _ := by
    obtain ⟨l, g, h5, h6, h7, h8⟩ := following_closes hi hs h1 h2 h3
    exact ⟨fun _ => by simp, _, hR.use hs h5 h6 (h7 h4), h8⟩

/-- After an interrupted run. -/
theorem following_left (hi : Tasks env ss result) (h : (following result Q D R).Left result ss fs) (p : List Char)
    (hp : Q p) : (D p → fs p ≠ none) ∧ ∃ l, R.Broken ss p l ∧ At result (dirOf (fs p)) l := by
  rcases h with h | ⟨pre, s, post, h1, h2, d, ps, h3, h4, h5, h6⟩
  · obtain ⟨h0, l, h1, h2⟩ := h p hp
    exact ⟨fun hd => h0 (Or.inl hd), l, .start h1, h2⟩
  · by_cases hps : p = s.cfg.resultPath
    · subst hps
      obtain ⟨l, g, h7, h8, -, h9⟩ := following_closes hi h1 h4 h5 h6
      rw [h3]
      exact ⟨fun _ => by simp, _, .use h1 rfl h7 h8, h9⟩
    · obtain ⟨h0, l, h7, h8⟩ := h2 p hps hp
      exact ⟨fun hd => h0 (Or.inl hd), l, .other h1 hps h7, h8⟩

end

/-- The account by uses. -/
def sharing (us : List Char → List (Sect × Bool)) : Account := fun p pre l => Shares (us p ++ here p pre true) l

theorem sharing_keeps (us : List Char → List (Sect × Bool)) (ss : List Sect) : (sharing us).Keeps ss where
  other hs hp h := by
    unfold sharing
    rw [here_append, here_other hp, List.append_nil]
    exact h
  use hs h hg hc := by
    unfold sharing
    rw [here_append, here_same, ← List.append_assoc]
    exact .use _ _ _ h hg.nodup hg.new fun _ => hc

theorem Shares.weaken {us : List (Sect × Bool)} {p : List Char} {pre : List Sect} (h : Shares (us ++ here p pre true) l) :
    Shares (us ++ here p pre false) l := by
  induction pre using List.reverseRecOn generalizing l with
  | nil => exact h
  | append_singleton pre s ih =>
    rw [here_append, ← List.append_assoc] at h ⊢
    by_cases hp : p = s.cfg.resultPath
    · subst hp
      rw [here_same] at h ⊢
      obtain ⟨l₀, g, rfl, h1, h2, h3, -⟩ := h.last
      exact .use s false g (ih h1) h2 h3 nofun
    · rw [here_other hp, List.append_nil] at h ⊢
      exact ih h

theorem Shares.idle {us : List (Sect × Bool)} (h : Shares us l) (p : List Char) (post : List Sect) :
    Shares (us ++ here p post false) l := by
  induction post using List.reverseRecOn with
  | nil =>
    rw [show us ++ here p [] false = us from List.append_nil _]
    exact h
  | append_singleton post s ih =>
    rw [here_append, ← List.append_assoc]
    by_cases hp : p = s.cfg.resultPath
    · subst hp
      rw [here_same]
      have h1 := Shares.use s false [] ih List.nodup_nil (by simp) nofun
      rw [List.map_nil, List.append_nil] at h1
      exact h1
    · rw [here_other hp, List.append_nil]
      exact ih

theorem sharing_broken {us : List Char → List (Sect × Bool)} {p : List Char} (h : (sharing us).Broken ss p l) :
    Shares (us p ++ here p ss false) l := by
  have hsplit : ∀ {pre post : List Sect} {s : Sect}, ss = pre ++ s :: post →
      us p ++ here p ss false = us p ++ here p pre false ++ here p [s] false ++ here p post false := by
    intro pre post s h1
    rw [h1, here_append, show s :: post = [s] ++ post from rfl, here_append]
    simp only [List.append_assoc]
  cases h with
  | start h =>
    have h1 : Shares (us p ++ here p [] true) l := h
    rw [show us p ++ here p [] true = us p from List.append_nil _] at h1
    exact h1.idle p ss
  | other hs hp h =>
    rw [hsplit hs, here_other hp, List.append_nil]
    exact (Shares.weaken h).idle p _
  | use hs hp h hg =>
    rw [hsplit hs]
    subst hp
    rw [here_same]
    exact (Shares.use _ false _ (Shares.weaken h) hg.nodup hg.new nofun).idle _ _

theorem filter_path (hn : (ss.map fun s => s.cfg.resultPath).Nodup) (hs : s ∈ ss) :
    (ss.filter fun x => x.cfg.resultPath = s.cfg.resultPath) = [s] := by
  induction ss with
  | nil => cases hs
  | cons x ss ih =>
    rw [List.map_cons, List.nodup_cons] at hn
    rcases List.mem_cons.1 hs with rfl | hs
    · rw [List.filter_cons_of_pos (by simp), List.filter_eq_nil_iff.2]
      intro y hy hyp
      exact hn.1 (List.mem_map.2 ⟨y, hy, by simpa using hyp⟩)
    · rw [List.filter_cons_of_neg, ih hn.2 hs]
      intro hx
      exact hn.1 (List.mem_map.2 ⟨s, hs, by simpa using (of_decide_eq_true hx).symm⟩)

theorem uses_append (p : List Char) (u v : List (List Sect × Bool)) : uses p (u ++ v) = uses p u ++ uses p v :=
  List.flatMap_append

theorem uses_one (p : List Char) (ss : List Sect) (c : Bool) : uses p [(ss, c)] = here p ss c := by
  unfold uses here
  rw [List.flatMap_singleton]

theorem At.open (h : ∀ s ∈ ss, ∃ l, At result (dirOf (fs s.cfg.resultPath)) l) : Open ss fs := by
  intro s hs d hd
  obtain ⟨l, h1⟩ := h s hs
  rw [hd] at h1
  obtain ⟨r, h2, -⟩ := h1.initial
  exact ⟨h1.names, h1.plain, r, h2⟩

theorem program_nil {ss : List Sect} (h : program ss = []) : ss = [] := by
  cases ss with
  | nil => rfl
  | cons s ss => cases h

section

variable {Q D : List Char → Prop} {R : Account}

/-- What was known before the run. -/
theorem following_start (hD : ∀ p, D p → fs p ≠ none)
    (ih : ∀ p, Q p → ∃ l, R p [] l ∧ At result (dirOf (fs p)) l) (p : List Char) :
    (following result Q D R).after [] p (fs p) := fun hp => ⟨by simpa using hD p, ih p hp⟩

/-- After a complete run. -/
theorem Left.over (h : Left env ss fs true fs') (hi : Tasks env ss result) (hR : R.Keeps ss)
    (hQ : ∀ s ∈ ss, Q s.cfg.resultPath) (hD : ∀ p, D p → fs p ≠ none) (ih : ∀ p, Q p → ∃ l, R p [] l ∧ At result (dirOf (fs p)) l) (p : List Char)
    (hp : Q p) : ((D p ∨ ∃ s ∈ ss, s.cfg.resultPath = p) → fs' p ≠ none) ∧ ∃ l, R p ss l ∧ At result (dirOf (fs' p)) l := by
  have hP := following_keeps (D := D) hi hR hQ
  cases h with
  | threadedEnd kinds st hk hr hpc ht =>
    obtain ⟨pre, post, h1, h2, h3⟩ := (Run.DataInvIn.course hP hi hk (following_start hD ih) hr).over hP hi
      ((Run.Good.init env hk fs hi.blocks).reachable hr) (Run.all_done hk hi.blocks hr (by rw [hpc]; rfl)).2.1 hpc (Or.inl ht)
    rw [ht] at h2
    rw [program_nil h2.symm, List.append_nil] at h1
    rw [h1]
    exact h3 p hp
  | mpiEnd kinds st h0 hk hr hpc ht =>
    obtain ⟨pre, post, h1, h2, h3⟩ := (Mpi.DataInvIn.course hP hi h0 hk (following_start hD ih) hr).over hP hi
      ((Mpi.Inv.initial h0 hk fs (Run.distinct_program hi.blocks)).reachable hr) hpc (Or.inl ht)
    rw [ht] at h2
    rw [program_nil h2.symm, List.append_nil] at h1
    rw [h1]
    exact h3 p hp

/-- After a run that was interrupted. -/
theorem Left.broken (h : Left env ss fs false fs') (hi : Tasks env ss result) (hR : R.Keeps ss)
    (hQ : ∀ s ∈ ss, Q s.cfg.resultPath) (hD : ∀ p, D p → fs p ≠ none) (ih : ∀ p, Q p → ∃ l, R p [] l ∧ At result (dirOf (fs p)) l) (p : List Char)
    (hp : Q p) : (D p → fs' p ≠ none) ∧ ∃ l, R.Broken ss p l ∧ At result (dirOf (fs' p)) l := by
  have hP := following_keeps (D := D) hi hR hQ
  refine following_left hi ?_ p hp
  cases h with
  | threaded kinds st fs' hk hr hd =>
    exact (Run.DataInvIn.course hP hi hk (following_start hD ih) hr).left hi
      ((Run.Good.init env hk fs hi.blocks).reachable hr) hd
  | mpi kinds st fs' h0 hk hr hd => exact (Mpi.DataInvIn.course hP hi h0 hk (following_start hD ih) hr).left hi hd

/-- No step of a run fails. -/
theorem safe_threaded (hi : Tasks env ss result) (hR : R.Keeps ss) (hQ : ∀ s ∈ ss, Q s.cfg.resultPath)
    (ih : ∀ p, Q p → ∃ l, R p [] l ∧ At result (dirOf (fs p)) l) {kinds : List Bool} (hk : kinds.length < 4294967296)
    {st : Run.State} (hr : Run.Reachable env (Run.initial kinds fs (program ss)) st) (l : Run.Label) :
    ∃ o, Run.step env st l = .ok o :=
  Run.safe_step (Run.DataInvIn.course (following_keeps (D := fun _ => False) hi hR hQ) hi hk (following_start nofun ih) hr) (following_keeps hi hR hQ) hi
    ((Run.Good.init env hk fs hi.blocks).reachable hr) l

theorem safe_mpi (hi : Tasks env ss result) (hR : R.Keeps ss) (hQ : ∀ s ∈ ss, Q s.cfg.resultPath)
    (ih : ∀ p, Q p → ∃ l, R p [] l ∧ At result (dirOf (fs p)) l) {kinds : List (List Bool)} (h0 : kinds ≠ [])
    (hk : ∀ k ∈ kinds, k.length < 4294967296) {st : Mpi.State}
    (hr : Mpi.Reachable env (Mpi.initial kinds fs (program ss)) st) (l : Mpi.Label) : ∃ o, Mpi.step env st l = .ok o :=
  Mpi.safe_step (Mpi.DataInvIn.course (following_keeps (D := fun _ => False) hi hR hQ) hi h0 hk (following_start nofun ih) hr)
    (following_keeps hi hR hQ) hi ((Mpi.Inv.initial h0 hk fs (Run.distinct_program hi.blocks)).reachable hr) l

end

/-- The account of what was computed by other runs. -/
theorem sharing_start {Q : List Char → Prop} {us : List Char → List (Sect × Bool)}
    (ih : ∀ p, Q p → ∃ l, Shares (us p) l ∧ At result (dirOf (fs p)) l) (p : List Char) (hp : Q p) :
    ∃ l, sharing us p [] l ∧ At result (dirOf (fs p)) l := by
  obtain ⟨l, h1, h2⟩ := ih p hp
  refine ⟨l, ?_, h2⟩
  show Shares (us p ++ here p [] true) l
  rw [show us p ++ here p [] true = us p from List.append_nil _]
  exact h1

/-- A run that follows. -/
theorem Left.at {Q D : List Char → Prop} {us : List Char → List (Sect × Bool)} (h : Left env ss fs c fs')
    (hi : Tasks env ss result) (hQ : ∀ s ∈ ss, Q s.cfg.resultPath) (hD : ∀ p, D p → fs p ≠ none)
    (ih : ∀ p, Q p → ∃ l, Shares (us p) l ∧ At result (dirOf (fs p)) l) (p : List Char) (hp : Q p) :
    (D p ∨ (c = true ∧ ∃ s ∈ ss, s.cfg.resultPath = p) → fs' p ≠ none) ∧
      ∃ l, Shares (us p ++ here p ss c) l ∧ At result (dirOf (fs' p)) l := by
  cases c with
  | true =>
    have h1 := h.over hi (sharing_keeps us ss) hQ hD (sharing_start ih) p hp
    exact ⟨fun hd => h1.1 (hd.imp id fun x => x.2), h1.2⟩
  | false =>
    obtain ⟨h0, l, h1, h2⟩ := h.broken hi (sharing_keeps us ss) hQ hD (sharing_start ih) p hp
    exact ⟨fun hd => h0 (hd.resolve_right fun x => by cases x.1), l, sharing_broken h1, h2⟩

theorem After.at {fs₀ : FileSystem} {u : List (List Sect × Bool)} (h : After env fs₀ u fs)
    (hi : ∀ x ∈ u, Tasks env x.1 result)
    (h0 : ∀ x ∈ u, ∀ s ∈ x.1, At result (dirOf (fs₀ s.cfg.resultPath)) []) :
    ∀ p, At result (dirOf (fs₀ p)) [] → ((∃ s, (s, true) ∈ uses p u) → fs p ≠ none) ∧
      ∃ l, Shares (uses p u) l ∧ At result (dirOf (fs p)) l := by
  induction h with
  | start => exact fun p hp => ⟨fun ⟨_, h⟩ => (List.not_mem_nil h).elim, [], .nil, hp⟩
  | @run u fs fs' ss c h hl ih =>
    have ih' := ih (fun x hx => hi x (List.mem_append_left _ hx)) fun x hx => h0 x (List.mem_append_left _ hx)
    intro p hp
    rw [uses_append, uses_one]
    have h1 := hl.at (us := fun p => uses p u) (hi _ (List.mem_append_right _ List.mem_cons_self))
      (Q := fun p => At result (dirOf (fs₀ p)) [])
      (D := fun p => At result (dirOf (fs₀ p)) [] ∧ ∃ s, (s, true) ∈ uses p u)
      (h0 _ (List.mem_append_right _ List.mem_cons_self)) (fun p hd => (ih' p hd.1).1 hd.2) (fun p hq => (ih' p hq).2) p hp
    refine ⟨?_, h1.2⟩
    rintro ⟨s, hs⟩
    refine h1.1 ((List.mem_append.1 hs).imp (fun h => ⟨hp, s, h⟩) fun h => ?_)
    obtain ⟨t, ht, he⟩ := List.mem_map.1 h
    obtain ⟨rfl, rfl⟩ := Prod.mk.inj he
    exact ⟨rfl, t, (List.mem_filter.1 ht).1, of_decide_eq_true (List.mem_filter.1 ht).2⟩

theorem Untouched.at {fs₀ : FileSystem} (h : Untouched ss fs₀) (hs : s ∈ ss) :
    At result (dirOf (fs₀ s.cfg.resultPath)) [] := by
  cases hd : fs₀ s.cfg.resultPath with
  | none => exact At.empty result List.nodup_nil (by simp [Plain, dirOf]) (by simp [dirOf])
  | some d =>
    obtain ⟨h1, h2, h3⟩ := h s hs d hd
    exact At.empty result h1 h2 h3

/-- A directory as the merger reads it. -/
theorem At.merged {d : Dir} (h : At result d l) : ∃ r m, Merger.merge d = .ok ⟨0, some (Store.print m, Record.print r)⟩ ∧
    Tally m (l.flatMap fun x => result x.1 x.2) ∧ ∀ b, b ≠ [] → (b ∈ r ↔ b ∈ l.map Prod.snd) := by
  obtain ⟨r, m, h3, h4, h5⟩ := h.loop
  refine ⟨r, m, ?_, h5, h4⟩
  unfold Merger.merge
  rw [h3]
  rfl

/-- Runs that were complete have left a directory. -/
theorem After.exists {fs₀ : FileSystem} {u : List (List Sect × Bool)} (h : After env fs₀ u fs)
    (hi : ∀ x ∈ u, Tasks env x.1 result) (h0 : ∀ x ∈ u, Untouched x.1 fs₀) {p : List Char} (hs : (s, true) ∈ uses p u) :
    ∃ d l, fs p = some d ∧ Shares (uses p u) l ∧ At result d l := by
  have hp : At result (dirOf (fs₀ p)) [] := by
    obtain ⟨x, hx, hv⟩ := List.mem_flatMap.1 hs
    obtain ⟨t, ht, he⟩ := List.mem_map.1 hv
    obtain ⟨rfl, -⟩ := Prod.mk.inj he
    obtain ⟨h1, h2⟩ := List.mem_filter.1 ht
    rw [← of_decide_eq_true h2]
    exact Untouched.at (h0 x hx) h1
  obtain ⟨h1, l, h2, h3⟩ := h.at hi (fun x hx s hs => Untouched.at (h0 x hx) hs) p hp
  cases hd : fs p with
  | none => exact absurd hd (h1 ⟨s, hs⟩)
  | some d =>
    rw [hd] at h3
    exact ⟨d, l, rfl, h2, h3⟩

end

/-! ### What has been computed -/

section

variable {us : List (Sect × Bool)} {l : List (ConfigNode × Block)} {s : Sect} {c : Bool}

theorem blocks_map (g : List Block) (c : ConfigNode) : (g.map fun b => (c, b)).map Prod.snd = g := by
  rw [List.map_map]
  exact List.map_id _

theorem Shares.nodup (h : Shares us l) : (l.map Prod.snd).Nodup := by
  induction h with
  | nil => exact List.nodup_nil
  | use s c g h hn hg hc ih =>
    rw [List.map_append, blocks_map, List.nodup_append]
    exact ⟨ih, hn, fun a ha b hb hab => (hg b hb).2 (hab ▸ ha)⟩

theorem Shares.mem (h : Shares us l) : ∀ x ∈ l, ∃ u ∈ us, u.1.cfg = x.1 ∧ x.2 ∈ u.1.blocks := by
  induction h with
  | nil => simp
  | use s c g h hn hg hc ih =>
    intro x hx
    rcases List.mem_append.1 hx with hx | hx
    · obtain ⟨u, h1, h2⟩ := ih x hx
      exact ⟨u, List.mem_append_left _ h1, h2⟩
    · obtain ⟨b, hb, rfl⟩ := List.mem_map.1 hx
      exact ⟨(s, c), List.mem_append_right _ List.mem_cons_self, rfl, (hg b hb).1⟩

theorem Shares.complete (h : Shares us l) (hs : (s, true) ∈ us) : ∀ b ∈ s.blocks, b ∈ l.map Prod.snd := by
  induction h with
  | nil => cases hs
  | @use _ l s' c g h hn hg hc ih =>
    intro b hb
    rw [List.map_append, blocks_map, List.mem_append]
    rcases List.mem_append.1 hs with hs | hs
    · exact Or.inl (ih hs b hb)
    · cases List.mem_singleton.1 hs
      by_cases hl : b ∈ l.map Prod.snd
      · exact Or.inl hl
      · exact Or.inr (hc rfl b hb hl)

/-! ### The first section that has a block -/

theorem First.unique {ts : List Sect} {x y : ConfigNode × Block} (hx : First ts x) (hy : First ts y) (h : x.2 = y.2) :
    x = y := by
  obtain ⟨a, t, z, h1, h2, h3, h4⟩ := hx
  obtain ⟨a', t', z', h1', h2', h3', h4'⟩ := hy
  have key : t = t' := by
    rw [h1] at h1'
    rcases List.append_eq_append_iff.1 h1' with ⟨c, h5, h6⟩ | ⟨c, h5, h6⟩
    · cases c with
      | nil => exact (List.cons_eq_cons.1 h6).1
      | cons v c =>
        obtain ⟨rfl, -⟩ := List.cons_eq_cons.1 h6
        exact absurd (h ▸ h3) (h4' t (by rw [h5]; simp))
    · cases c with
      | nil => exact (List.cons_eq_cons.1 h6).1.symm
      | cons v c =>
        obtain ⟨rfl, -⟩ := List.cons_eq_cons.1 h6
        exact absurd (h ▸ h3') (h4 t' (by rw [h5]; simp))
  exact Prod.ext (h2.symm.trans (key ▸ h2')) h

theorem First.append {ts : List Sect} {x : ConfigNode × Block} (h : First ts x) (ts' : List Sect) : First (ts ++ ts') x := by
  obtain ⟨a, t, z, rfl, h2⟩ := h
  exact ⟨a, t, z ++ ts', by rw [List.append_assoc]; rfl, h2⟩

theorem mem_firsts {x : ConfigNode × Block} (ts : List Sect) :
    ∀ seen, x ∈ firsts seen ts ↔ First ts x ∧ x.2 ∉ seen := by
  induction ts with
  | nil =>
    intro seen
    constructor
    · exact fun h => absurd h List.not_mem_nil
    · rintro ⟨⟨a, t, z, h, -⟩, -⟩
      simp at h
  | cons s ts ih =>
    intro seen
    unfold firsts
    rw [List.mem_append, ih, List.mem_append, not_or]
    constructor
    · rintro (h | ⟨⟨a, t, z, rfl, h2, h3, h4⟩, h5, h6⟩)
      · obtain ⟨b, hb, rfl⟩ := List.mem_map.1 h
        obtain ⟨h1, h2⟩ := List.mem_filter.1 hb
        exact ⟨⟨[], s, ts, rfl, rfl, h1, by simp⟩, of_decide_eq_true h2⟩
      · refine ⟨⟨s :: a, t, z, rfl, h2, h3, fun v hv => ?_⟩, h5⟩
        rcases List.mem_cons.1 hv with rfl | hv
        · exact h6
        · exact h4 v hv
    · rintro ⟨⟨a, t, z, h1, h2, h3, h4⟩, h5⟩
      cases a with
      | nil =>
        obtain ⟨rfl, rfl⟩ := List.cons_eq_cons.1 h1
        exact Or.inl (List.mem_map.2 ⟨x.2, List.mem_filter.2 ⟨h3, by simpa using h5⟩, Prod.ext h2 rfl⟩)
      | cons v a =>
        obtain ⟨rfl, h6⟩ := List.cons_eq_cons.1 h1
        exact Or.inr ⟨⟨a, t, z, h6, h2, h3, fun s hs => h4 s (List.mem_cons_of_mem _ hs)⟩, h5, h4 s List.mem_cons_self⟩

theorem firsts_nodup {ts : List Sect} (h : ∀ s ∈ ts, s.blocks.Nodup) : ∀ seen, ((firsts seen ts).map Prod.snd).Nodup := by
  induction ts with
  | nil => exact fun _ => List.nodup_nil
  | cons s ts ih =>
    intro seen
    unfold firsts
    rw [List.map_append, blocks_map, List.nodup_append]
    refine ⟨(h s List.mem_cons_self).filter _, ih (fun s hs => h s (List.mem_cons_of_mem _ hs)) _, ?_⟩
    rintro a ha b hb rfl
    obtain ⟨y, hy, rfl⟩ := List.mem_map.1 hb
    exact ((mem_firsts ts _).1 hy).2 (List.mem_append_right _ (List.mem_filter.1 ha).1)

/-- If every block has been computed, it was computed for the first section that has it. -/
theorem perm_firsts {ts : List Sect} (hn : ∀ s ∈ ts, s.blocks.Nodup) (h1 : (l.map Prod.snd).Nodup) (h2 : ∀ x ∈ l, First ts x)
    (h3 : ∀ s ∈ ts, ∀ b ∈ s.blocks, b ∈ l.map Prod.snd) : l.Perm (firsts [] ts) := by
  refine (List.perm_ext_iff_of_nodup h1.of_map (firsts_nodup hn []).of_map).2 fun x => ?_
  rw [mem_firsts]
  refine ⟨fun h => ⟨h2 x h, by simp⟩, fun h => ?_⟩
  obtain ⟨a, t, z, h4, h5, h6, h7⟩ := h.1
  obtain ⟨y, hy, h8⟩ := List.mem_map.1 (h3 t (by rw [h4]; simp) x.2 h6)
  rw [← (h2 y hy).unique h.1 h8]
  exact hy

theorem Shares.first (h : Shares us l) (hc : ∀ u ∈ us, u.2 = true) : ∀ x ∈ l, First (us.map Prod.fst) x := by
  induction h with
  | nil => simp
  | use s c g h hn hg hc' ih =>
    intro x hx
    rw [List.map_append]
    rcases List.mem_append.1 hx with hx | hx
    · exact (ih (fun u hu => hc u (List.mem_append_left _ hu)) x hx).append _
    · obtain ⟨b, hb, rfl⟩ := List.mem_map.1 hx
      refine ⟨_, s, [], rfl, rfl, (hg b hb).1, fun v hv hbv => (hg b hb).2 ?_⟩
      obtain ⟨u, hu, rfl⟩ := List.mem_map.1 hv
      refine h.complete (s := u.1) ?_ b hbv
      rw [← hc u (List.mem_append_left _ hu)]
      exact hu

/-- After complete uses only. -/
theorem Shares.perm (h : Shares us l) (hc : ∀ u ∈ us, u.2 = true) (hn : ∀ u ∈ us, u.1.blocks.Nodup) :
    l.Perm (firsts [] (us.map Prod.fst)) := by
  refine perm_firsts ?_ h.nodup (h.first hc) ?_
  · intro s hs
    obtain ⟨u, hu, rfl⟩ := List.mem_map.1 hs
    exact hn u hu
  · intro s hs
    obtain ⟨u, hu, rfl⟩ := List.mem_map.1 hs
    refine h.complete ?_
    rw [← hc u hu]
    exact hu

/-- The sections of a list with the given directory. -/
def atPath (p : List Char) (ss : List Sect) : List Sect := ss.filter fun s => s.cfg.resultPath = p

/-- The account of runs with the same input: every block has been computed for the first section that has it, and the
blocks of the sections in `K` have been computed before. -/
def repeating (ss K : List Sect) : Account := fun p pre l => (l.map Prod.snd).Nodup ∧
  (∀ x ∈ l, First (atPath p ss) x) ∧ ∀ s ∈ K ++ pre, s.cfg.resultPath = p → ∀ b ∈ s.blocks, b ∈ l.map Prod.snd

theorem repeating_use {ss K pre post : List Sect} {g : List Block} (hs : ss = pre ++ s :: post)
    (h : repeating ss K s.cfg.resultPath pre l) (hg : Adds s l g) :
    repeating ss K s.cfg.resultPath pre (l ++ g.map fun b => (s.cfg, b)) := by
  obtain ⟨h1, h2, h3⟩ := h
  refine ⟨?_, fun x hx => ?_, fun t ht hp b hb => ?_⟩
  · rw [List.map_append, blocks_map, List.nodup_append]
    exact ⟨h1, hg.nodup, fun a ha b hb hab => (hg.new b hb).2 (hab ▸ ha)⟩
  · rcases List.mem_append.1 hx with hx | hx
    · exact h2 x hx
    · obtain ⟨b, hb, rfl⟩ := List.mem_map.1 hx
      refine ⟨atPath s.cfg.resultPath pre, s, atPath s.cfg.resultPath post, ?_, rfl, (hg.new b hb).1, fun t ht hbt => ?_⟩
      · unfold atPath
        rw [hs, List.filter_append, List.filter_cons_of_pos (by simp)]
      · obtain ⟨h4, h5⟩ := List.mem_filter.1 ht
        exact (hg.new b hb).2 (h3 t (List.mem_append_right _ h4) (of_decide_eq_true h5) b hbt)
  · rw [List.map_append, List.mem_append]
    exact Or.inl (h3 t ht hp b hb)

theorem repeating_keeps (ss K : List Sect) : (repeating ss K).Keeps ss where
  other := by
    rintro pre post s p l hs hp ⟨h1, h2, h3⟩
    refine ⟨h1, h2, fun t ht hpt => ?_⟩
    rw [← List.append_assoc] at ht
    rcases List.mem_append.1 ht with ht | ht
    · exact h3 t ht hpt
    · rw [List.mem_singleton.1 ht] at hpt
      exact absurd hpt.symm hp
  use := by
    intro pre post s l g hs h hg hc
    obtain ⟨h1, h2, h3⟩ := repeating_use hs h hg
    refine ⟨h1, h2, fun t ht hpt b hb => ?_⟩
    rw [← List.append_assoc] at ht
    rcases List.mem_append.1 ht with ht | ht
    · exact h3 t ht hpt b hb
    · cases List.mem_singleton.1 ht
      rw [List.map_append, blocks_map, List.mem_append]
      by_cases hl : b ∈ l.map Prod.snd
      · exact Or.inl hl
      · exact Or.inr (hc b hb hl)

theorem repeating_forget {ss K pre : List Sect} {p : List Char} (h : repeating ss K p pre l) : repeating ss K p [] l :=
  ⟨h.1, h.2.1, fun s hs => h.2.2 s (by rw [List.append_nil] at hs; exact List.mem_append_left _ hs)⟩

theorem repeating_broken {ss K : List Sect} {p : List Char} (h : (repeating ss K).Broken ss p l) : repeating ss K p [] l := by
  cases h with
  | start h => exact h
  | other hs hp h => exact repeating_forget h
  | use hs hp h hg =>
    subst hp
    exact repeating_forget (repeating_use hs h hg)

/-- Runs with the same input, one after the other. -/
theorem After.repeating {env : Env} {result : ConfigNode → Block → StoreMap} {ss : List Sect} {fs₀ fs : FileSystem}
    {u : List (List Sect × Bool)} (h : After env fs₀ u fs) (hu : ∀ x ∈ u, x.1 = ss) (hi : Tasks env ss result)
    (h0 : Untouched ss fs₀) : ∃ K : List Sect, ((ss, true) ∈ u → K = ss ∧ ∀ s ∈ ss, fs s.cfg.resultPath ≠ none) ∧
      ∀ p, (∃ s ∈ ss, s.cfg.resultPath = p) → ∃ l, Series.repeating ss K p [] l ∧ At result (dirOf (fs p)) l := by
  induction h with
  | start =>
    refine ⟨[], by simp, ?_⟩
    rintro p ⟨s, hs, rfl⟩
    exact ⟨[], ⟨List.nodup_nil, by simp, by simp⟩, Untouched.at h0 hs⟩
  | @run u fs fs' ss' b h hl ih =>
    obtain ⟨K, h1, h2⟩ := ih fun x hx => hu x (List.mem_append_left _ hx)
    obtain rfl : ss' = ss := hu _ (List.mem_append_right _ List.mem_cons_self)
    cases b with
    | true =>
      have h3 := hl.over (D := fun _ => False) hi (repeating_keeps ss' K) (Q := fun p => ∃ s ∈ ss', s.cfg.resultPath = p)
        (fun s hs => ⟨s, hs, rfl⟩) nofun h2
      refine ⟨ss', fun _ => ⟨rfl, fun s hs => (h3 _ ⟨s, hs, rfl⟩).1 (Or.inr ⟨s, hs, rfl⟩)⟩, fun p hp => ?_⟩
      obtain ⟨-, l, h4, h5⟩ := h3 p hp
      refine ⟨l, ⟨h4.1, h4.2.1, fun s hs => h4.2.2 s ?_⟩, h5⟩
      rw [List.append_nil] at hs
      exact List.mem_append_right _ hs
    | false =>
      have h3 := hl.broken (D := fun p => (ss', true) ∈ u ∧ ∃ s ∈ ss', s.cfg.resultPath = p) hi (repeating_keeps ss' K)
        (Q := fun p => ∃ s ∈ ss', s.cfg.resultPath = p) (fun s hs => ⟨s, hs, rfl⟩)
        (by rintro p ⟨hm, s, hs, rfl⟩; exact (h1 hm).2 s hs) h2
      refine ⟨K, fun hm => ?_, fun p hp => ?_⟩
      · have hm' : (ss', true) ∈ u := by simpa using hm
        exact ⟨(h1 hm').1, fun s hs => (h3 _ ⟨s, hs, rfl⟩).1 ⟨hm', s, hs, rfl⟩⟩
      · obtain ⟨-, l, h4, h5⟩ := h3 p hp
        exact ⟨l, repeating_broken h4, h5⟩

/-- If the results of blocks do not depend on the configuration, the sums are at most those of all uses. -/
theorem Shares.total_le {result : ConfigNode → Block → StoreMap} {f : Block → StoreMap} {N : Int} {k : Key}
    (h : Shares us l) (hf : ∀ u ∈ us, ∀ b ∈ u.1.blocks, result u.1.cfg b = f b)
    (hp : ∀ u ∈ us, ∀ b ∈ u.1.blocks, ∀ e ∈ f b, 0 ≤ e.2) (hN : ∀ u ∈ us, total (u.1.blocks.flatMap f) k ≤ N) :
    total (l.flatMap fun x => result x.1 x.2) k ≤ us.length * N := by
  induction h with
  | nil => simp [total]
  | use s c g h hn hg hc ih =>
    have h1 := ih (fun u hu => hf u (List.mem_append_left _ hu)) (fun u hu => hp u (List.mem_append_left _ hu))
      fun u hu => hN u (List.mem_append_left _ hu)
    have hm : ∀ {us : List (Sect × Bool)}, (s, c) ∈ us ++ [(s, c)] := List.mem_append_right _ List.mem_cons_self
    have h2 : total ((g.map fun b => (s.cfg, b)).flatMap fun x => result x.1 x.2) k = total (g.flatMap f) k := by
      rw [List.flatMap_map]
      congr 1
      exact List.flatMap_congr fun b hb => hf (s, c) hm b (hg b hb).1
    have h3 : total (g.flatMap f) k ≤ total (s.blocks.flatMap f) k :=
      Run.total_le (fun b hb => (hg b hb).1) hn (fun b hb => hp (s, c) hm b hb) k
    have h4 := hN (s, c) hm
    rw [List.flatMap_append, total_append, h2, List.length_append]
    push_cast
    rw [add_mul]
    simp only [List.length_cons, List.length_nil]
    push_cast
    linarith

end
end Series
end Hycu
