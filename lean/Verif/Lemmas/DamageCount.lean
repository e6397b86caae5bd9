import Verif.Lemmas.Damage
import Verif.Props.Faults

/-!
Directories after runs that died at any time.
-/

namespace Hycu
namespace Run

/-- `x.1` are the blocks whose results are in a store, `x.2.1` are the blocks that are read from the record that belongs
to it, and `x.2.2` are the entries that are read from the store. -/
structure Covers (result : ConfigNode → Block → StoreMap) (s : Sect) (x : List Block × List Block × List (Key × Int)) :
    Prop where
  sub : ∀ b ∈ x.1, b ∈ s.blocks
  read : ∀ b ∈ s.blocks, b ∈ x.2.1 → b ∈ x.1
  total : ∀ k, total x.2.2 k = total (x.1.flatMap (result s.cfg)) k
  keys : ∀ k, k ∈ x.2.2.map Prod.fst ↔ k ∈ (x.1.flatMap (result s.cfg)).map Prod.fst

/-- A directory in which records may be cut off. -/
structure Rough (result : ConfigNode → Block → StoreMap) (s : Sect) (d : Dir) : Prop where
  names : d.NamesDiffer
  plain : Plain d
  files : ∃ xs : List (List Block × List Block × List (Key × Int)),
    List.Forall₂ d.Reads (d.filter FileStore.isRecordFile) (xs.map Prod.snd) ∧ ∀ x ∈ xs, Covers result s x

section

variable {env : Env} {ss : List Sect} {result : ConfigNode → Block → StoreMap} {s : Sect} {d : Dir} {id : Nat}

theorem Rough.initial (h : Rough result s d) : ∃ r, FileStore.initialRecord d = .ok r := by
  obtain ⟨xs, h1, _⟩ := h.files
  refine ⟨_, FileStore.readRecords_reads d ((xs.map Prod.snd).map Prod.fst) [] ?_⟩
  rw [List.forall₂_map_right_iff]
  exact h1.imp fun e x hx => hx.record

/-- The files of a record are read as before. -/
theorem reads_add {e : List Char × FileEntry} {x : List Block × List (Key × Int)} {d₂ : Dir} (h : d.Reads e x)
    (hid : d.Absent id) (he : e ∈ d) (hr : FileStore.isRecordFile e = true)
    (h2 : ∀ e ∈ d₂, e.1 = FileStore.storeName id ∨ e.1 = FileStore.recordName id) : Dir.Reads (d ++ d₂) e x := by
  have h3 := hid.lookup_add h2 _ ⟨e, he, hr, Or.inl rfl⟩
  have h4 := hid.lookup_add h2 _ ⟨e, he, hr, Or.inr rfl⟩
  refine ⟨?_, fun r => ?_, fun m => ?_, h.small⟩
  · have := h.regular
    unfold Dir.isRegularFile at this ⊢
    rw [h4]
    exact this
  · have := h.record r
    unfold Dir.openIn at this ⊢
    rw [h3]
    exact this
  · have := h.store m
    unfold Dir.openIn at this ⊢
    rw [h4]
    exact this

theorem forall_reads_add {xs : List (List Block × List (Key × Int))} {d₂ : Dir} (hid : d.Absent id)
    (h2 : ∀ e ∈ d₂, e.1 = FileStore.storeName id ∨ e.1 = FileStore.recordName id)
    (h : List.Forall₂ d.Reads (d.filter FileStore.isRecordFile) xs) :
    List.Forall₂ (Dir.Reads (d ++ d₂)) (d.filter FileStore.isRecordFile) xs := by
  have key : ∀ (es : List (List Char × FileEntry)) (xs : List (List Block × List (Key × Int))),
      (∀ e ∈ es, e ∈ d ∧ FileStore.isRecordFile e = true) → List.Forall₂ d.Reads es xs →
      List.Forall₂ (Dir.Reads (d ++ d₂)) es xs := by
    intro es xs hes hf
    induction hf with
    | nil => exact .nil
    | cons h1 _ ih =>
      have h3 := hes _ List.mem_cons_self
      exact .cons (reads_add h1 hid h3.1 h3.2 h2) (ih fun e he => hes e (List.mem_cons_of_mem _ he))
  exact key _ _ (fun e he => ⟨(List.mem_filter.1 he).1, (List.mem_filter.1 he).2⟩) h

theorem Plain.append {d₂ : Dir} (h : Plain d) (h2 : ∀ e ∈ d₂, Dir.regular e.2 = true) : Plain (d ++ d₂) := by
  intro e he hn
  rcases List.mem_append.1 he with he | he
  · exact h e he hn
  · exact h2 e he

theorem Rough.store (h : Rough result s d) (hid : d.Absent id) (c : List Char) :
    Rough result s (d ++ [(FileStore.storeName id, .file c)]) := by
  obtain ⟨xs, h1, h2⟩ := h.files
  refine ⟨names_one h.names hid _, h.plain.append (by simp [Dir.regular]), xs, ?_, h2⟩
  rw [List.filter_append, List.filter_cons_of_neg (by simp [isRecordFile_store]), List.filter_nil, List.append_nil]
  exact forall_reads_add hid (by simp) h1

/-- A save that was interrupted when it wrote the record, or not at all. -/
theorem Rough.pair (h : Rough result s d) (hid : d.Absent id) {p : OSet Block × StoreMap} (hp : PairOk p)
    (hm : Match (result s.cfg) p.1 p.2) (hb : ∀ b ∈ p.1, b ∈ s.blocks) (hne : ∀ b ∈ s.blocks, b ≠ [])
    (hcut : ∀ b ∈ s.blocks, ∀ b' ∈ s.blocks, CutBlock b b' → b' = b) {part : List Char}
    (hpart : part <+: Record.print p.1) :
    Rough result s (d ++ [(FileStore.storeName id, .file (Store.print p.2)), (FileStore.recordName id, .file part)]) := by
  obtain ⟨xs, h1, h2⟩ := h.files
  obtain ⟨l₁, l₂, h3, bs, h4, h5⟩ := Record.extract_cut hp.blocks_fit hpart
  refine ⟨names_two h.names hid _ _, h.plain.append (by simp [Dir.regular]), xs ++ [(p.1, l₁ ++ bs, p.2)], ?_, ?_⟩
  · rw [List.filter_append, List.filter_cons_of_neg (by simp [isRecordFile_store]),
      List.filter_cons_of_pos (isRecordFile_record id part), List.filter_nil, List.map_append]
    refine List.rel_append (forall_reads_add hid (by simp) h1) (.cons ?_ .nil)
    obtain ⟨h6, h7⟩ := lookup_two hid (.file (Store.print p.2)) (.file part)
    refine ⟨?_, fun r => ?_, fun m => ?_, hp.counts_small⟩
    · rw [replace_recordName]
      unfold Dir.isRegularFile
      rw [h6]
      rfl
    · unfold Dir.openIn
      rw [h7]
      exact h4 r
    · rw [replace_recordName]
      unfold Dir.openIn
      rw [h6]
      exact Store.extract_print m hp.keys_fit
  · intro x hx
    rcases List.mem_append.1 hx with hx | hx
    · exact h2 x hx
    · rw [List.mem_singleton.1 hx]
      refine ⟨hb, fun b hbs hr => ?_, fun k => hm.tally.total_eq k, fun k => hm.tally.mem_keys k⟩
      dsimp only at hr ⊢
      rcases List.mem_append.1 hr with hr | hr
      · rw [h3]
        exact List.mem_append_left _ hr
      · rcases h5 with rfl | ⟨b', rfl, h5⟩
        · cases hr
        · have hbb := List.mem_singleton.1 hr
          subst hbb
          rcases h5 with rfl | ⟨b₀, l₃, h6, h7⟩
          · exact absurd rfl (hne _ hbs)
          · have h8 : b₀ ∈ p.1 := by rw [h3, h6]; simp
            rw [hcut b₀ (hb _ h8) b hbs h7]
            exact h8

theorem Rough.grows (h : Rough result s d) {d' : Dir} {ps : List (OSet Block × StoreMap)} (hg : d.Grows d' ps)
    (hm : ∀ p ∈ ps, Match (result s.cfg) p.1 p.2) (hb : ∀ b ∈ recorded ps, b ∈ s.blocks) (hne : ∀ b ∈ s.blocks, b ≠ [])
    (hcut : ∀ b ∈ s.blocks, ∀ b' ∈ s.blocks, CutBlock b b' → b' = b) : Rough result s d' := by
  induction hg with
  | start => exact h
  | store d ps id c _ hid ih => exact (ih hm hb).store hid c
  | pair d ps id p _ hid hp ih =>
    refine (ih (fun p hp => hm p (List.mem_append_left _ hp)) fun b hb' => hb b ?_).pair hid hp
      (hm p (by simp)) (fun b hb' => hb b ?_) hne hcut (List.prefix_refl _)
    · rw [recorded_append]
      exact List.mem_append_left _ hb'
    · rw [recorded_append]
      refine List.mem_append_right _ ?_
      unfold recorded
      rw [List.flatMap_singleton]
      exact hb'

theorem rough_empty : Rough result s [] :=
  ⟨List.nodup_nil, (by intro e he; cases he), [], .nil, (by simp)⟩

/-- The base of a directory that has grown. -/
theorem since_rough {fs : FileSystem} {ps : List (OSet Block × StoreMap)} (h : (since fs).holds s d ps)
    (hs : Sound result s ps) (h0 : ∀ d₀, fs s.cfg.resultPath = some d₀ → Rough result s d₀)
    (hne : ∀ b ∈ s.blocks, b ≠ []) (hcut : ∀ b ∈ s.blocks, ∀ b' ∈ s.blocks, CutBlock b b' → b' = b) :
    Rough result s d := by
  obtain ⟨d₀, r₀, vs, sv, h1, _, _, _, rfl, h2⟩ := h
  have h3 : Rough result s d₀ := by
    rcases h1 with h1 | ⟨_, rfl, _⟩
    · exact h0 d₀ h1
    · exact rough_empty
  refine h3.grows h2 (fun p hp => hs.tally p (List.mem_append_right _ hp)) (fun b hb => hs.once.subset ?_) hne hcut
  rw [recorded_append]
  exact List.mem_append_right _ hb

theorem KeptIn.rough {fs fs' : FileSystem} (h : KeptIn (since fs) result fs' s)
    (h0 : ∀ d₀, fs s.cfg.resultPath = some d₀ → Rough result s d₀)
    (hne : ∀ b ∈ s.blocks, b ≠ []) (hcut : ∀ b ∈ s.blocks, ∀ b' ∈ s.blocks, CutBlock b b' → b' = b) (d : Dir)
    (hd : fs' s.cfg.resultPath = some d) : Rough result s d := by
  rcases h with ⟨h, _⟩ | ⟨d', ps, h1, _, h2, h3⟩
  · rw [h] at hd
    cases hd
  · rw [h1] at hd
    cases hd
    exact since_rough h2 h3 h0 hne hcut

theorem HoldingIn.rough {fs : FileSystem} {n c part : List Char} {ws : List (List Char × List Char)}
    {ps w : List (OSet Block × StoreMap)} (h : HoldingIn (since fs) s d ((n, c) :: ws) ps w)
    (hs : Sound result s (ps ++ w)) (h0 : ∀ d₀, fs s.cfg.resultPath = some d₀ → Rough result s d₀)
    (hne : ∀ b ∈ s.blocks, b ≠ []) (hcut : ∀ b ∈ s.blocks, ∀ b' ∈ s.blocks, CutBlock b b' → b' = b)
    (hp : part <+: c) : Rough result s (d.write n part) := by
  have h1 : Sound result s ps := ⟨fun p hp => hs.tally p (List.mem_append_left _ hp), by
    refine List.Subperm.trans ?_ hs.once
    rw [recorded_append]
    exact (List.sublist_append_left _ _).subperm⟩
  generalize hws : (n, c) :: ws = l at h
  cases h with
  | idle d ps h => cases hws
  | two d ps id p h ha hpo =>
    cases hws
    exact since_rough ((since fs).part h ha part) h1 h0 hne hcut
  | one d ps id p h ha hpo =>
    cases hws
    have h2 := since_rough h h1 h0 hne hcut
    have h3 := h2.pair ha hpo (hs.tally p (by simp)) (fun b hb => hs.once.subset (by
      rw [recorded_append]
      refine List.mem_append_right _ ?_
      unfold recorded
      rw [List.flatMap_singleton]
      exact hb)) hne hcut hp
    rw [Dir.write_new fun e he => (ha e he).2, Dir.write_new, List.append_assoc]
    · exact h3
    · intro e he
      rcases List.mem_append.1 he with he | he
      · exact (ha e he).1
      · rw [List.mem_singleton.1 he]
        exact (recordName_ne_storeName id id).symm

/-- What the merger finds if every block is in a record. -/
theorem Rough.merge (h : Rough result s d) {r : OSet Block} (hr : FileStore.initialRecord d = .ok r)
    (ha : ∀ b ∈ s.blocks, b ∈ r) : ∃ (l : List Block) (r : OSet Block) (m : StoreMap), Merger.merge d = .ok ⟨0, some (Store.print m, Record.print r)⟩ ∧
      (∀ b, b ∈ l ↔ b ∈ s.blocks) ∧ Tally m (l.flatMap (result s.cfg)) ∧ ∀ b ∈ s.blocks, b ∈ r := by
  obtain ⟨xs, h1, h2⟩ := h.files
  obtain ⟨m, h3, h4⟩ := merge_reads h1
  have h5 : FileStore.initialRecord d = .ok ((((xs.map Prod.snd).map Prod.fst).flatten).foldl OSet.insert []) := by
    refine FileStore.readRecords_reads d ((xs.map Prod.snd).map Prod.fst) [] ?_
    rw [List.forall₂_map_right_iff]
    exact h1.imp fun e x hx => hx.record
  rw [hr] at h5
  obtain rfl := Res.ok.inj h5
  have h6 : ∀ b ∈ s.blocks, ∃ x ∈ xs, b ∈ x.2.1 := by
    intro b hb
    have h7 := ha b hb
    rw [Record.mem_foldl_insert] at h7
    rcases h7 with h7 | h7
    · cases h7
    · obtain ⟨l, h8, h9⟩ := List.mem_flatten.1 h7
      rw [List.map_map] at h8
      obtain ⟨x, hx, rfl⟩ := List.mem_map.1 h8
      exact ⟨x, hx, h9⟩
  refine ⟨xs.flatMap Prod.fst, _, m, h3, fun b => ⟨fun hb => ?_, fun hb => ?_⟩, ?_, fun b hb => ?_⟩
  · obtain ⟨x, hx, hb⟩ := List.mem_flatMap.1 hb
    exact (h2 x hx).sub b hb
  · obtain ⟨x, hx, hb'⟩ := h6 b hb
    exact List.mem_flatMap.2 ⟨x, hx, (h2 x hx).read b hb hb'⟩
  · have key : ∀ xs : List (List Block × List Block × List (Key × Int)), (∀ x ∈ xs, Covers result s x) →
        ∀ k, (k ∈ ((xs.map Prod.snd).flatMap Prod.snd).map Prod.fst ↔
          k ∈ ((xs.flatMap Prod.fst).flatMap (result s.cfg)).map Prod.fst) ∧
        Hycu.total ((xs.map Prod.snd).flatMap Prod.snd) k = Hycu.total ((xs.flatMap Prod.fst).flatMap (result s.cfg)) k := by
      intro xs hx k
      induction xs with
      | nil => simp
      | cons x xs ih =>
        obtain ⟨i1, i2⟩ := ih fun y hy => hx y (List.mem_cons_of_mem _ hy)
        have h7 := hx x List.mem_cons_self
        simp only [List.map_cons, List.flatMap_cons, List.flatMap_append, List.map_append, List.mem_append, total_append]
        exact ⟨or_congr (h7.keys k) i1, by rw [h7.total k, i2]⟩
    exact Tally.congr h4 (fun k => (key xs h2 k).1) fun k => (key xs h2 k).2
  · obtain ⟨x, hx, hb'⟩ := h6 b hb
    rw [Record.mem_foldl_insert]
    exact Or.inr (List.mem_flatMap.2 ⟨x.2, List.mem_map.2 ⟨x, hx, rfl⟩, hb'⟩)

theorem DataInvIn.rough {kinds : List Bool} {fs fs' : FileSystem} {st : State} (h : DataInvIn ((since fs).course result ss) result ss st)
    (hi : Input env ss result) (hg : Good env kinds ss st) (hu : Distinguishable ss)
    (h0 : ∀ s ∈ ss, ∀ d, fs s.cfg.resultPath = some d → Rough result s d) (hd : DiesAt st fs') :
    ∀ s ∈ ss, ∀ d, fs' s.cfg.resultPath = some d → Rough result s d := by
  cases hd with
  | between =>
    intro s hs
    exact (h.dies hi hg .between s hs).rough (h0 s hs) (hi.nonempty s hs) (hu s hs)
  | inside n c part ws k f d hpc hf hd hp =>
    obtain ⟨pre, s, post, done, rs, tb, ha, a1, d₀, ps, w, ps₀, sv, hc, hcfg, hv, hini⟩ :=
      h.current hg hf (by rw [hpc]; simp)
    have hdir := hc.dir
    rw [← hcfg, hd] at hdir
    cases hdir
    intro s' hss
    by_cases hp' : s'.cfg.resultPath = s.cfg.resultPath
    · obtain rfl : s' = s := List.inj_on_of_nodup_map hi.paths hss (by rw [ha.sections]; simp) hp'
      have h1 := hc.kept hg (hi.blocks s' hss) ha.blocks
      have hh := hc.holding
      rw [hpc] at hh
      have hfs : st.fs.set f.config.resultPath (d.write n part) s'.cfg.resultPath = some (d.write n part) := by
        simp [FileSystem.set, hcfg]
      intro d' hd'
      rw [hfs] at hd'
      cases hd'
      exact HoldingIn.rough hh h1 (h0 s' hss) (hi.nonempty s' hss) (hu s' hss) hp
    · have hset : st.fs.set f.config.resultPath (d.write n part) s'.cfg.resultPath = st.fs s'.cfg.resultPath := by
        simp only [FileSystem.set, hcfg, if_neg hp']
      rw [hset]
      have h1 : KeptIn (since fs) result st.fs s' := ((a1 _ hp') s' hss rfl).2.congr rfl
      exact h1.rough (h0 s' hss) (hi.nonempty s' hss) (hu s' hss)

theorem Untouched.rough {fs : FileSystem} (h : Untouched ss fs) {s : Sect} (hs : s ∈ ss) {d : Dir}
    (hd : fs s.cfg.resultPath = some d) : Rough result s d := by
  obtain ⟨h1, h2⟩ := h.holds hs hd
  refine ⟨h2.names, h1, [], ?_, by simp⟩
  have h3 := h2.files
  generalize d.filter FileStore.isRecordFile = l at h3 ⊢
  cases h3
  exact .nil

theorem Rough.open {fs : FileSystem} (h : ∀ s ∈ ss, ∀ d, fs s.cfg.resultPath = some d → Rough result s d) :
    Open ss fs := fun s hs d hd => ⟨(h s hs d hd).names, (h s hs d hd).plain, (h s hs d hd).initial⟩

/-- What the merger finds after a complete run. -/
theorem CompleteIn.merge {fs fs' : FileSystem} (h : CompleteIn (since fs) result fs' s)
    (h0 : ∀ d, fs s.cfg.resultPath = some d → Rough result s d) (hne : ∀ b ∈ s.blocks, b ≠ [])
    (hcut : ∀ b ∈ s.blocks, ∀ b' ∈ s.blocks, CutBlock b b' → b' = b) : ∃ d, fs' s.cfg.resultPath = some d ∧
      ∃ (l : List Block) (r : OSet Block) (m : StoreMap),
        Merger.merge d = .ok ⟨0, some (Store.print m, Record.print r)⟩ ∧ (∀ b, b ∈ l ↔ b ∈ s.blocks) ∧
        Tally m (l.flatMap (result s.cfg)) ∧ ∀ b ∈ s.blocks, b ∈ r := by
  have hr := h.kept.rough h0 hne hcut
  obtain ⟨d, ps, h1, _, h2, h3, h4⟩ := h
  obtain ⟨r, h5, h6⟩ := (since fs).initial h2
  refine ⟨d, h1, (hr d h1).merge h5 fun b hb => ?_⟩
  have h7 := (h6 b hb (hne b hb)).2 (h4.mem_iff.2 hb)
  exact (OSet.contains_iff (FileStore.initialRecord_sorted h5)).1 h7

end

end Run

namespace Mpi

open Run (Env Input Sect since Rough Distinguishable KeptIn CompleteIn HoldingIn path_ne program)

variable {env : Env} {ss : List Sect} {result : ConfigNode → Block → StoreMap}

theorem DataInvIn.rough {fs fs' : FileSystem} {st : State} (h : DataInvIn ((since fs).course result ss) result ss st)
    (hi : Input env ss result) (hu : Distinguishable ss)
    (h0 : ∀ s ∈ ss, ∀ d, fs s.cfg.resultPath = some d → Rough result s d) (hd : DiesAt st fs') :
    ∀ s ∈ ss, ∀ d, fs' s.cfg.resultPath = some d → Rough result s d := by
  cases hd with
  | between =>
    intro s hs
    exact (h.dies hi .between s hs).rough (h0 s hs) (hi.nonempty s hs) (hu s hs)
  | inside n c part ws ix k f d hpc hf hd hp =>
    obtain ⟨pre, s, post, done, rs, ha, a1, d₀, ps, w, ps₀, sv, sr, hc, hcfg, hv, hini⟩ :=
      h.current hf (by rw [hpc]; rfl)
    have hdir := hc.dir
    rw [← hcfg, hd] at hdir
    cases hdir
    intro s' hss
    by_cases hp' : s'.cfg.resultPath = s.cfg.resultPath
    · obtain rfl : s' = s := List.inj_on_of_nodup_map hi.paths hss ha.mem hp'
      have h1 := hc.kept (hi.blocks s' hss) ha.blocks
      have hh := hc.holding
      rw [hpc] at hh
      have hfs : st.fs.set f.config.resultPath (d.write n part) s'.cfg.resultPath = some (d.write n part) := by
        simp [FileSystem.set, hcfg]
      intro d' hd'
      rw [hfs] at hd'
      cases hd'
      exact HoldingIn.rough hh h1 (h0 s' hss) (hi.nonempty s' hss) (hu s' hss) hp
    · have hset : st.fs.set f.config.resultPath (d.write n part) s'.cfg.resultPath = st.fs s'.cfg.resultPath := by
        simp only [FileSystem.set, hcfg, if_neg hp']
      rw [hset]
      have h1 : KeptIn (since fs) result st.fs s' := ((a1 _ hp') s' hss rfl).2.congr rfl
      exact h1.rough (h0 s' hss) (hi.nonempty s' hss) (hu s' hss)

theorem AnyPast.rough {fs : FileSystem} (hi : Input env ss result) (hu : Distinguishable ss) (h : AnyPast env ss fs) :
    ∀ s ∈ ss, ∀ d, fs s.cfg.resultPath = some d → Rough result s d := by
  induction h with
  | start fs h => exact fun s hs d hd => h.rough hs hd
  | run fs fs' kinds st _ hk hr hd ih =>
    exact (Run.DataInvIn.reachable hi hk ((Rough.open ih).kept hi) hr).rough hi
      ((Run.Good.init env hk fs hi.blocks).reachable hr) hu ih hd
  | mpi fs fs' kinds st _ h0 hk hr hd ih =>
    exact (DataInvIn.reachable hi h0 hk ((Rough.open ih).kept hi) hr).rough hi hu ih hd

end Mpi
end Hycu
