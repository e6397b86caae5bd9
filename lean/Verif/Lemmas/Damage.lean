import Verif.Lemmas.FaultsDir
import Verif.Lemmas.MpiSafe
import Verif.Lemmas.RunSafe
import Verif.Spec.Damage

/-!
Directories with any content to which files are added.
-/

namespace Hycu

/-! ### What is read is sorted -/

theorem Record.extractLoop_sorted : ∀ (fuel : Nat) (s : IStream) (r r' : OSet Block), OSet.Sorted r →
    extractLoop fuel s r = .ok r' → OSet.Sorted r'
  | 0, _, _, _, _, h => by cases h
  | fuel + 1, s, r, r', hs, h => by
    unfold extractLoop at h
    split at h
    · cases h
      exact hs
    · obtain ⟨p, _, h2⟩ := Res.bind_eq_ok.1 h
      exact extractLoop_sorted fuel _ _ _ (OSet.sorted_insert hs _) h2

theorem FileStore.readRecords_sorted {d : Dir} : ∀ (es : List (List Char × FileEntry)) (r r' : OSet Block),
    OSet.Sorted r → es.foldlM (FileStore.readRecord d) r = .ok r' → OSet.Sorted r'
  | [], _, _, hs, h => by
    cases h
    exact hs
  | e :: es, r, r', hs, h => by
    rw [List.foldlM_cons] at h
    obtain ⟨r1, h1, h2⟩ := Res.bind_eq_ok.1 h
    refine readRecords_sorted es _ _ ?_ h2
    unfold FileStore.readRecord at h1
    split at h1
    · exact Record.extractLoop_sorted _ _ _ _ hs h1
    · cases h1
      exact hs

theorem FileStore.initialRecord_sorted {d : Dir} {r : OSet Block} (h : FileStore.initialRecord d = .ok r) :
    OSet.Sorted r := readRecords_sorted _ _ _ List.Pairwise.nil h

theorem Store.addEntry_sorted {m m' : StoreMap} {k : Key} {z : Int} (hs : OMap.Sorted m)
    (h : addEntry m k z = .ok m') : OMap.Sorted m' := by
  unfold addEntry at h
  split at h
  · cases h
    exact OMap.sorted_set hs _ _
  · obtain ⟨z', _, h2⟩ := Res.bind_eq_ok.1 h
    cases h2
    exact OMap.sorted_set hs _ _

theorem Store.extractLoop_sorted : ∀ (fuel : Nat) (s : IStream) (old : List Char) (m m' : StoreMap), OMap.Sorted m →
    extractLoop fuel s old m = .ok m' → OMap.Sorted m'
  | 0, _, _, _, _, _, h => by cases h
  | fuel + 1, s, old, m, m', hs, h => by
    unfold extractLoop at h
    dsimp only at h
    split at h
    · cases h
      exact hs
    · obtain ⟨m1, h1, h2⟩ := Res.bind_eq_ok.1 h
      refine extractLoop_sorted fuel _ _ _ _ ?_ h2
      unfold extractLine at h1
      obtain ⟨k, _, h3⟩ := Res.bind_eq_ok.1 h1
      exact addEntry_sorted hs h3

theorem Merger.mergeLoop_sorted {d : Dir} : ∀ (es : List (List Char × FileEntry)) (r r' : OSet Block) (m m' : StoreMap),
    OSet.Sorted r → OMap.Sorted m → mergeLoop d es r m = .ok (some (r', m')) → OSet.Sorted r' ∧ OMap.Sorted m'
  | [], _, _, _, _, hr, hm, h => by
    cases h
    exact ⟨hr, hm⟩
  | e :: es, r, r', m, m', hr, hm, h => by
    unfold mergeLoop at h
    by_cases he : FileStore.isRecordFile e = true
    · rw [if_pos he] at h
      dsimp only at h
      split at h
      · obtain ⟨r1, h1, h2⟩ := Res.bind_eq_ok.1 h
        obtain ⟨m1, h3, h4⟩ := Res.bind_eq_ok.1 h2
        exact mergeLoop_sorted es _ _ _ _ (Record.extractLoop_sorted _ _ _ _ hr h1)
          (Store.extractLoop_sorted _ _ _ _ _ hm h3) h4
      · cases h
    · rw [if_neg he] at h
      exact mergeLoop_sorted es _ _ _ _ hr hm h

/-! ### Files of an unused id are added -/

/-- The loop goes on with further entries. -/
def Merger.resume (d : Dir) (es : List (List Char × FileEntry)) : Option (OSet Block × StoreMap) →
    Res (Option (OSet Block × StoreMap))
  | none => .ok none
  | some x => mergeLoop d es x.1 x.2

theorem Merger.mergeLoop_append {d : Dir} (es' : List (List Char × FileEntry)) :
    ∀ (es : List (List Char × FileEntry)) (r : OSet Block) (m : StoreMap), mergeLoop d (es ++ es') r m =
      (mergeLoop d es r m).bind (resume d es')
  | [], _, _ => rfl
  | e :: es, r, m => by
    rw [List.cons_append]
    conv_lhs => unfold mergeLoop
    conv_rhs => unfold mergeLoop
    by_cases he : FileStore.isRecordFile e = true
    · rw [if_pos he, if_pos he]
      dsimp only
      split
      · cases h1 : Record.extract r (Dir.openIn d e.1) with
        | ok r1 =>
          rw [Res.bind_ok, Res.bind_ok]
          cases h2 : Store.extract m (Dir.openIn d (Dir.replaceExtension e.1 FileStore.storeExtension)) with
          | ok m1 =>
            rw [Res.bind_ok, Res.bind_ok]
            exact mergeLoop_append es' es r1 m1
          | _ => rfl
        | _ => rfl
      · rfl
    · rw [if_neg he, if_neg he]
      exact mergeLoop_append es' es r m

section

variable {d d₂ : Dir} {id : Nat}

theorem mergeLoop_add (hid : d.Absent id)
    (h2 : ∀ e ∈ d₂, e.1 = FileStore.storeName id ∨ e.1 = FileStore.recordName id) :
    Merger.mergeLoop (d ++ d₂) (d ++ d₂) [] [] = (Merger.mergeLoop d d [] []).bind (Merger.resume (d ++ d₂) d₂) := by
  rw [Merger.mergeLoop_append, Merger.mergeLoop_congr (d' := d)]
  intro e he hr
  exact ⟨hid.lookup_add h2 _ ⟨e, he, hr, Or.inl rfl⟩, hid.lookup_add h2 _ ⟨e, he, hr, Or.inr rfl⟩⟩

theorem initialRecord_add (hid : d.Absent id)
    (h2 : ∀ e ∈ d₂, e.1 = FileStore.storeName id ∨ e.1 = FileStore.recordName id) :
    FileStore.initialRecord (d ++ d₂) =
      (FileStore.initialRecord d).bind fun r => d₂.foldlM (FileStore.readRecord (d ++ d₂)) r := by
  have key : ∀ (es : List (List Char × FileEntry)) (r : OSet Block), (∀ e ∈ es, e ∈ d) →
      es.foldlM (FileStore.readRecord (d ++ d₂)) r = es.foldlM (FileStore.readRecord d) r := by
    intro es
    induction es with
    | nil => intro r _; rfl
    | cons e es ih =>
      intro r hes
      rw [List.foldlM_cons, List.foldlM_cons]
      have : FileStore.readRecord (d ++ d₂) r e = FileStore.readRecord d r e := by
        unfold FileStore.readRecord
        split
        · rename_i hr
          unfold Dir.openIn
          rw [hid.lookup_add h2 _ ⟨e, hes e (by simp), hr, Or.inl rfl⟩]
        · rfl
      rw [this]
      congr 1
      funext r'
      exact ih r' fun x hx => hes x (by simp [hx])
  unfold FileStore.initialRecord
  rw [List.foldlM_append, key d [] fun e he => he]
  rfl

/-- The two files of a save, of which the record may be cut off. -/
theorem lookup_two (hid : d.Absent id) (s r : FileEntry) :
    Dir.lookup (d ++ [(FileStore.storeName id, s), (FileStore.recordName id, r)]) (FileStore.storeName id) = some s ∧
    Dir.lookup (d ++ [(FileStore.storeName id, s), (FileStore.recordName id, r)]) (FileStore.recordName id) = some r := by
  constructor
  · rw [Dir.lookup_append, hid.lookup.2]
    exact if_pos rfl
  · rw [Dir.lookup_append, hid.lookup.1]
    exact (if_neg (recordName_ne_storeName id id).symm).trans (if_pos rfl)

theorem names_two (hn : d.NamesDiffer) (hid : d.Absent id) (s r : FileEntry) :
    Dir.NamesDiffer (d ++ [(FileStore.storeName id, s), (FileStore.recordName id, r)]) := by
  unfold Dir.NamesDiffer
  rw [List.map_append, List.nodup_append]
  refine ⟨hn, by simp [(recordName_ne_storeName id id).symm], ?_⟩
  intro a ha b hb
  obtain ⟨e, he, rfl⟩ := List.mem_map.1 ha
  rcases (by simpa using hb : b = FileStore.storeName id ∨ b = FileStore.recordName id) with rfl | rfl
  · exact (hid e he).2
  · exact (hid e he).1

theorem names_one (hn : d.NamesDiffer) (hid : d.Absent id) (s : FileEntry) :
    Dir.NamesDiffer (d ++ [(FileStore.storeName id, s)]) := by
  unfold Dir.NamesDiffer
  rw [List.map_append, List.nodup_append]
  refine ⟨hn, by simp, ?_⟩
  intro a ha b hb
  obtain ⟨e, he, rfl⟩ := List.mem_map.1 ha
  rw [List.map_singleton, List.mem_singleton] at hb
  rw [hb]
  exact (hid e he).2

/-- A save is read after what was there before. -/
theorem initialRecord_two (hid : d.Absent id) (s : FileEntry) {r : List Char} {bs : List Block}
    (hr : ∀ x, Record.extract x (IStream.ofList r) = .ok (bs.foldl OSet.insert x)) :
    FileStore.initialRecord (d ++ [(FileStore.storeName id, s), (FileStore.recordName id, .file r)]) =
      (FileStore.initialRecord d).bind fun x => .ok (bs.foldl OSet.insert x) := by
  rw [initialRecord_add hid (by simp)]
  congr 1
  funext x
  have h1 : ∀ d', FileStore.readRecord d' x (FileStore.storeName id, s) = .ok x :=
    fun d' => if_neg (by simp [isRecordFile_store])
  rw [List.foldlM_cons, h1, Res.bind_ok, List.foldlM_cons]
  unfold FileStore.readRecord
  rw [if_pos (isRecordFile_record id r)]
  unfold Dir.openIn
  rw [(lookup_two hid s (.file r)).2]
  dsimp only
  rw [hr]
  rfl

theorem mergeLoop_two (hid : d.Absent id) {s r : List Char} {bs : List Block}
    (hr : ∀ x, Record.extract x (IStream.ofList r) = .ok (bs.foldl OSet.insert x)) :
    Merger.mergeLoop (d ++ [(FileStore.storeName id, .file s), (FileStore.recordName id, .file r)])
      (d ++ [(FileStore.storeName id, .file s), (FileStore.recordName id, .file r)]) [] [] =
      (Merger.mergeLoop d d [] []).bind fun o => match o with
        | none => .ok none
        | some x => (Store.extract x.2 (IStream.ofList s)).bind fun m => .ok (some (bs.foldl OSet.insert x.1, m)) := by
  rw [mergeLoop_add hid (by simp)]
  congr 1
  funext o
  cases o with
  | none => rfl
  | some x =>
    dsimp only [Merger.resume]
    obtain ⟨h1, h2⟩ := lookup_two hid (.file s) (.file r)
    conv_lhs => unfold Merger.mergeLoop
    rw [if_neg (by simp [isRecordFile_store])]
    conv_lhs => unfold Merger.mergeLoop
    rw [if_pos (isRecordFile_record id r)]
    dsimp only
    rw [replace_recordName, if_pos (by unfold Dir.isRegularFile; rw [h1]; rfl)]
    unfold Dir.openIn
    rw [h1, h2]
    dsimp only
    rw [hr]
    rfl

end

/-! ### Directories that grow -/

section

variable {d₀ d : Dir} {ps : List (OSet Block × StoreMap)}

theorem Dir.Grows.names (h : d₀.Grows d ps) (hn : d₀.NamesDiffer) : d.NamesDiffer := by
  induction h with
  | start => exact hn
  | store d ps id c _ hid ih => exact names_one ih hid _
  | pair d ps id p _ hid _ ih => exact names_two ih hid _ _

theorem Dir.Grows.pairs (h : d₀.Grows d ps) : ∀ p ∈ ps, PairOk p := by
  induction h with
  | start => simp
  | store d ps id c _ hid ih => exact ih
  | pair d ps id p _ hid hp ih =>
    intro q hq
    rcases List.mem_append.1 hq with hq | hq
    · exact ih q hq
    · rw [List.mem_singleton.1 hq]
      exact hp

theorem Dir.Grows.initial (h : d₀.Grows d ps) {r₀ : OSet Block} (h0 : FileStore.initialRecord d₀ = .ok r₀) :
    FileStore.initialRecord d = .ok ((ps.flatMap fun p => (pairReads p).1).foldl OSet.insert r₀) := by
  induction h with
  | start => exact h0
  | store d ps id c _ hid ih => rw [(store_append hid _).2, ih]
  | pair d ps id p _ hid hp ih =>
    rw [initialRecord_two hid _ fun x => Record.extract_pair x hp, ih, List.flatMap_append, List.foldl_append]
    simp [Res.bind]

theorem Dir.Grows.loop (h : d₀.Grows d ps) {r₀ : OSet Block} {m₀ : StoreMap}
    (h0 : Merger.mergeLoop d₀ d₀ [] [] = .ok (some (r₀, m₀))) :
    ∃ m, Merger.mergeLoop d d [] [] = .ok (some ((ps.flatMap fun p => (pairReads p).1).foldl OSet.insert r₀, m)) ∧
      Tally m (m₀ ++ ps.flatMap Prod.snd) := by
  induction h with
  | start =>
    refine ⟨m₀, h0, ?_⟩
    rw [List.flatMap_nil, List.append_nil]
    exact Tally.self (Merger.mergeLoop_sorted _ _ _ _ _ List.Pairwise.nil OMap.sorted_nil h0).2
  | store d ps id c _ hid ih =>
    obtain ⟨m, h1, h2⟩ := ih
    refine ⟨m, ?_, h2⟩
    rw [mergeLoop_add hid (by simp), h1]
    show Merger.mergeLoop _ [(FileStore.storeName id, _)] _ _ = _
    unfold Merger.mergeLoop
    rw [if_neg (by simp [isRecordFile_store])]
    rfl
  | pair d ps id p _ hid hp ih =>
    obtain ⟨m, h1, h2⟩ := ih
    obtain ⟨m', h3, h4⟩ := Store.addEntries_tally p.2 h2 hp.counts_small
    refine ⟨m', ?_, ?_⟩
    · rw [mergeLoop_two hid fun x => Record.extract_pair x hp, h1]
      show (Store.extract m _).bind _ = _
      rw [Store.extract_print m hp.keys_fit, h3, List.flatMap_append, List.foldl_append]
      simp [Res.bind]
    · rw [List.flatMap_append, ← List.append_assoc]
      simpa using h4

theorem Dir.Grows.stuck (h : d₀.Grows d ps) (h0 : ∀ x, Merger.mergeLoop d₀ d₀ [] [] ≠ .ok (some x)) :
    Merger.mergeLoop d d [] [] = Merger.mergeLoop d₀ d₀ [] [] := by
  have key : ∀ f : Option (OSet Block × StoreMap) → Res (Option (OSet Block × StoreMap)), f none = .ok none →
      (Merger.mergeLoop d₀ d₀ [] []).bind f = Merger.mergeLoop d₀ d₀ [] [] := by
    intro f hf
    cases h1 : Merger.mergeLoop d₀ d₀ [] [] with
    | ok o =>
      cases o with
      | none => exact hf
      | some x => exact absurd h1 (h0 x)
    | _ => rfl
  induction h with
  | start => rfl
  | store d ps id c _ hid ih =>
    rw [mergeLoop_add hid (by simp), ih]
    exact key _ rfl
  | pair d ps id p _ hid hp ih =>
    rw [mergeLoop_two hid fun x => Record.extract_pair x hp, ih]
    exact key _ rfl

end

namespace Run

/-- The directories are given ones, to which pairs have been added. -/
def grown (B : Sect → Dir → List (OSet Block × StoreMap) → Prop) : Layout where
  holds s d ps := ∃ d₀ r₀ vs sv, B s d₀ vs ∧ d₀.NamesDiffer ∧ FileStore.initialRecord d₀ = .ok r₀ ∧ (∀ b ∈ s.blocks, b ∈ recorded vs ↔ b ∈ r₀) ∧
    ps = vs ++ sv ∧ d₀.Grows d sv
  names := by
    rintro s d ps ⟨d₀, r₀, vs, sv, _, h1, _, _, _, h2⟩
    exact h2.names h1
  initial := by
    rintro s d ps ⟨d₀, r₀, vs, sv, _, h1, h2, h3, rfl, h4⟩
    refine ⟨_, h4.initial h2, fun b hb hne => ?_⟩
    unfold FileStore.contains
    rw [OSet.contains_iff (Record.sorted_foldl_insert _ (FileStore.initialRecord_sorted h2)), Record.mem_foldl_insert,
      recorded_append, List.mem_append, h3 b hb]
    refine or_congr Iff.rfl ?_
    unfold recorded
    rw [List.mem_flatMap, List.mem_flatMap]
    exact exists_congr fun p => and_congr Iff.rfl (mem_pairReads hne)
  part := by
    rintro s d ps id ⟨d₀, r₀, vs, sv, h0, h1, h2, h3, rfl, h4⟩ ha c
    rw [Dir.write_new fun e he => (ha e he).2]
    exact ⟨d₀, r₀, vs, sv, h0, h1, h2, h3, rfl, .store _ _ _ _ h4 ha⟩
  save := by
    rintro s d ps id p ⟨d₀, r₀, vs, sv, h0, h1, h2, h3, rfl, h4⟩ ha hp
    refine ⟨d₀, r₀, vs, sv ++ [p], h0, h1, h2, h3, List.append_assoc _ _ _, ?_⟩
    have h5 : FileStore.save d id (Record.print p.1, Store.print p.2) =
        d ++ [(FileStore.storeName id, .file (Store.print p.2)), (FileStore.recordName id, .file (Record.print p.1))] := by
      unfold FileStore.save FileStore.saveWrites
      rw [List.foldl_cons, List.foldl_cons, List.foldl_nil, Dir.write_new fun e he => (ha e he).2, Dir.write_new,
        List.append_assoc]
      · rfl
      · intro e he
        rcases List.mem_append.1 he with he | he
        · exact (ha e he).1
        · rw [List.mem_singleton.1 he]
          exact (recordName_ne_storeName id id).symm
    rw [h5]
    exact .pair _ _ _ _ h4 ha hp

/-- The directories are those of `fs₀`, to which pairs have been added. -/
def since (fs₀ : FileSystem) : Layout :=
  grown fun s d₀ vs => fs₀ s.cfg.resultPath = some d₀ ∨ fs₀ s.cfg.resultPath = none ∧ d₀ = [] ∧ vs = []

section

variable {env : Env} {ss : List Sect} {result : ConfigNode → Block → StoreMap} {fs : FileSystem}

theorem exists_match (hi : Tasks env ss result) {s : Sect} (hs : s ∈ ss) (l : List Block) (hl : ∀ b ∈ l, b ∈ s.blocks) :
    ∃ v : OSet Block × StoreMap, Match (result s.cfg) v.1 v.2 ∧ ∀ b, b ∈ v.1 ↔ b ∈ l := by
  have h1 : ∀ b, b ∈ l.foldl OSet.insert [] ↔ b ∈ l := by
    intro b
    rw [Record.mem_foldl_insert]
    simp
  obtain ⟨m, _, h3⟩ := Store.addEntries_tally ((l.foldl OSet.insert []).flatMap (result s.cfg)) Tally.nil (by
    intro e he
    obtain ⟨b, hb, he⟩ := List.mem_flatMap.1 he
    exact hi.entry_small hs (hl b ((h1 b).1 hb)) e he)
  exact ⟨(l.foldl OSet.insert [], m), ⟨Record.sorted_foldl_insert _ List.Pairwise.nil, h3⟩, h1⟩

/-- Blocks that are recorded already, whatever for. -/
theorem exists_recorded (hi : Tasks env ss result) {s : Sect} (hs : s ∈ ss) (r : OSet Block) :
    ∃ vs, Sound result s vs ∧ ∀ b ∈ s.blocks, b ∈ recorded vs ↔ b ∈ r := by
  obtain ⟨v, h4, h5⟩ := exists_match hi hs (s.blocks.filter fun b => b ∈ r) fun b hb => (List.mem_filter.1 hb).1
  have h6 : ∀ b, b ∈ recorded [v] ↔ b ∈ s.blocks ∧ b ∈ r := by
    intro b
    unfold recorded
    rw [List.flatMap_singleton, h5, List.mem_filter]
    simp
  refine ⟨[v], ⟨?_, ?_⟩, fun b hb => ?_⟩
  · intro p hp
    rw [List.mem_singleton.1 hp]
    exact h4
  · refine List.subperm_of_subset ?_ fun b hb => ((h6 b).1 hb).1
    unfold recorded
    rw [List.flatMap_singleton]
    refine List.Pairwise.imp (fun {a b} hab hc => ?_) h4.record_sorted
    rw [hc, LawfulLess.irrefl] at hab
    cases hab
  · rw [h6]
    exact and_iff_right hb

theorem Open.kept (hi : Input env ss result) (h : Open ss fs) : ∀ s ∈ ss, KeptIn (since fs) result fs s := by
  intro s hs
  cases hd : fs s.cfg.resultPath with
  | none => exact Or.inl ⟨hd, [], [], [], [], Or.inr ⟨hd, rfl, rfl⟩, List.nodup_nil, rfl, by simp [recorded], rfl, .start⟩
  | some d =>
    obtain ⟨h1, h2, r, h3⟩ := h s hs d hd
    obtain ⟨vs, h4, h5⟩ := exists_recorded hi.toTasks hs r
    exact Or.inr ⟨d, vs, hd, h2, ⟨d, r, vs, [], Or.inl hd, h1, h3, h5, (List.append_nil _).symm, .start⟩, h4⟩

/-- What has been added at the end. -/
theorem CompleteIn.grows {s : Sect} {fs' : FileSystem} (h : CompleteIn (since fs) result fs' s) (hn : s.blocks.Nodup)
    {d₀ : Dir} (hd : fs s.cfg.resultPath = some d₀ ∨ fs s.cfg.resultPath = none ∧ d₀ = []) :
    ∃ r₀ d sv, FileStore.initialRecord d₀ = .ok r₀ ∧ fs' s.cfg.resultPath = some d ∧ d₀.Grows d sv ∧
      (∀ p ∈ sv, Match (result s.cfg) p.1 p.2) ∧ (recorded sv).Perm (s.blocks.filter fun b => b ∉ r₀) := by
  obtain ⟨d, ps, h1, _, ⟨d₀', r₀, vs, sv, h2, _, h4, h5, rfl, h6⟩, h7, h8⟩ := h
  have h9 : d₀' = d₀ := by
    rcases h2 with h2 | ⟨h2, rfl, _⟩ <;> rcases hd with hd | ⟨hd, rfl⟩
    · rw [hd] at h2
      exact (Option.some.inj h2).symm
    · rw [hd] at h2; cases h2
    · rw [hd] at h2; cases h2
    · rfl
  subst h9
  refine ⟨r₀, d, sv, h4, h1, h6, fun p hp => h7.tally p (List.mem_append_right _ hp), ?_⟩
  rw [recorded_append] at h8
  have h10 := h8.nodup_iff.2 hn
  rw [List.nodup_append] at h10
  refine (List.perm_ext_iff_of_nodup h10.2.1 (hn.filter _)).2 fun b => ?_
  rw [List.mem_filter]
  simp only [decide_eq_true_eq]
  constructor
  · intro hb
    have hbs := h8.mem_iff.1 (List.mem_append_right _ hb)
    exact ⟨hbs, fun hr => h10.2.2 b ((h5 b hbs).2 hr) b hb rfl⟩
  · rintro ⟨hb, hr⟩
    rcases List.mem_append.1 (h8.mem_iff.2 hb) with h | h
    · exact absurd ((h5 b hb).1 h) hr
    · exact h

end

end Run
end Hycu
