import Verif.Lemmas.FaultsDir

/-!
Property C72: result files that were cut off, could not be created or cannot be read.
-/

namespace Hycu

/-! ### Records -/

/-- C72: any text is read as a record: the loop ends, nothing undefined happens, and blocks that were there before are
kept. -/
theorem C72_record_any (r : OSet Block) (t : List Char) :
    ∃ r', Record.extract r (IStream.ofList t) = .ok r' ∧ ∀ b ∈ r, b ∈ r' := Record.extract_total r t

/-- C72: a record that was cut off anywhere is read as its blocks up to some point, and at most one more block, which
is what is left of the next one. -/
theorem C72_record_cut {p : OSet Block × StoreMap} (hp : PairOk p) {part : List Char}
    (h : part <+: Record.print p.1) :
    ∃ l₁ l₂ r, p.1 = l₁ ++ l₂ ∧ Record.extract [] (IStream.ofList part) = .ok r ∧
      (∀ b ∈ l₁, b ∈ r) ∧
      ∀ b ∈ r, b ∉ l₁ → b ≠ [] → ∃ b₀ l₃, l₂ = b₀ :: l₃ ∧ CutBlock b₀ b ∧ ∀ b' ∈ r, b' ∈ l₁ ∨ b' = b := by
  obtain ⟨l₁, l₂, h1, bs, h2, h3⟩ := Record.extract_cut hp.blocks_fit h
  refine ⟨l₁, l₂, _, h1, h2 [], fun b hb => ?_, fun b hb hn hne => ?_⟩
  · rw [Record.mem_foldl_insert]
    exact Or.inr (List.mem_append_left _ hb)
  · have hm : ∀ b, b ∈ (l₁ ++ bs).foldl OSet.insert [] ↔ b ∈ l₁ ∨ b ∈ bs := by
      intro b
      rw [Record.mem_foldl_insert, List.mem_append]
      simp
    rcases (hm b).1 hb with hb | hb
    · exact absurd hb hn
    rcases h3 with rfl | ⟨b', rfl, h3⟩
    · exact absurd hb (by simp)
    obtain rfl := List.mem_singleton.1 hb
    rcases h3 with rfl | ⟨b₀, l₃, h4, h5⟩
    · exact absurd rfl hne
    · refine ⟨b₀, l₃, h4, h5, fun b' hb' => ?_⟩
      simpa using (hm b').1 hb'

/-- C72: the program hangs when it starts exactly if there is a record file that cannot be opened; otherwise it gets a
record, whatever the files contain. -/
theorem C72_hang {d : Dir} (hd : d.NamesDiffer) :
    (FileStore.initialRecord d = .diverge ↔ ∃ s, (s ++ ".hycu_record".toList, FileEntry.unreadable) ∈ d) ∧
    ((¬ ∃ s, (s ++ ".hycu_record".toList, FileEntry.unreadable) ∈ d) →
      ∃ r, FileStore.initialRecord d = .ok r) := by
  have key : ∀ (es : List (List Char × FileEntry)) (r : OSet Block), (∀ e ∈ es, e ∈ d) →
      ((∃ s, (s ++ ".hycu_record".toList, FileEntry.unreadable) ∈ es) →
        es.foldlM (FileStore.readRecord d) r = .diverge) ∧
      ((¬ ∃ s, (s ++ ".hycu_record".toList, FileEntry.unreadable) ∈ es) →
        ∃ r', es.foldlM (FileStore.readRecord d) r = .ok r') := by
    intro es
    induction es with
    | nil =>
      intro r _
      exact ⟨fun ⟨s, hs⟩ => absurd hs (by simp), fun _ => ⟨r, rfl⟩⟩
    | cons e es ih =>
      intro r hes
      have hes' : ∀ x ∈ es, x ∈ d := fun x hx => hes x (by simp [hx])
      rw [List.foldlM_cons]
      unfold FileStore.readRecord
      by_cases he : FileStore.isRecordFile e = true
      · rw [if_pos he]
        have hrf := he
        unfold FileStore.isRecordFile at hrf
        simp only [Bool.and_eq_true, decide_eq_true_eq] at hrf
        have hname := Dir.eq_of_extension hrf.2
        have hlook := Dir.lookup_of_mem hd (hes e (by simp))
        obtain ⟨n, c⟩ := e
        unfold Dir.openIn
        dsimp only at hlook hname hrf ⊢
        rw [hlook]
        cases c with
        | other => exact absurd hrf.1 (by simp [Dir.regular])
        | unreadable =>
          dsimp only
          rw [Record.extract_unreadable]
          exact ⟨fun _ => rfl, fun hn => absurd ⟨Dir.stem n, by
            rw [show Dir.stem n ++ ".hycu_record".toList = n from hname.symm]; simp⟩ hn⟩
        | file c =>
          dsimp only
          obtain ⟨r1, h1, _⟩ := Record.extract_total r c
          rw [h1, Res.bind_ok]
          have hiff : (∃ s, (s ++ ".hycu_record".toList, FileEntry.unreadable) ∈ (n, FileEntry.file c) :: es) ↔
              ∃ s, (s ++ ".hycu_record".toList, FileEntry.unreadable) ∈ es := by simp
          rw [hiff]
          exact ih r1 hes'
      · rw [if_neg he, Res.bind_ok]
        have hiff : (∃ s, (s ++ ".hycu_record".toList, FileEntry.unreadable) ∈ e :: es) ↔
            ∃ s, (s ++ ".hycu_record".toList, FileEntry.unreadable) ∈ es := by
          constructor
          · rintro ⟨s, hs⟩
            rcases List.mem_cons.1 hs with rfl | hs
            · refine absurd ?_ he
              unfold FileStore.isRecordFile
              simp only [Bool.and_eq_true, decide_eq_true_eq]
              exact ⟨rfl, Dir.extension_record s⟩
            · exact ⟨s, hs⟩
          · rintro ⟨s, hs⟩
            exact ⟨s, List.mem_cons_of_mem _ hs⟩
        rw [hiff]
        exact ih r hes'
  obtain ⟨h1, h2⟩ := key d [] fun e he => he
  refine ⟨⟨fun h => ?_, h1⟩, h2⟩
  by_contra hn
  obtain ⟨r, hr⟩ := h2 hn
  rw [show FileStore.initialRecord d = d.foldlM (FileStore.readRecord d) [] from rfl, hr] at h
  exact absurd h (by simp)

/-! ### Stores -/

/-- C72: a store that was cut off anywhere is read without complaint, and no key gets more than it had; if all counts
are positive, the counts read are the ones written exactly if at most the last line break is missing. -/
theorem C72_store_cut {p : OSet Block × StoreMap} (hp : PairOk p) (hz : ∀ e ∈ p.2, 0 ≤ e.2) {part : List Char}
    (h : part <+: Store.print p.2) :
    ∃ m, Store.extract [] (IStream.ofList part) = .ok m ∧ OMap.Sorted m ∧
      (∀ k, 0 ≤ total m k ∧ total m k ≤ total p.2 k) ∧
      ((∀ e ∈ p.2, 0 < e.2) →
        ((∀ k, total m k = total p.2 k) ↔ part = Store.print p.2 ∨ part ++ ['\n'] = Store.print p.2)) := by
  obtain ⟨l, hl⟩ := Store.cut p.2 part hp.keys_fit hz h
  obtain ⟨m, h1, h2⟩ := Store.addEntries_tally l Tally.nil (hl.small hp.counts_small)
  have hr : Store.extract [] (IStream.ofList part) = .ok m := by
    rw [← h1]
    exact hl.reads _ _ _ (by simp [IStream.ofList])
  rw [List.nil_append] at h2
  refine ⟨m, hr, h2.sorted, fun k => ?_, fun hpos => ⟨fun h => ?_, fun hpart k => ?_⟩⟩
  · rw [h2.total_eq]
    exact ⟨Store.total_ge_zero hl.nonneg k, hl.le k⟩
  · by_contra hn
    push Not at hn
    obtain ⟨k, hk⟩ := hl.less hpos hn.1 hn.2
    have := h k
    rw [h2.total_eq] at this
    omega
  · rw [h2.total_eq]
    exact hl.whole hpart k

/-- C72: a line of a store with nothing but white space before the colon (an empty line, for instance) is read as a key
from an integer that was never assigned, whatever comes after it. -/
theorem C72_blank {l : StoreMap} (hk : ∀ e ∈ l, e.1.Fits) (hs : ∀ e ∈ l, Small e.2) {sp line : List Char}
    (hsp : ∀ c ∈ sp, isSpace c = true ∧ c ≠ '\n') (hl : line = [] ∨ ∃ t, line = ':' :: t ∧ '\n' ∉ t)
    (rest : List Char) :
    Store.extract [] (IStream.ofList (Store.print l ++ (sp ++ line) ++ '\n' :: rest)) = .ub := by
  have hnl : ∀ c ∈ sp ++ line, c ≠ '\n' := by
    intro c hc
    rcases List.mem_append.1 hc with hc | hc
    · exact (hsp c hc).2
    · rcases hl with rfl | ⟨t, rfl, ht⟩
      · exact absurd hc (by simp)
      · rcases List.mem_cons.1 hc with rfl | hc
        · decide
        · rintro rfl
          exact ht hc
  have hcol : ∀ c ∈ sp, c ≠ ':' := by
    rintro c hc rfl
    exact absurd (hsp _ hc).1 (by decide)
  have hline : ∀ m, Store.extractLine m (sp ++ line) = .ub := by
    intro m
    unfold Store.extractLine IStream.ofList
    rcases hl with rfl | ⟨t, rfl, _⟩
    · rw [List.append_nil, IStream.getline_end hcol]
      dsimp only
      rw [Key.parse_blank fun c hc => (hsp c hc).1]
      rfl
    · rw [IStream.getline_delim hcol]
      dsimp only
      rw [Key.parse_blank fun c hc => (hsp c hc).1]
      rfl
  obtain ⟨m, h1, _⟩ := Store.addEntries_tally l Tally.nil hs
  unfold Store.extract IStream.ofList
  rw [List.append_assoc]
  have hlen := Store.length_print l
  obtain ⟨old, h2⟩ := Store.extractLoop_append ((sp ++ line) ++ '\n' :: rest) l
    ((Store.print l ++ ((sp ++ line) ++ '\n' :: rest)).length + 1) [] [] (by
      rw [List.length_append]
      omega) hk
  rw [h2, h1, Res.bind_ok]
  obtain ⟨f, hf⟩ : ∃ f, (Store.print l ++ ((sp ++ line) ++ '\n' :: rest)).length + 1 - l.length = f + 1 :=
    ⟨(Store.print l ++ ((sp ++ line) ++ '\n' :: rest)).length - l.length, by rw [List.length_append]; omega⟩
  rw [hf]
  unfold Store.extractLoop
  rw [IStream.getline_delim hnl]
  dsimp only
  rw [if_neg (by simp), hline]
  rfl

/-! ### Saves whose writes fail -/

theorem merge_reads {d : Dir} {xs : List (List Block × List (Key × Int))}
    (h : List.Forall₂ d.Reads (d.filter FileStore.isRecordFile) xs) :
    ∃ m, Merger.merge d = .ok ⟨0, some (Store.print m, Record.print ((xs.flatMap Prod.fst).foldl OSet.insert []))⟩ ∧
      Tally m (xs.flatMap Prod.snd) := by
  obtain ⟨m, h1, h2⟩ := Merger.mergeLoop_reads [] d xs [] [] [] h Tally.nil
  rw [List.append_nil] at h1
  refine ⟨m, ?_, by simpa using h2⟩
  unfold Merger.merge
  rw [h1]
  rfl

theorem total_pairReads (ps : List (OSet Block × StoreMap)) (k : Key) :
    total ((ps.map pairReads).flatMap Prod.snd) k = (ps.map fun q => total q.2 k).sum := by
  rw [List.flatMap_def, total_flatten, List.map_map, List.map_map]
  rfl

/-- What is read from a directory after a save that left parts of both files. -/
theorem faulty_reads {d : Dir} {ps : List (OSet Block × StoreMap)} (h : d.Holds ps) {id : Nat} (hid : d.Absent id)
    {p : OSet Block × StoreMap} (hp : PairOk p) {s r : List Char} {bs : List Block} {l : List (Key × Int)}
    (hl : Store.Cut p.2 s l) (hr : ∀ r', Record.extract r' (IStream.ofList r) = .ok (bs.foldl OSet.insert r')) :
    List.Forall₂ (Dir.Reads (d ++ [(FileStore.storeName id, .file s), (FileStore.recordName id, .file r)]))
      (List.filter FileStore.isRecordFile
        (d ++ [(FileStore.storeName id, .file s), (FileStore.recordName id, .file r)]))
      (ps.map pairReads ++ [(bs, l)]) := by
  rw [List.filter_append, List.filter_cons_of_neg (by simp [isRecordFile_store]),
    List.filter_cons_of_pos (isRecordFile_record id r), List.filter_nil]
  refine List.rel_append (h.reads (hid.lookup_add (by simp))) (.cons ?_ .nil)
  have h1 : Dir.lookup (d ++ [(FileStore.storeName id, .file s), (FileStore.recordName id, .file r)])
      (FileStore.storeName id) = some (.file s) := by
    rw [Dir.lookup_append, hid.lookup.2]
    exact if_pos rfl
  have h2 : Dir.lookup (d ++ [(FileStore.storeName id, .file s), (FileStore.recordName id, .file r)])
      (FileStore.recordName id) = some (.file r) := by
    rw [Dir.lookup_append, hid.lookup.1]
    exact (if_neg (recordName_ne_storeName id id).symm).trans (if_pos rfl)
  refine ⟨?_, fun r' => ?_, fun m => ?_, hl.small hp.counts_small⟩
  · dsimp only
    rw [replace_recordName]
    unfold Dir.isRegularFile
    rw [h1]
    rfl
  · dsimp only
    unfold Dir.openIn
    rw [h2]
    exact hr r'
  · dsimp only
    rw [replace_recordName]
    unfold Dir.openIn
    rw [h1]
    exact hl.reads _ _ _ (by simp [IStream.ofList])

/-- C72: a save of which each file may be missing or cut off.  If the record file is there and the store file is not,
the merger reports failure; otherwise it reports success, and its counts are at least those of the results saved
before, and at most those with the results of this save.  They are the former if there is no record file, and the
latter if there is one and the store file is complete. -/
theorem C72_save {d d' : Dir} {ps : List (OSet Block × StoreMap)} (h : d.Holds ps) {id : Nat} (hid : d.Absent id)
    {p : OSet Block × StoreMap} (hp : PairOk p) (hz : ∀ e ∈ p.2, 0 ≤ e.2)
    (hf : Dir.Faulty (FileStore.saveWrites id (Record.print p.1, Store.print p.2)) d d') :
    ((Dir.isRegularFile d' (FileStore.recordName id) = true ∧ Dir.isRegularFile d' (FileStore.storeName id) = false) →
      Merger.merge d' = .ok ⟨1, none⟩) ∧
    (¬ (Dir.isRegularFile d' (FileStore.recordName id) = true ∧ Dir.isRegularFile d' (FileStore.storeName id) = false) →
      ∃ r m, Merger.merge d' = .ok ⟨0, some (Store.print m, Record.print r)⟩ ∧ OMap.Sorted m ∧
        ∀ k, (ps.map fun q => total q.2 k).sum ≤ total m k ∧
          total m k ≤ (ps.map fun q => total q.2 k).sum + total p.2 k ∧
          (Dir.isRegularFile d' (FileStore.recordName id) = false → total m k = (ps.map fun q => total q.2 k).sum) ∧
          (Dir.isRegularFile d' (FileStore.recordName id) = true →
            (FileStore.storeName id, .file (Store.print p.2)) ∈ d' →
            total m k = (ps.map fun q => total q.2 k).sum + total p.2 k)) := by
  have hp0 : ∀ k, 0 ≤ total p.2 k := Store.total_ge_zero hz
  have hnone : ∀ {d₂ : Dir} {n : List Char}, Dir.lookup d n = none → Dir.lookup d₂ n = none →
      Dir.isRegularFile (d ++ d₂) n = false := by
    intro d₂ n h1 h2
    unfold Dir.isRegularFile
    rw [Dir.lookup_append, h1, h2]
  have hmerge : ∃ m, Merger.merge d = .ok ⟨0, some (Store.print m,
      Record.print (((ps.map pairReads).flatMap Prod.fst).foldl OSet.insert []))⟩ ∧ OMap.Sorted m ∧
      ∀ k, total m k = (ps.map fun q => total q.2 k).sum := by
    obtain ⟨m, h1, h2⟩ := merge_reads (h.reads fun n _ => rfl)
    exact ⟨m, h1, h2.sorted, fun k => by rw [h2.total_eq, total_pairReads]⟩
  obtain ⟨m, hm1, hm2, hm3⟩ := hmerge
  rcases faulty_cases hid hf with rfl | ⟨s, _, rfl⟩ | ⟨r, hr, rfl⟩ | ⟨s, r, hs, hr, rfl⟩
  · have h1 : Dir.isRegularFile d' (FileStore.recordName id) = false := by
      unfold Dir.isRegularFile
      rw [hid.lookup.1]
    refine ⟨fun hc => absurd hc.1 (by simp [h1]), fun _ => ⟨_, m, hm1, hm2, fun k => ?_⟩⟩
    have := hp0 k
    rw [hm3]
    exact ⟨le_refl _, by omega, fun _ => rfl, fun hc => absurd hc (by simp [h1])⟩
  · have h1 : Dir.isRegularFile (d ++ [(FileStore.storeName id, .file s)]) (FileStore.recordName id) = false :=
      hnone hid.lookup.1 (if_neg (recordName_ne_storeName id id).symm)
    refine ⟨fun hc => absurd hc.1 (by simp [h1]), fun _ => ⟨_, m, (store_append hid _).1.trans hm1, hm2, fun k => ?_⟩⟩
    · have := hp0 k
      rw [hm3]
      exact ⟨le_refl _, by omega, fun _ => rfl, fun hc => absurd hc (by simp [h1])⟩
  · have h1 : Dir.isRegularFile (d ++ [(FileStore.recordName id, .file r)]) (FileStore.storeName id) = false :=
      hnone hid.lookup.2 (if_neg (recordName_ne_storeName id id))
    have h2 : Dir.isRegularFile (d ++ [(FileStore.recordName id, .file r)]) (FileStore.recordName id) = true := by
      unfold Dir.isRegularFile
      rw [Dir.lookup_append, hid.lookup.1, Dir.lookup, if_pos rfl]
      rfl
    refine ⟨fun _ => ?_, fun hc => absurd ⟨h2, h1⟩ hc⟩
    obtain ⟨m', h3, _⟩ := Merger.mergeLoop_reads (d := d ++ [(FileStore.recordName id, .file r)])
      [(FileStore.recordName id, .file r)] d _ [] [] [] (h.reads (hid.lookup_add (by simp))) Tally.nil
    unfold Merger.merge
    rw [h3]
    unfold Merger.mergeLoop
    rw [if_pos (isRecordFile_record id r)]
    dsimp only
    rw [replace_recordName, if_neg (by simp [h1])]
    rfl
  · have h2 : Dir.lookup (d ++ [(FileStore.storeName id, .file s), (FileStore.recordName id, .file r)])
        (FileStore.recordName id) = some (.file r) := by
      rw [Dir.lookup_append, hid.lookup.1]
      exact (if_neg (recordName_ne_storeName id id).symm).trans (if_pos rfl)
    have h1 : Dir.lookup (d ++ [(FileStore.storeName id, .file s), (FileStore.recordName id, .file r)])
        (FileStore.storeName id) = some (.file s) := by
      rw [Dir.lookup_append, hid.lookup.2]
      exact if_pos rfl
    have h1' : Dir.isRegularFile (d ++ [(FileStore.storeName id, .file s), (FileStore.recordName id, .file r)])
        (FileStore.storeName id) = true := by
      unfold Dir.isRegularFile
      rw [h1]
      rfl
    have h2' : Dir.isRegularFile (d ++ [(FileStore.storeName id, .file s), (FileStore.recordName id, .file r)])
        (FileStore.recordName id) = true := by
      unfold Dir.isRegularFile
      rw [h2]
      rfl
    refine ⟨fun hc => absurd hc.2 (by simp [h1']), fun _ => ?_⟩
    obtain ⟨l, hl⟩ := Store.cut p.2 s hp.keys_fit hz hs
    obtain ⟨l₁, l₂, _, bs, hb, _⟩ := Record.extract_cut hp.blocks_fit hr
    obtain ⟨m', h3, h4⟩ := merge_reads (faulty_reads h hid hp hl hb)
    refine ⟨_, m', h3, h4.sorted, fun k => ?_⟩
    have h5 : total m' k = (ps.map fun q => total q.2 k).sum + total l k := by
      rw [h4.total_eq, List.flatMap_append, total_append, total_pairReads]
      simp
    have h6 := Store.total_ge_zero hl.nonneg k
    have h7 := hl.le k
    refine ⟨by omega, by omega, fun hc => absurd hc (by simp [h2']), fun _ hc => ?_⟩
    have h8 : s = Store.print p.2 := by
      rcases List.mem_append.1 hc with hc | hc
      · exact absurd rfl (hid _ hc).2
      · rcases List.mem_cons.1 hc with hc | hc
        · exact (FileEntry.file.inj (Prod.ext_iff.1 hc).2).symm
        · exact absurd (Prod.ext_iff.1 (List.mem_singleton.1 hc)).1 (recordName_ne_storeName id id).symm
    rw [h5, hl.whole (Or.inl h8)]

/-- C72: what the next run takes as done after such a save.  Nothing that was recorded before is lost, what is added are
blocks of the new record and at most remains of them, and all of them are added if the record file is complete,
whatever happened to the store file. -/
theorem C72_restart {d d' : Dir} {ps : List (OSet Block × StoreMap)} (h : d.Holds ps) {id : Nat} (hid : d.Absent id)
    {p : OSet Block × StoreMap} (hp : PairOk p)
    (hf : Dir.Faulty (FileStore.saveWrites id (Record.print p.1, Store.print p.2)) d d') :
    ∃ r, FileStore.initialRecord d' = .ok r ∧
      (∀ q ∈ ps, ∀ b ∈ q.1, b ∈ r) ∧
      (∀ b ∈ r, b ≠ [] → (∃ q ∈ ps, b ∈ q.1) ∨ b ∈ p.1 ∨ ∃ b₀ ∈ p.1, CutBlock b₀ b) ∧
      ((FileStore.recordName id, .file (Record.print p.1)) ∈ d' → ∀ b ∈ p.1, b ∈ r) := by
  have hq : ∀ b, b ≠ [] → (b ∈ ((ps.map pairReads).map Prod.fst).flatten ↔ ∃ q ∈ ps, b ∈ q.1) := by
    intro b hb
    simp only [List.mem_flatten, List.mem_map, exists_exists_and_eq_and, mem_pairReads hb]
  have hsub : ∀ q ∈ ps, ∀ b ∈ q.1, b ∈ ((ps.map pairReads).map Prod.fst).flatten := by
    intro q hq' b hb
    simp only [List.mem_flatten, List.mem_map, exists_exists_and_eq_and]
    refine ⟨q, hq', ?_⟩
    unfold pairReads
    rw [if_neg (List.ne_nil_of_mem hb)]
    exact List.mem_append_left _ hb
  have hreads : ∀ d₂ : Dir, (∀ e ∈ d₂, e.1 = FileStore.storeName id ∨ e.1 = FileStore.recordName id) →
      List.Forall₂ (fun (e : List Char × FileEntry) bs => ∀ r, Record.extract r (Dir.openIn (d ++ d₂) e.1) =
        .ok (bs.foldl OSet.insert r)) (d.filter FileStore.isRecordFile) ((ps.map pairReads).map Prod.fst) := by
    intro d₂ hd₂
    rw [List.forall₂_map_right_iff]
    exact (h.reads (hid.lookup_add hd₂)).imp fun e x hx => hx.record
  have without : ∀ d₂ : Dir, (∀ e ∈ d₂, e.1 = FileStore.storeName id) →
      ∃ r, FileStore.initialRecord (d ++ d₂) = .ok r ∧
      (∀ q ∈ ps, ∀ b ∈ q.1, b ∈ r) ∧
      (∀ b ∈ r, b ≠ [] → (∃ q ∈ ps, b ∈ q.1) ∨ b ∈ p.1 ∨ ∃ b₀ ∈ p.1, CutBlock b₀ b) ∧
      ((FileStore.recordName id, .file (Record.print p.1)) ∈ d ++ d₂ → ∀ b ∈ p.1, b ∈ r) := by
    intro d₂ hd₂
    have hfil : (d ++ d₂).filter FileStore.isRecordFile = d.filter FileStore.isRecordFile := by
      rw [List.filter_append, (List.filter_eq_nil_iff (l := d₂)).2, List.append_nil]
      intro e he
      obtain ⟨n, c⟩ := e
      obtain rfl : n = _ := hd₂ _ he
      simp [isRecordFile_store]
    have h1 := FileStore.readRecords_reads (d := d ++ d₂) (d ++ d₂) ((ps.map pairReads).map Prod.fst) [] (by
      rw [hfil]
      exact hreads d₂ fun e he => Or.inl (hd₂ e he))
    refine ⟨_, h1, fun q hq' b hb => ?_, fun b hb hne => ?_, fun hc => ?_⟩
    · rw [Record.mem_foldl_insert]
      exact Or.inr (hsub q hq' b hb)
    · rw [Record.mem_foldl_insert] at hb
      rcases hb with hb | hb
      · exact absurd hb (by simp)
      · exact Or.inl ((hq b hne).1 hb)
    · rcases List.mem_append.1 hc with hc | hc
      · exact absurd rfl (hid _ hc).1
      · exact absurd (hd₂ _ hc) (recordName_ne_storeName id id)
  have within : ∀ (d₂ : Dir) (r : List Char), r <+: Record.print p.1 →
      (∀ e ∈ d₂, e.1 = FileStore.storeName id) →
      ∃ r', FileStore.initialRecord (d ++ (d₂ ++ [(FileStore.recordName id, .file r)])) = .ok r' ∧
      (∀ q ∈ ps, ∀ b ∈ q.1, b ∈ r') ∧
      (∀ b ∈ r', b ≠ [] → (∃ q ∈ ps, b ∈ q.1) ∨ b ∈ p.1 ∨ ∃ b₀ ∈ p.1, CutBlock b₀ b) ∧
      ((FileStore.recordName id, .file (Record.print p.1)) ∈ d ++ (d₂ ++ [(FileStore.recordName id, .file r)]) →
        ∀ b ∈ p.1, b ∈ r') := by
    intro d₂ r hr hd₂
    have hfil : List.filter FileStore.isRecordFile (d ++ (d₂ ++ [(FileStore.recordName id, .file r)])) =
        d.filter FileStore.isRecordFile ++ [(FileStore.recordName id, .file r)] := by
      rw [List.filter_append, List.filter_append, (List.filter_eq_nil_iff (l := d₂)).2, List.nil_append,
        List.filter_cons_of_pos (isRecordFile_record id r), List.filter_nil]
      intro e he
      obtain ⟨n, c⟩ := e
      obtain rfl : n = _ := hd₂ _ he
      simp [isRecordFile_store]
    have hlook : Dir.lookup (d ++ (d₂ ++ [(FileStore.recordName id, .file r)])) (FileStore.recordName id) =
        some (.file r) := by
      rw [Dir.lookup_append, hid.lookup.1]
      dsimp only
      rw [Dir.lookup_append, Dir.lookup_eq_none.2]
      · exact if_pos rfl
      · intro hm
        obtain ⟨e, he, h1⟩ := List.mem_map.1 hm
        exact recordName_ne_storeName id id (h1.symm.trans (hd₂ e he))
    obtain ⟨bs, hbs, hb1, hb2⟩ : ∃ bs : List Block, (∀ r', Record.extract r' (IStream.ofList r) =
        .ok (bs.foldl OSet.insert r')) ∧ (∀ b ∈ bs, b ≠ [] → b ∈ p.1 ∨ ∃ b₀ ∈ p.1, CutBlock b₀ b) ∧
        (r = Record.print p.1 → ∀ b ∈ p.1, b ∈ bs) := by
      by_cases hrp : r = Record.print p.1
      · refine ⟨(pairReads p).1, fun r' => by rw [hrp, Record.extract_pair r' hp], fun b hb hne => ?_, fun _ b hb => ?_⟩
        · exact Or.inl ((mem_pairReads hne).1 hb)
        · unfold pairReads
          rw [if_neg (List.ne_nil_of_mem hb)]
          exact List.mem_append_left _ hb
      · obtain ⟨l₁, l₂, h1, bs, h2, h3⟩ := Record.extract_cut hp.blocks_fit hr
        refine ⟨l₁ ++ bs, h2, fun b hb hne => ?_, fun h => absurd h hrp⟩
        rcases List.mem_append.1 hb with hb | hb
        · exact Or.inl (by rw [h1]; exact List.mem_append_left _ hb)
        · rcases h3 with rfl | ⟨b', rfl, h3⟩
          · exact absurd hb (by simp)
          · obtain rfl := List.mem_singleton.1 hb
            rcases h3 with rfl | ⟨b₀, l₃, rfl, h4⟩
            · exact absurd rfl hne
            · exact Or.inr ⟨b₀, by rw [h1]; simp, h4⟩
    have h1 := FileStore.readRecords_reads (d := d ++ (d₂ ++ [(FileStore.recordName id, .file r)]))
      (d ++ (d₂ ++ [(FileStore.recordName id, .file r)])) ((ps.map pairReads).map Prod.fst ++ [bs]) [] (by
        rw [hfil]
        refine List.rel_append (hreads _ fun e he => ?_) (.cons (fun r' => ?_) .nil)
        · rcases List.mem_append.1 he with he | he
          · exact Or.inl (hd₂ e he)
          · exact Or.inr (by rw [List.mem_singleton.1 he])
        · unfold Dir.openIn
          rw [hlook]
          exact hbs r')
    refine ⟨_, h1, fun q hq' b hb => ?_, fun b hb hne => ?_, fun hc b hb => ?_⟩
    · rw [Record.mem_foldl_insert, List.flatten_append]
      exact Or.inr (List.mem_append_left _ (hsub q hq' b hb))
    · rw [Record.mem_foldl_insert, List.flatten_append, List.mem_append] at hb
      rcases hb with hb | hb | hb
      · exact absurd hb (by simp)
      · exact Or.inl ((hq b hne).1 hb)
      · exact Or.inr (hb1 b (by simpa using hb) hne)
    · have hr' : r = Record.print p.1 := by
        rcases List.mem_append.1 hc with hc | hc
        · exact absurd rfl (hid _ hc).1
        · rcases List.mem_append.1 hc with hc | hc
          · exact absurd (hd₂ _ hc) (recordName_ne_storeName id id)
          · exact (FileEntry.file.inj (Prod.ext_iff.1 (List.mem_singleton.1 hc)).2).symm
      rw [Record.mem_foldl_insert, List.flatten_append]
      exact Or.inr (List.mem_append_right _ (by simpa using hb2 hr' b hb))
  rcases faulty_cases hid hf with rfl | ⟨s, _, rfl⟩ | ⟨r, hr, rfl⟩ | ⟨s, r, hs, hr, rfl⟩
  · have := without [] (by simp)
    rwa [List.append_nil] at this
  · exact without _ (by simp)
  · exact within [] r hr (by simp)
  · exact within [(FileStore.storeName id, .file s)] r hr (by simp)

/-- C72: the record file is no witness that the store file has been written completely.  Whenever a store file with
positive counts lacks more than the last line break, and the record file is complete, the merger reports success with a
count that is too small, and none of the blocks will be done again. -/
theorem C72_lost {d : Dir} {ps : List (OSet Block × StoreMap)} (h : d.Holds ps) {id : Nat} (hid : d.Absent id)
    {p : OSet Block × StoreMap} (hp : PairOk p) (hz : ∀ e ∈ p.2, 0 < e.2) {part lost : List Char}
    (hpart : part ++ lost = Store.print p.2) (hlost : 2 ≤ lost.length) :
    (∃ r m, Merger.merge (FileStore.save d id (Record.print p.1, part)) =
        .ok ⟨0, some (Store.print m, Record.print r)⟩ ∧
      ∃ k, total m k < (ps.map fun q => total q.2 k).sum + total p.2 k) ∧
    ∃ r, FileStore.initialRecord (FileStore.save d id (Record.print p.1, part)) = .ok r ∧ ∀ b ∈ p.1, b ∈ r := by
  have hpre : part <+: Store.print p.2 := ⟨lost, hpart⟩
  have hz' : ∀ e ∈ p.2, 0 ≤ e.2 := fun e he => le_of_lt (hz e he)
  have hsave : FileStore.save d id (Record.print p.1, part) = d ++ [(FileStore.storeName id, .file part),
      (FileStore.recordName id, .file (Record.print p.1))] := by
    unfold FileStore.save FileStore.saveWrites
    rw [List.foldl_cons, List.foldl_cons, List.foldl_nil, Dir.write_new fun e he => (hid e he).2, Dir.write_new,
      List.append_assoc]
    · rfl
    · intro e he
      rcases List.mem_append.1 he with he | he
      · exact (hid e he).1
      · rw [List.mem_singleton.1 he]
        exact (recordName_ne_storeName id id).symm
  constructor
  · rw [hsave]
    obtain ⟨l, hl⟩ := Store.cut p.2 part hp.keys_fit hz' hpre
    obtain ⟨m, h3, h4⟩ := merge_reads (faulty_reads h hid hp hl fun r => Record.extract_pair r hp)
    refine ⟨_, m, h3, ?_⟩
    have hn1 : part ≠ Store.print p.2 := by
      intro hc
      have := congrArg List.length (hc.trans hpart.symm)
      rw [List.length_append] at this
      omega
    have hn2 : part ++ ['\n'] ≠ Store.print p.2 := by
      intro hc
      have := congrArg List.length (hc.trans hpart.symm)
      rw [List.length_append, List.length_append, List.length_singleton] at this
      omega
    obtain ⟨k, hk⟩ := hl.less hz hn1 hn2
    refine ⟨k, ?_⟩
    rw [h4.total_eq, List.flatMap_append, total_append, total_pairReads]
    simpa using hk
  · obtain ⟨r, h1, _, _, h2⟩ := C72_restart h hid hp (d' := FileStore.save d id (Record.print p.1, part))
      (.cut _ _ part _ _ _ hpre (.cut _ _ _ _ _ _ (List.prefix_refl _) (.nil _)))
    exact ⟨r, h1, h2 (by rw [hsave]; simp)⟩

/-! ### Examples -/

/-- A pair for the examples. -/
def faultPair : OSet Block × StoreMap :=
  ([[(0, 1), (2, 57)], [(1, 2), (2, 57)]], [(⟨[1, 1, 2], [-3, 0]⟩, 7), (⟨[1, 1, 2], [0, 5]⟩, 120)])

example : PairOk faultPair := by
  refine ⟨?_, ?_, ?_, ?_, ?_⟩
  · exact List.pairwise_cons.2 ⟨by decide, List.pairwise_singleton _ _⟩
  · decide
  · exact List.pairwise_cons.2 ⟨by decide, List.pairwise_singleton _ _⟩
  · simp only [faultPair, List.mem_cons, List.not_mem_nil, or_false, forall_eq_or_imp, forall_eq]
    exact ⟨⟨by simp, by simp, by decide, by decide⟩, by simp, by simp, by decide, by decide⟩
  · simp only [faultPair, List.mem_cons, List.not_mem_nil, or_false, forall_eq_or_imp, forall_eq]
    exact ⟨⟨by decide, by decide⟩, by decide, by decide⟩

/-- A record that was cut off inside a number. -/
example : "0 1 2 57 \n1 2 2 5".toList <+: Record.print faultPair.1 ∧
    Record.extract [] (IStream.ofList "0 1 2 57 \n1 2 2 5".toList) =
      .ok [[(0, 1), (2, 57)], [(1, 2), (2, 5)]] ∧ CutBlock [(1, 2), (2, 57)] [(1, 2), (2, 5)] :=
  ⟨by decide, by decide, .number [(1, 2)] [] 2 57 5 rfl ⟨1, rfl, Or.inr (by decide)⟩⟩

/-- A store that was cut off inside a number, and the merger on it. -/
example : Store.print faultPair.2 = "1,1,2;-3,0:7\n1,1,2;0,5:1".toList ++ "20\n".toList ∧
    Merger.merge (FileStore.save [] 9 (Record.print faultPair.1, "1,1,2;-3,0:7\n1,1,2;0,5:1".toList)) =
      .ok ⟨0, some ("1,1,2;-3,0:7\n1,1,2;0,5:1\n".toList, "\n0 1 2 57 \n1 2 2 57 \n".toList)⟩ :=
  ⟨by decide, by decide⟩

/-- A store that was cut off inside a key: a key that was never written appears, with the count 0. -/
example : Store.extract [] (IStream.ofList "1,1,2;-3,0:7\n1,1,2;0".toList) =
    .ok [(⟨[1, 1, 2], [-3, 0]⟩, 7), (⟨[1, 1, 2], [0]⟩, 0)] := by decide

/-- A save whose store file could not be created. -/
example : Dir.Faulty (FileStore.saveWrites 9 (Record.print faultPair.1, Store.print faultPair.2)) []
      [("9.hycu_record".toList, .file (Record.print faultPair.1))] ∧
    Merger.merge [("9.hycu_record".toList, .file (Record.print faultPair.1))] = .ok ⟨1, none⟩ :=
  ⟨.lost _ _ _ _ _ (.cut _ _ _ _ _ _ (List.prefix_refl _) (.nil _)), by decide⟩

/-- An empty line in a store, and a record file that cannot be opened. -/
example : Store.extract [] (IStream.ofList "\n".toList) = .ub ∧
    FileStore.initialRecord [("1.hycu_record".toList, .file "0 1 \n".toList), ("2.hycu_record".toList, .unreadable)] =
      .diverge := ⟨by decide, by decide⟩

end Hycu
