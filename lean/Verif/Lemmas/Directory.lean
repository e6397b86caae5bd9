import Verif.Spec.Directory
import Verif.Lemmas.StoreFile
import Mathlib.Data.List.TakeWhile

/-!
Reading directories.
-/

namespace Hycu

namespace Dir

theorem extension_append {s ext : List Char} (h : '.' ∉ ext) : extension (s ++ '.' :: ext) = '.' :: ext := by
  unfold extension
  rw [if_pos (by simp)]
  have : (s ++ '.' :: ext).reverse = ext.reverse ++ ('.' :: s.reverse) := by simp
  rw [this, (takeWhile_append_stop (p := fun c => decide (c ≠ '.')) (l := ext.reverse) (r := '.' :: s.reverse)
    (fun c hc => by
      have : c ∈ ext := by simpa using hc
      simp only [ne_eq, decide_not, Bool.not_eq_true', decide_eq_false_iff_not]
      rintro rfl
      exact h this) (by simp)).1]
  simp

theorem stem_append {s ext : List Char} (h : '.' ∉ ext) : stem (s ++ '.' :: ext) = s := by
  unfold stem
  rw [extension_append h]
  simp

theorem extension_record (s : List Char) :
    extension (s ++ FileStore.recordExtension) = FileStore.recordExtension :=
  extension_append (ext := "hycu_record".toList) (by decide)

theorem replace_record (s ext : List Char) : replaceExtension (s ++ FileStore.recordExtension) ext = s ++ ext := by
  unfold replaceExtension
  rw [show s ++ FileStore.recordExtension = s ++ '.' :: "hycu_record".toList from rfl, stem_append (by decide)]

theorem extension_store (s : List Char) :
    extension (s ++ FileStore.storeExtension) = FileStore.storeExtension :=
  extension_append (ext := "hycu_store".toList) (by decide)

/-- The name of a record file. -/
theorem eq_of_extension {n : List Char} (h : extension n = FileStore.recordExtension) :
    n = stem n ++ FileStore.recordExtension := by
  unfold extension at h
  split at h
  · rename_i hd
    have h1 := List.takeWhile_append_dropWhile (p := fun c => decide (c ≠ '.')) (l := n.reverse)
    have h2 : (n.reverse.takeWhile (fun c => decide (c ≠ '.'))).reverse = "hycu_record".toList := by
      injection h
    cases h3 : n.reverse.dropWhile (fun c => decide (c ≠ '.')) with
    | nil =>
      rw [h3, List.append_nil] at h1
      have h4 : '.' ∈ n.reverse.takeWhile (fun c => decide (c ≠ '.')) := by
        rw [h1]
        simpa using hd
      have := List.mem_takeWhile_imp h4
      simp at this
    | cons c t =>
      have hc : c = '.' := by
        have := List.head?_dropWhile_not (fun c => decide (c ≠ '.')) n.reverse
        rw [h3] at this
        simpa using this
      rw [h3, hc] at h1
      have h4 : n = t.reverse ++ FileStore.recordExtension := by
        have h5 := congrArg List.reverse h1
        rw [List.reverse_append, List.reverse_reverse, h2] at h5
        rw [List.reverse_cons, List.append_assoc] at h5
        exact h5.symm
      rw [h4]
      exact congrArg (· ++ FileStore.recordExtension)
        (stem_append (s := t.reverse) (ext := "hycu_record".toList) (by decide)).symm
  · exact absurd h (by decide)

theorem lookup_of_mem {d : Dir} (h : d.NamesDiffer) {e : List Char × FileEntry} (he : e ∈ d) :
    lookup d e.1 = some e.2 := by
  induction d with
  | nil => exact absurd he (by simp)
  | cons a d ih =>
    have hn := List.nodup_cons.1 (show (a.1 :: d.map Prod.fst).Nodup from h)
    unfold lookup
    rcases List.mem_cons.1 he with rfl | he
    · rw [if_pos rfl]
    · rw [if_neg, ih hn.2 he]
      intro hae
      exact hn.1 (List.mem_map.2 ⟨e, he, hae.symm⟩)

theorem mem_of_lookup {d : Dir} {n : List Char} {e : FileEntry} (h : lookup d n = some e) : (n, e) ∈ d := by
  induction d with
  | nil => exact absurd h (by simp [lookup])
  | cons a d ih =>
    unfold lookup at h
    split at h
    · rename_i hn
      obtain rfl := Option.some.inj h
      rw [← hn]
      simp
    · exact List.mem_cons_of_mem _ (ih h)

theorem lookup_eq_none {d : Dir} {n : List Char} : lookup d n = none ↔ n ∉ d.map Prod.fst := by
  induction d with
  | nil => simp [lookup]
  | cons a d ih =>
    unfold lookup
    split
    · rename_i h
      simp [h]
    · rename_i h
      rw [ih, List.map_cons, List.mem_cons]
      constructor
      · rintro h1 (h2 | h2)
        · exact h h2.symm
        · exact h1 h2
      · intro h1 h2
        exact h1 (Or.inr h2)

theorem lookup_perm {d d' : Dir} (h : d.NamesDiffer) (hp : d.Perm d') (n : List Char) : lookup d n = lookup d' n := by
  have h' : d'.NamesDiffer := (hp.map Prod.fst).nodup_iff.1 h
  cases h1 : lookup d n with
  | none =>
    symm
    rw [lookup_eq_none] at h1 ⊢
    rwa [← (hp.map Prod.fst).mem_iff]
  | some e => exact (lookup_of_mem h' (hp.mem_iff.1 (mem_of_lookup h1))).symm

/-- A directory that holds pairs does so in any other order of its entries. -/
theorem Holds.perm {d d' : Dir} {ps : List (OSet Block × StoreMap)} (h : d.Holds ps) (hp : d.Perm d') :
    ∃ ps', ps.Perm ps' ∧ d'.Holds ps' := by
  have key : ∀ (l l' : List (List Char × FileEntry)) (ps : List (OSet Block × StoreMap)), l.Perm l' →
      List.Forall₂ (fun e p => e.2 = .file (Record.print p.1) ∧
        (Dir.replaceExtension e.1 FileStore.storeExtension, FileEntry.file (Store.print p.2)) ∈ d') l ps →
      ∃ ps', ps.Perm ps' ∧ List.Forall₂ (fun e p => e.2 = .file (Record.print p.1) ∧
        (Dir.replaceExtension e.1 FileStore.storeExtension, FileEntry.file (Store.print p.2)) ∈ d') l' ps' := by
    intro l l' ps hl
    induction hl generalizing ps with
    | nil => intro h; exact ⟨ps, List.Perm.refl _, h⟩
    | cons a _ ih =>
      intro h
      cases h with
      | cons h1 h2 =>
        obtain ⟨ps', h3, h4⟩ := ih _ h2
        exact ⟨_, h3.cons _, .cons h1 h4⟩
    | swap a b l =>
      intro h
      cases h with
      | cons h1 h2 =>
        cases h2 with
        | cons h2 h3 => exact ⟨_, List.Perm.swap _ _ _, .cons h2 (.cons h1 h3)⟩
    | trans _ _ ih1 ih2 =>
      intro h
      obtain ⟨ps1, h1, h2⟩ := ih1 _ h
      obtain ⟨ps2, h3, h4⟩ := ih2 _ h2
      exact ⟨ps2, h1.trans h3, h4⟩
  obtain ⟨ps', h1, h2⟩ := key _ _ ps (hp.filter FileStore.isRecordFile)
    (h.files.imp fun e p h => ⟨h.1, hp.mem_iff.1 h.2⟩)
  exact ⟨ps', h1, (hp.map Prod.fst).nodup_iff.1 h.names, h2, fun p hp => h.pairs p (h1.mem_iff.2 hp)⟩

end Dir

/-! ### Unions -/

theorem IsUnion.unique {ps ps' : List (OSet Block × StoreMap)} {r r' : OSet Block} (h : IsUnion ps r)
    (h' : IsUnion ps' r') (h1 : ∀ b, b ≠ [] → ((∃ p ∈ ps, b ∈ p.1) ↔ ∃ p ∈ ps', b ∈ p.1))
    (h2 : (∃ p ∈ ps, p.1 ≠ []) ↔ ∃ p ∈ ps', p.1 ≠ []) : r = r' := by
  apply OSet.ext_mem h.sorted h'.sorted
  intro b
  by_cases hb : b = []
  · rw [hb, h.empty, h'.empty, h2]
  · rw [h.mem b hb, h'.mem b hb, h1 b hb]

theorem IsUnion.perm {ps ps' : List (OSet Block × StoreMap)} {r : OSet Block} (h : IsUnion ps r)
    (hp : ps.Perm ps') : IsUnion ps' r := by
  refine ⟨h.sorted, fun b hb => ?_, ?_⟩
  · rw [h.mem b hb]
    simp only [hp.mem_iff]
  · rw [h.empty]
    simp only [hp.mem_iff]

/-- Reading one more record. -/
theorem IsUnion.extract {ps : List (OSet Block × StoreMap)} {r : OSet Block} (h : IsUnion ps r)
    {p : OSet Block × StoreMap} (hp : PairOk p) :
    ∃ r', Record.extract r (IStream.ofList (Record.print p.1)) = .ok r' ∧ IsUnion (ps ++ [p]) r' := by
  refine ⟨_, Record.extract_print r hp.blocks_fit, ?_⟩
  have hor : ∀ Q : OSet Block × StoreMap → Prop, (∃ q ∈ ps ++ [p], Q q) ↔ (∃ q ∈ ps, Q q) ∨ Q p := by
    intro Q
    constructor
    · rintro ⟨q, hq, h⟩
      rcases List.mem_append.1 hq with hq | hq
      · exact Or.inl ⟨q, hq, h⟩
      · rw [List.mem_singleton.1 hq] at h
        exact Or.inr h
    · rintro (⟨q, hq, h⟩ | h)
      · exact ⟨q, List.mem_append_left _ hq, h⟩
      · exact ⟨p, by simp, h⟩
  split
  · rename_i hnil
    refine ⟨h.sorted, fun b hb => ?_, ?_⟩
    · rw [hor, h.mem b hb, hnil]
      simp
    · rw [hor, h.empty, hnil]
      simp
  · rename_i hnil
    refine ⟨OSet.sorted_insert (Record.sorted_foldl_insert _ h.sorted) _, fun b hb => ?_, ?_⟩
    · rw [hor, OSet.mem_insert, Record.mem_foldl_insert, h.mem b hb]
      simp [hb]
    · rw [hor, OSet.mem_insert]
      simp [hnil]

/-! ### The merger -/

namespace Merger

theorem isRecordFile_of {e : List Char × FileEntry} {p : OSet Block × StoreMap}
    (h : e.2 = .file (Record.print p.1)) : Dir.regular e.2 = true := by rw [h]; rfl

theorem mergeLoop_holds {d : Dir} (hd : d.NamesDiffer) : ∀ (es : List (List Char × FileEntry))
    (ps qs : List (OSet Block × StoreMap)) (r : OSet Block) (m : StoreMap), (∀ e ∈ es, e ∈ d) →
    List.Forall₂ (fun e p => e.2 = .file (Record.print p.1) ∧
      (Dir.replaceExtension e.1 FileStore.storeExtension, FileEntry.file (Store.print p.2)) ∈ d)
      (es.filter FileStore.isRecordFile) ps →
    (∀ p ∈ ps, PairOk p) → IsUnion qs r → Tally m (qs.flatMap Prod.snd) →
    ∃ r' m', mergeLoop d es r m = .ok (some (r', m')) ∧ IsUnion (qs ++ ps) r' ∧
      Tally m' ((qs ++ ps).flatMap Prod.snd)
  | [], ps, qs, r, m, _, hf, _, hr, hm => by
    cases hf
    exact ⟨r, m, rfl, by rwa [List.append_nil], by rwa [List.append_nil]⟩
  | e :: es, ps, qs, r, m, hes, hf, hps, hr, hm => by
    unfold mergeLoop
    by_cases he : FileStore.isRecordFile e = true
    · rw [if_pos he]
      rw [List.filter_cons_of_pos he] at hf
      cases hf with
      | @cons _ p _ ps h1 h2 =>
        have hlook : Dir.lookup d (Dir.replaceExtension e.1 FileStore.storeExtension) =
          some (.file (Store.print p.2)) := Dir.lookup_of_mem hd h1.2
        have hp := hps p (by simp)
        obtain ⟨r', h3, h4⟩ := hr.extract hp
        obtain ⟨m', h5, h6⟩ := Store.addEntries_tally p.2 hm hp.counts_small
        rw [if_pos (by unfold Dir.isRegularFile; rw [hlook]; rfl)]
        have ho : Dir.openIn d e.1 = IStream.ofList (Record.print p.1) := by
          unfold Dir.openIn
          rw [Dir.lookup_of_mem hd (hes e (by simp)), h1.1]
        have ho' : Dir.openIn d (Dir.replaceExtension e.1 FileStore.storeExtension) =
            IStream.ofList (Store.print p.2) := by
          unfold Dir.openIn
          rw [hlook]
        rw [ho, ho', h3, Res.bind_ok, Store.extract_print m hp.keys_fit, h5, Res.bind_ok]
        obtain ⟨r2, m2, h7, h8, h9⟩ := mergeLoop_holds hd es ps (qs ++ [p]) r' m' (fun e he => hes e (by simp [he]))
          h2 (fun p hp => hps p (by simp [hp])) h4 (by
            rw [List.flatMap_append, List.flatMap_singleton]
            exact h6)
        rw [List.append_assoc, List.singleton_append] at h8 h9
        exact ⟨r2, m2, h7, h8, h9⟩
    · rw [if_neg he]
      rw [List.filter_cons_of_neg he] at hf
      exact mergeLoop_holds hd es ps qs r m (fun e he => hes e (by simp [he])) hf hps hr hm

/-- The loop only uses the entries of record files and of their store files. -/
theorem mergeLoop_congr {d d' : Dir} : ∀ (es : List (List Char × FileEntry)) (r : OSet Block) (m : StoreMap),
    (∀ e ∈ es, FileStore.isRecordFile e = true → Dir.lookup d e.1 = Dir.lookup d' e.1 ∧
      Dir.lookup d (Dir.replaceExtension e.1 FileStore.storeExtension) =
        Dir.lookup d' (Dir.replaceExtension e.1 FileStore.storeExtension)) →
    mergeLoop d es r m = mergeLoop d' es r m
  | [], _, _, _ => rfl
  | e :: es, r, m, h => by
    unfold mergeLoop
    have ih := fun r m => mergeLoop_congr es r m fun e he => h e (by simp [he])
    split
    · rename_i he
      obtain ⟨h1, h2⟩ := h e (by simp) he
      have h3 : Dir.openIn d e.1 = Dir.openIn d' e.1 := by unfold Dir.openIn; rw [h1]
      have h4 : Dir.openIn d (Dir.replaceExtension e.1 FileStore.storeExtension) =
        Dir.openIn d' (Dir.replaceExtension e.1 FileStore.storeExtension) := by unfold Dir.openIn; rw [h2]
      have h5 : Dir.isRegularFile d (Dir.replaceExtension e.1 FileStore.storeExtension) =
        Dir.isRegularFile d' (Dir.replaceExtension e.1 FileStore.storeExtension) := by
        unfold Dir.isRegularFile; rw [h2]
      simp only [h3, h4, h5, ih]
    · exact ih r m

theorem mergeLoop_filter {d : Dir} : ∀ (es : List (List Char × FileEntry)) (r : OSet Block) (m : StoreMap),
    mergeLoop d (es.filter FileStore.isRecordFile) r m = mergeLoop d es r m
  | [], _, _ => rfl
  | e :: es, r, m => by
    by_cases he : FileStore.isRecordFile e = true
    · rw [List.filter_cons_of_pos he]
      unfold mergeLoop
      rw [if_pos he, if_pos he]
      simp only [mergeLoop_filter es]
    · rw [List.filter_cons_of_neg he]
      conv_rhs => unfold mergeLoop
      rw [if_neg he]
      exact mergeLoop_filter es r m

/-- A record file has no regular store file of the same name. -/
def Missing (d : Dir) (e : List Char × FileEntry) : Prop :=
  FileStore.isRecordFile e = true ∧
    Dir.isRegularFile d (Dir.replaceExtension e.1 FileStore.storeExtension) = false

theorem mergeLoop_missing {d : Dir} : ∀ (es : List (List Char × FileEntry)) (r : OSet Block) (m : StoreMap)
    (o : Option (OSet Block × StoreMap)), mergeLoop d es r m = .ok o → (o = none ↔ ∃ e ∈ es, Missing d e)
  | [], r, m, o, h => by
    obtain rfl := Res.ok.inj h
    simp
  | e :: es, r, m, o, h => by
    unfold mergeLoop at h
    split at h
    · rename_i he
      simp only at h
      split at h
      · rename_i hreg
        obtain ⟨r', _, h⟩ := Res.bind_eq_ok.1 h
        obtain ⟨m', _, h⟩ := Res.bind_eq_ok.1 h
        rw [mergeLoop_missing es r' m' o h]
        constructor
        · rintro ⟨x, hx, h⟩
          exact ⟨x, by simp [hx], h⟩
        · rintro ⟨x, hx, hmiss⟩
          rcases List.mem_cons.1 hx with rfl | hx
          · exact absurd (hreg.symm.trans hmiss.2) (by simp)
          · exact ⟨x, hx, hmiss⟩
      · rename_i hreg
        obtain rfl := Res.ok.inj h
        simp only [true_iff]
        exact ⟨e, by simp, he, by simpa using hreg⟩
    · rename_i he
      rw [mergeLoop_missing es r m o h]
      constructor
      · rintro ⟨x, hx, h⟩
        exact ⟨x, by simp [hx], h⟩
      · rintro ⟨x, hx, h⟩
        rcases List.mem_cons.1 hx with rfl | hx
        · exact absurd h.1 he
        · exact ⟨x, hx, h⟩

end Merger

/-! ### The record of a directory -/

theorem initialRecord_holds {d : Dir} {ps : List (OSet Block × StoreMap)} (h : d.Holds ps) :
    ∃ r, FileStore.initialRecord d = .ok r ∧ IsUnion ps r := by
  have key : ∀ (es : List (List Char × FileEntry)) (ps qs : List (OSet Block × StoreMap)) (r : OSet Block),
      (∀ e ∈ es, e ∈ d) →
      List.Forall₂ (fun e p => e.2 = .file (Record.print p.1) ∧
        (Dir.replaceExtension e.1 FileStore.storeExtension, FileEntry.file (Store.print p.2)) ∈ d)
        (es.filter FileStore.isRecordFile) ps →
      (∀ p ∈ ps, PairOk p) → IsUnion qs r →
      ∃ r', es.foldlM (FileStore.readRecord d) r = .ok r' ∧ IsUnion (qs ++ ps) r' := by
    intro es
    induction es with
    | nil =>
      intro ps qs r _ hf _ hr
      cases hf
      exact ⟨r, rfl, by rwa [List.append_nil]⟩
    | cons e es ih =>
      intro ps qs r hes hf hps hr
      rw [List.foldlM_cons]
      unfold FileStore.readRecord
      by_cases he : FileStore.isRecordFile e = true
      · rw [if_pos he]
        rw [List.filter_cons_of_pos he] at hf
        cases hf with
        | @cons _ p _ ps h1 h2 =>
          obtain ⟨r', h3, h4⟩ := hr.extract (hps p (by simp))
          have ho : Dir.openIn d e.1 = IStream.ofList (Record.print p.1) := by
            unfold Dir.openIn
            rw [Dir.lookup_of_mem h.names (hes e (by simp)), h1.1]
          rw [ho, h3, Res.bind_ok]
          obtain ⟨r2, h7, h8⟩ := ih ps (qs ++ [p]) r' (fun e he => hes e (by simp [he])) h2
            (fun p hp => hps p (by simp [hp])) h4
          rw [List.append_assoc, List.singleton_append] at h8
          exact ⟨r2, h7, h8⟩
      · rw [if_neg he, Res.bind_ok]
        rw [List.filter_cons_of_neg he] at hf
        exact ih ps qs r (fun e he => hes e (by simp [he])) hf hps hr
  obtain ⟨r, h1, h2⟩ := key d ps [] [] (fun e he => he) h.files h.pairs
    ⟨List.Pairwise.nil, by simp, by simp⟩
  exact ⟨r, h1, h2⟩

end Hycu
