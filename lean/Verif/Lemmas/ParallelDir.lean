import Verif.Lemmas.Damage

/-!
Directories to which several runs add files.
-/

namespace Hycu
namespace Parallel

open Run (recorded recorded_append)

/-- The record files among the entries `es` have the contents of the records in `ps`, and the stores are in `d`. -/
def Pairs (d es : Dir) (ps : List (OSet Block × StoreMap)) : Prop :=
  List.Forall₂ (fun e p => e.2 = .file (Record.print p.1) ∧
    (Dir.replaceExtension e.1 FileStore.storeExtension, FileEntry.file (Store.print p.2)) ∈ d)
    (es.filter FileStore.isRecordFile) ps

/-- None of the new entries has the name of a record of the directory, or of its store. -/
def Apart (d es : Dir) : Prop := ∀ f ∈ es, ∀ e ∈ d, FileStore.isRecordFile e = true →
  f.1 ≠ e.1 ∧ f.1 ≠ Dir.replaceExtension e.1 FileStore.storeExtension

theorem Pairs.mono {d d' es : Dir} {ps : List (OSet Block × StoreMap)} (h : Pairs d es ps) (hs : ∀ e ∈ d, e ∈ d') :
    Pairs d' es ps := List.Forall₂.imp (fun _ _ hq => ⟨hq.1, hs _ hq.2⟩) h

theorem Pairs.append {d es es' : Dir} {ps ps' : List (OSet Block × StoreMap)} (h : Pairs d es ps) (h' : Pairs d es' ps') :
    Pairs d (es ++ es') (ps ++ ps') := by
  unfold Pairs
  rw [List.filter_append]
  exact List.rel_append h h'

theorem Pairs.flatMap {ι : Type} {d : Dir} {es : ι → Dir} {ps : ι → List (OSet Block × StoreMap)} (l : List ι)
    (h : ∀ i ∈ l, Pairs d (es i) (ps i)) : Pairs d (l.flatMap es) (l.flatMap ps) := by
  induction l with
  | nil => exact .nil
  | cons i l ih =>
    rw [List.flatMap_cons, List.flatMap_cons]
    exact (h i (by simp)).append (ih fun j hj => h j (by simp [hj]))

theorem Pairs.perm {d es es' : Dir} {ps : List (OSet Block × StoreMap)} (h : Pairs d es ps) (hp : es'.Perm es) :
    ∃ ps', Pairs d es' ps' ∧ ps'.Perm ps :=
  List.perm_comp_forall₂ (hp.filter _) h

/-- What a run has added. -/
theorem grows_new {g₀ g : Dir} {sv : List (OSet Block × StoreMap)} (h : g₀.Grows g sv) :
    ∃ es, g = g₀ ++ es ∧ Pairs es es sv ∧ Apart g₀ es := by
  induction h with
  | start => exact ⟨[], by simp, .nil, by simp [Apart]⟩
  | store d ps id c _ hid ih =>
    obtain ⟨es, rfl, h2, h3⟩ := ih
    refine ⟨es ++ [(FileStore.storeName id, .file c)], by simp, ?_, ?_⟩
    · have := (h2.mono (d' := es ++ [(FileStore.storeName id, .file c)]) fun e he => List.mem_append_left _ he).append
        (es' := [(FileStore.storeName id, .file c)]) (ps' := []) (by
          unfold Pairs
          rw [List.filter_cons_of_neg (by simp [isRecordFile_store])]
          exact .nil)
      rwa [List.append_nil] at this
    · intro f hf e he hr
      rcases List.mem_append.1 hf with hf | hf
      · exact h3 f hf e he hr
      · rw [List.mem_singleton.1 hf]
        have := hid.ne (List.mem_append_left _ he) hr
        exact ⟨this.1, this.2.2.1⟩
  | pair d ps id p _ hid hp ih =>
    obtain ⟨es, rfl, h2, h3⟩ := ih
    refine ⟨es ++ [(FileStore.storeName id, .file (Store.print p.2)), (FileStore.recordName id, .file (Record.print p.1))],
      by simp, ?_, ?_⟩
    · refine (h2.mono fun e he => List.mem_append_left _ he).append ?_
      unfold Pairs
      rw [List.filter_cons_of_neg (by simp [isRecordFile_store]), List.filter_cons_of_pos (isRecordFile_record _ _),
        List.filter_nil]
      refine .cons ⟨rfl, ?_⟩ .nil
      rw [replace_recordName]
      simp
    · intro f hf e he hr
      rcases List.mem_append.1 hf with hf | hf
      · exact h3 f hf e he hr
      · have := hid.ne (List.mem_append_left _ he) hr
        rcases (by simpa using hf : f = _ ∨ f = _) with rfl | rfl
        · exact ⟨this.1, this.2.2.1⟩
        · exact ⟨this.2.1, this.2.2.2⟩

theorem Apart.lookup {d es : Dir} (h : Apart d es) {e : List Char × FileEntry} (he : e ∈ d)
    (hr : FileStore.isRecordFile e = true) : Dir.lookup (d ++ es) e.1 = Dir.lookup d e.1 ∧
      Dir.lookup (d ++ es) (Dir.replaceExtension e.1 FileStore.storeExtension) =
        Dir.lookup d (Dir.replaceExtension e.1 FileStore.storeExtension) := by
  have key : ∀ n, (∀ f ∈ es, f.1 ≠ n) → Dir.lookup (d ++ es) n = Dir.lookup d n := by
    intro n hn
    rw [Dir.lookup_append, (Dir.lookup_eq_none (d := es)).2]
    · cases Dir.lookup d n <;> rfl
    · intro hm
      obtain ⟨x, hx, h1⟩ := List.mem_map.1 hm
      exact hn x hx h1
  exact ⟨key _ fun f hf => (h f hf e he hr).1, key _ fun f hf => (h f hf e he hr).2⟩

theorem initialRecord_append {d es : Dir} (h : ∀ e ∈ d, FileStore.isRecordFile e = true →
    Dir.lookup (d ++ es) e.1 = Dir.lookup d e.1) : FileStore.initialRecord (d ++ es) =
    (FileStore.initialRecord d).bind fun r => es.foldlM (FileStore.readRecord (d ++ es)) r := by
  have key : ∀ (xs : List (List Char × FileEntry)) (r : OSet Block), (∀ e ∈ xs, e ∈ d) →
      xs.foldlM (FileStore.readRecord (d ++ es)) r = xs.foldlM (FileStore.readRecord d) r := by
    intro xs
    induction xs with
    | nil => intro r _; rfl
    | cons e xs ih =>
      intro r hes
      rw [List.foldlM_cons, List.foldlM_cons]
      have : FileStore.readRecord (d ++ es) r e = FileStore.readRecord d r e := by
        unfold FileStore.readRecord
        split
        · rename_i hr
          unfold Dir.openIn
          rw [h e (hes e (by simp)) hr]
        · rfl
      rw [this]
      congr 1
      funext r'
      exact ih r' fun x hx => hes x (by simp [hx])
  unfold FileStore.initialRecord
  rw [List.foldlM_append, key d [] fun e he => he]
  rfl

theorem mergeLoop_split {d es : Dir} (h : Apart d es) : Merger.mergeLoop (d ++ es) (d ++ es) [] [] =
    (Merger.mergeLoop d d [] []).bind (Merger.resume (d ++ es) es) := by
  rw [Merger.mergeLoop_append, Merger.mergeLoop_congr (d' := d)]
  intro e he hr
  exact h.lookup he hr

theorem readRecords_pairs {d : Dir} (hn : d.NamesDiffer) : ∀ (es : Dir) (ps : List (OSet Block × StoreMap)) (r : OSet Block),
    (∀ e ∈ es, e ∈ d) → Pairs d es ps → (∀ p ∈ ps, PairOk p) →
    es.foldlM (FileStore.readRecord d) r = .ok ((ps.flatMap fun p => (pairReads p).1).foldl OSet.insert r)
  | [], ps, r, _, hp, _ => by
    cases hp
    rfl
  | e :: es, ps, r, hes, hp, hok => by
    rw [List.foldlM_cons]
    by_cases he : FileStore.isRecordFile e = true
    · unfold Pairs at hp
      rw [List.filter_cons_of_pos he] at hp
      cases hp with
      | @cons _ p _ ps h1 h2 =>
        have h3 : FileStore.readRecord d r e = .ok ((pairReads p).1.foldl OSet.insert r) := by
          unfold FileStore.readRecord
          rw [if_pos he]
          unfold Dir.openIn
          rw [Dir.lookup_of_mem hn (hes e (by simp)), h1.1]
          exact Record.extract_pair r (hok p (by simp))
        rw [h3, Res.bind_ok, readRecords_pairs hn es ps _ (fun x hx => hes x (by simp [hx])) h2
          fun q hq => hok q (by simp [hq]), List.flatMap_cons, List.foldl_append]
    · unfold Pairs at hp
      rw [List.filter_cons_of_neg he] at hp
      have h3 : FileStore.readRecord d r e = .ok r := if_neg he
      rw [h3, Res.bind_ok]
      exact readRecords_pairs hn es ps r (fun x hx => hes x (by simp [hx])) hp hok

theorem mergeLoop_pairs {d : Dir} (hn : d.NamesDiffer) : ∀ (es : Dir) (ps : List (OSet Block × StoreMap)) (r : OSet Block)
    (m : StoreMap) (l : List (Key × Int)), Tally m l → (∀ e ∈ es, e ∈ d) → Pairs d es ps → (∀ p ∈ ps, PairOk p) →
    ∃ m', Merger.mergeLoop d es r m = .ok (some ((ps.flatMap fun p => (pairReads p).1).foldl OSet.insert r, m')) ∧
      Tally m' (l ++ ps.flatMap Prod.snd)
  | [], ps, r, m, l, ht, _, hp, _ => by
    cases hp
    exact ⟨m, rfl, by simpa using ht⟩
  | e :: es, ps, r, m, l, ht, hes, hp, hok => by
    by_cases he : FileStore.isRecordFile e = true
    · unfold Pairs at hp
      rw [List.filter_cons_of_pos he] at hp
      cases hp with
      | @cons _ p _ ps h1 h2 =>
        obtain ⟨m1, h3, h4⟩ := Store.addEntries_tally p.2 ht (hok p (by simp)).counts_small
        obtain ⟨m', h5, h6⟩ := mergeLoop_pairs hn es ps ((pairReads p).1.foldl OSet.insert r) m1 _ h4
          (fun x hx => hes x (by simp [hx])) h2 fun q hq => hok q (by simp [hq])
        refine ⟨m', ?_, ?_⟩
        · unfold Merger.mergeLoop
          rw [if_pos he]
          dsimp only
          have h7 := Dir.lookup_of_mem hn h1.2
          dsimp only at h7
          rw [if_pos (by unfold Dir.isRegularFile; rw [h7]; rfl)]
          unfold Dir.openIn
          rw [h7, Dir.lookup_of_mem hn (hes e (by simp)), h1.1]
          dsimp only
          rw [Record.extract_pair r (hok p (by simp)), Res.bind_ok, Store.extract_print m (hok p (by simp)).keys_fit, h3,
            Res.bind_ok, h5, List.flatMap_cons, List.foldl_append]
        · rw [List.flatMap_cons, ← List.append_assoc]
          exact h6
    · unfold Pairs at hp
      rw [List.filter_cons_of_neg he] at hp
      obtain ⟨m', h5, h6⟩ := mergeLoop_pairs hn es ps r m l ht (fun x hx => hes x (by simp [hx])) hp hok
      refine ⟨m', ?_, h6⟩
      unfold Merger.mergeLoop
      rw [if_neg he]
      exact h5

theorem extractLoop_mono : ∀ (fuel : Nat) (s : IStream) (r r' : OSet Block), Record.extractLoop fuel s r = .ok r' →
    ∀ b ∈ r, b ∈ r'
  | 0, _, _, _, h => by cases h
  | fuel + 1, s, r, r', h => by
    unfold Record.extractLoop at h
    split at h
    · cases h
      exact fun b hb => hb
    · obtain ⟨p, _, h2⟩ := Res.bind_eq_ok.1 h
      exact fun b hb => extractLoop_mono fuel _ _ _ h2 b (OSet.mem_insert.2 (Or.inr hb))

theorem readRecords_mono {d : Dir} : ∀ (es : List (List Char × FileEntry)) (r r' : OSet Block),
    es.foldlM (FileStore.readRecord d) r = .ok r' → ∀ b ∈ r, b ∈ r'
  | [], _, _, h => by
    cases h
    exact fun b hb => hb
  | e :: es, r, r', h => by
    rw [List.foldlM_cons] at h
    obtain ⟨r1, h1, h2⟩ := Res.bind_eq_ok.1 h
    intro b hb
    refine readRecords_mono es _ _ h2 b ?_
    unfold FileStore.readRecord at h1
    split at h1
    · exact extractLoop_mono _ _ _ _ h1 b hb
    · cases h1
      exact hb

/-- What is recorded stays recorded if files are added. -/
theorem initialRecord_prefix {d d' : Dir} (hn : d'.NamesDiffer) (hp : d <+: d') {r r' : OSet Block}
    (h : FileStore.initialRecord d = .ok r) (h' : FileStore.initialRecord d' = .ok r') : ∀ b ∈ r, b ∈ r' := by
  obtain ⟨es, rfl⟩ := hp
  have hd : d.NamesDiffer := by
    unfold Dir.NamesDiffer at hn
    rw [List.map_append, List.nodup_append] at hn
    exact hn.1
  rw [initialRecord_append fun e he _ => (Dir.lookup_of_mem hn (List.mem_append_left _ he)).trans
    (Dir.lookup_of_mem hd he).symm, h] at h'
  exact readRecords_mono es r r' h'

section

variable {d es : Dir} {ps : List (OSet Block × StoreMap)}

theorem initial_pairs (hn : (d ++ es).NamesDiffer) (ha : Apart d es) (hp : Pairs (d ++ es) es ps) (hok : ∀ p ∈ ps, PairOk p)
    {r₀ : OSet Block} (h0 : FileStore.initialRecord d = .ok r₀) :
    FileStore.initialRecord (d ++ es) = .ok ((ps.flatMap fun p => (pairReads p).1).foldl OSet.insert r₀) := by
  rw [initialRecord_append fun e he hr => (ha.lookup he hr).1, h0]
  exact readRecords_pairs hn es ps r₀ (fun e he => List.mem_append_right _ he) hp hok

theorem merge_pairs (hn : (d ++ es).NamesDiffer) (ha : Apart d es) (hp : Pairs (d ++ es) es ps) (hok : ∀ p ∈ ps, PairOk p)
    {r₀ : OSet Block} {m₀ : StoreMap} (h0 : Merger.mergeLoop d d [] [] = .ok (some (r₀, m₀))) :
    ∃ m, Merger.mergeLoop (d ++ es) (d ++ es) [] [] =
        .ok (some ((ps.flatMap fun p => (pairReads p).1).foldl OSet.insert r₀, m)) ∧
      Tally m (m₀ ++ ps.flatMap Prod.snd) := by
  rw [mergeLoop_split ha, h0]
  exact mergeLoop_pairs hn es ps r₀ m₀ m₀
    (Tally.self (Merger.mergeLoop_sorted _ _ _ _ _ List.Pairwise.nil OMap.sorted_nil h0).2)
    (fun e he => List.mem_append_right _ he) hp hok

theorem merge_stuck (ha : Apart d es) (h0 : ∀ x, Merger.mergeLoop d d [] [] ≠ .ok (some x)) :
    Merger.mergeLoop (d ++ es) (d ++ es) [] [] = Merger.mergeLoop d d [] [] := by
  rw [mergeLoop_split ha]
  cases h1 : Merger.mergeLoop d d [] [] with
  | ok o =>
    cases o with
    | none => rfl
    | some x => exact absurd h1 (h0 x)
  | _ => rfl

end

end Parallel
end Hycu
