import Verif.Lemmas.RunStops
import Verif.Props.Resume
import Verif.Spec.Live

/-!
Merging while runs go on.
-/

namespace Hycu
namespace Live

open Run (Env Sect program Input Kept Sound Plain Layout exactly HoldingIn recorded mem_write)
open Merger (storeFor LiveStep)

variable {env : Env} {result : ConfigNode → Block → StoreMap} {ss : List Sect} {s : Sect} {d d' : Dir}

/-- The name of a record file. -/
def IsRec (n : List Char) : Prop := Dir.extension n = FileStore.recordExtension

/-- The record file `n` and its store contain a pair of the section. -/
structure Paired (result : ConfigNode → Block → StoreMap) (s : Sect) (d : Dir) (n : List Char)
    (p : OSet Block × StoreMap) : Prop where
  ext : IsRec n
  record : (n, FileEntry.file (Record.print p.1)) ∈ d
  store : (storeFor n, FileEntry.file (Store.print p.2)) ∈ d
  ok : PairOk p
  tally : Match (result s.cfg) p.1 p.2
  blocks : ∀ b ∈ p.1, b ∈ s.blocks

/-- A directory in which records and stores match. -/
def Fine (result : ConfigNode → Block → StoreMap) (s : Sect) (d : Dir) : Prop :=
  ∃ ps, Plain d ∧ d.Holds ps ∧ Sound result s ps

/-- Pairs of files stay as they are. -/
def Keeps (d d' : Dir) : Prop := ∀ n c c', IsRec n → (n, FileEntry.file c) ∈ d → (storeFor n, FileEntry.file c') ∈ d →
  (n, FileEntry.file c) ∈ d' ∧ (storeFor n, FileEntry.file c') ∈ d'

theorem Keeps.refl (d : Dir) : Keeps d d := fun _ _ _ _ h h' => ⟨h, h'⟩

theorem Keeps.trans {d'' : Dir} (h : Keeps d d') (h' : Keeps d' d'') : Keeps d d'' := fun n c c' hn h1 h2 =>
  h' n c c' hn (h n c c' hn h1 h2).1 (h n c c' hn h1 h2).2

theorem Paired.keeps {n : List Char} {p : OSet Block × StoreMap} (h : Paired result s d n p) (hk : Keeps d d') :
    Paired result s d' n p :=
  ⟨h.ext, (hk _ _ _ h.ext h.record h.store).1, (hk _ _ _ h.ext h.record h.store).2, h.ok, h.tally, h.blocks⟩

/-- The names of the record files, with the pairs. -/
theorem Fine.pairs (h : Fine result s d) : ∃ l : List (List Char × (OSet Block × StoreMap)), (l.map Prod.fst).Nodup ∧
    (∀ x ∈ l, Paired result s d x.1 x.2) ∧ (∀ e ∈ d, IsRec e.1 → e.1 ∈ l.map Prod.fst) ∧
    (l.flatMap fun x => x.2.1).Subperm s.blocks ∧ d.Holds (l.map Prod.snd) := by
  obtain ⟨ps, hp, hh, hs⟩ := h
  have hlen := hh.files.length_eq
  refine ⟨((d.filter FileStore.isRecordFile).map Prod.fst).zip ps, ?_, ?_, ?_, ?_,
    by rw [List.map_snd_zip (by rw [List.length_map, hlen])]; exact hh⟩
  · rw [List.map_fst_zip (by rw [List.length_map, hlen])]
    exact (List.filter_sublist.map _).nodup hh.names
  · intro x hx
    rw [List.zip_map_left] at hx
    obtain ⟨⟨e, p⟩, hz, rfl⟩ := List.mem_map.1 hx
    have he : e ∈ d.filter FileStore.isRecordFile := (List.of_mem_zip hz).1
    have hpp : p ∈ ps := (List.of_mem_zip hz).2
    have h1 := (List.forall₂_iff_zip.1 hh.files).2 hz
    obtain ⟨h2, h3⟩ := List.mem_filter.1 he
    unfold FileStore.isRecordFile at h3
    simp only [Bool.and_eq_true, decide_eq_true_eq] at h3
    refine ⟨h3.2, ?_, h1.2, hh.pairs p hpp, hs.tally p hpp, fun b hb => hs.once.subset ?_⟩
    · show (e.1, FileEntry.file (Record.print p.1)) ∈ d
      rw [← h1.1]
      exact h2
    · exact List.mem_flatMap.2 ⟨p, hpp, hb⟩
  · intro e he hr
    rw [List.map_fst_zip (by rw [List.length_map, hlen])]
    refine List.mem_map.2 ⟨e, List.mem_filter.2 ⟨he, ?_⟩, rfl⟩
    unfold FileStore.isRecordFile
    simp only [Bool.and_eq_true, decide_eq_true_eq]
    exact ⟨hp e he (Or.inl ⟨_, Dir.eq_of_extension hr⟩), hr⟩
  · have h1 : (((d.filter FileStore.isRecordFile).map Prod.fst).zip ps).map Prod.snd = ps :=
      List.map_snd_zip (by rw [List.length_map, hlen])
    have h2 : (((d.filter FileStore.isRecordFile).map Prod.fst).zip ps).flatMap (fun x => x.2.1) = recorded ps := by
      conv_rhs => rw [← h1]
      unfold recorded
      rw [List.flatMap_map]
    rw [h2]
    exact hs.once

/-- The content of files determines the pair. -/
theorem Paired.unique (hn : d.NamesDiffer) (hb : [] ∉ s.blocks) {n : List Char} {p q : OSet Block × StoreMap}
    (h : Paired result s d n p) (h' : Paired result s d n q) : p = q := by
  have h1 := Dir.lookup_of_mem hn h.record
  rw [Dir.lookup_of_mem hn h'.record] at h1
  have h2 : Record.print q.1 = Record.print p.1 := by
    injection h1 with h1
    injection h1
  obtain ⟨r, h3, h4⟩ := IsUnion.extract (ps := []) (r := []) ⟨List.Pairwise.nil, by simp, by simp⟩ h.ok
  obtain ⟨r', h5, h6⟩ := IsUnion.extract (ps := []) (r := []) ⟨List.Pairwise.nil, by simp, by simp⟩ h'.ok
  rw [h2, h3] at h5
  cases h5
  have h7 : p.1 = q.1 := by
    refine OSet.ext_mem h.ok.record_sorted h'.ok.record_sorted fun b => ?_
    by_cases hb0 : b = []
    · subst hb0
      exact ⟨fun hx => absurd (h.blocks _ hx) hb, fun hx => absurd (h'.blocks _ hx) hb⟩
    · have h8 := h4.mem b hb0
      rw [h6.mem b hb0] at h8
      simpa using h8.symm
  have h8 : p.2 = q.2 := h.tally.tally.unique h'.tally.tally (by rw [h7])
  exact Prod.ext h7 h8

/-- Pairs of files with different names have different blocks. -/
theorem Fine.once (h : Fine result s d) (hb : [] ∉ s.blocks) {l : List (List Char × (OSet Block × StoreMap))}
    (hn : (l.map Prod.fst).Nodup) (hl : ∀ x ∈ l, Paired result s d x.1 x.2) :
    (l.flatMap fun x => x.2.1).Subperm s.blocks := by
  obtain ⟨l', h1, h2, h3, h4, h5⟩ := h.pairs
  have hsub : l ⊆ l' := by
    intro x hx
    obtain ⟨y, hy, hxy⟩ := List.mem_map.1 (h3 _ (hl x hx).record (hl x hx).ext)
    have hyx : x.2 = y.2 := (hl x hx).unique h5.names hb (by have := h2 y hy; rw [hxy] at this; exact this)
    have : x = y := Prod.ext hxy.symm hyx
    rw [this]
    exact hy
  obtain ⟨l'', h6, h7⟩ := List.subperm_of_subset hn.of_map hsub
  exact ((h6.flatMap_right _).symm.subperm.trans (h7.flatMap (fun x => x.2.1)).subperm).trans h4

/-- Where the merger is in its loop: `l` has been read. -/
structure Loop (result : ConfigNode → Block → StoreMap) (s : Sect) (d : Dir)
    (l₀ l : List (List Char × (OSet Block × StoreMap))) (files : List (List Char)) (r : OSet Block) (m : StoreMap) :
    Prop where
  nodup : (l.map Prod.fst ++ files).Nodup
  seen : ∀ x ∈ l, Paired result s d x.1 x.2
  todo : ∀ n ∈ files, IsRec n → ∃ p, Paired result s d n p
  all : ∀ x ∈ l₀, x.1 ∈ l.map Prod.fst ++ files
  union : IsUnion (l.map Prod.snd) r
  tally : Tally m ((l.map Prod.snd).flatMap Prod.snd)

/-- What is known about the merger. -/
def LiveInv (result : ConfigNode → Block → StoreMap) (s : Sect) (d : Dir)
    (l₀ : List (List Char × (OSet Block × StoreMap))) : Merger.Live → Prop
  | .opening => True
  | .listing there got => got.Nodup ∧ (∀ n ∈ got, IsRec n → ∃ p, Paired result s d n p) ∧ ∀ x ∈ l₀, x.1 ∈ there
  | .turn files r m => ∃ l, Loop result s d l₀ l files r m
  | .partner n files r m => IsRec n ∧ ∃ l, Loop result s d l₀ l (n :: files) r m
  | .readRecord n files r m => IsRec n ∧ ∃ l, Loop result s d l₀ l (n :: files) r m
  | .readStore n files r m => ∃ (l : List (List Char × (OSet Block × StoreMap))) (p : OSet Block × StoreMap),
      (l.map Prod.fst ++ n :: files).Nodup ∧ (∀ x ∈ l, Paired result s d x.1 x.2) ∧
      Paired result s d n p ∧ (∀ n ∈ files, IsRec n → ∃ p, Paired result s d n p) ∧
      (∀ x ∈ l₀, x.1 ∈ l.map Prod.fst ++ n :: files) ∧ IsUnion (l.map Prod.snd ++ [p]) r ∧
      Tally m ((l.map Prod.snd).flatMap Prod.snd)
  | .ready r m => ∃ l, Loop result s d l₀ l [] r m
  | .failed => False

theorem Loop.keeps {l₀ l : List (List Char × (OSet Block × StoreMap))} {files : List (List Char)} {r : OSet Block}
    {m : StoreMap} (h : Loop result s d l₀ l files r m) (hk : Keeps d d') : Loop result s d' l₀ l files r m :=
  ⟨h.nodup, fun x hx => (h.seen x hx).keeps hk, fun n hn hr => (h.todo n hn hr).imp fun _ hp => hp.keeps hk, h.all,
    h.union, h.tally⟩

theorem LiveInv.keeps {l₀ : List (List Char × (OSet Block × StoreMap))} {m : Merger.Live}
    (h : LiveInv result s d l₀ m) (hk : Keeps d d') : LiveInv result s d' l₀ m := by
  cases m with
  | opening => trivial
  | listing there got => exact ⟨h.1, fun n hn hr => (h.2.1 n hn hr).imp fun _ hp => hp.keeps hk, h.2.2⟩
  | turn files r m => exact h.imp fun _ hl => hl.keeps hk
  | partner n files r m => exact ⟨h.1, h.2.imp fun _ hl => hl.keeps hk⟩
  | readRecord n files r m => exact ⟨h.1, h.2.imp fun _ hl => hl.keeps hk⟩
  | readStore n files r m =>
    obtain ⟨l, p, h1, h2, h3, h4, h5⟩ := h
    exact ⟨l, p, h1, fun x hx => (h2 x hx).keeps hk, h3.keeps hk, fun n hn hr => (h4 n hn hr).imp fun _ hp => hp.keeps hk,
      h5⟩
  | ready r m => exact h.imp fun _ hl => hl.keeps hk
  | failed => exact h

theorem Paired.regular {n : List Char} {p : OSet Block × StoreMap} (h : Paired result s d n p) (hn : d.NamesDiffer) :
    Dir.isRegularFile d n = true ∧ Dir.isRegularFile d (storeFor n) = true ∧
      Dir.openIn d n = IStream.ofList (Record.print p.1) ∧
      Dir.openIn d (storeFor n) = IStream.ofList (Store.print p.2) := by
  have h1 := Dir.lookup_of_mem hn h.record
  have h2 := Dir.lookup_of_mem hn h.store
  simp only at h1 h2
  unfold Dir.isRegularFile Dir.openIn
  rw [h1, h2]
  exact ⟨rfl, rfl, rfl, rfl⟩

/-- Steps of the merger succeed. -/
theorem LiveInv.step {l₀ : List (List Char × (OSet Block × StoreMap))} {m : Merger.Live} {x : Res Merger.Live}
    (h : LiveInv result s d l₀ m) (hf : Fine result s d) (h0 : ∀ x ∈ l₀, Paired result s d x.1 x.2)
    (hs : LiveStep d m x) : ∃ m', x = .ok m' ∧ LiveInv result s d l₀ m' := by
  obtain ⟨lp, p1, p2, p3, _, hhold⟩ := hf.pairs
  have hn := hhold.names
  cases hs with
  | opening =>
    exact ⟨_, rfl, List.nodup_nil, by simp, fun x hx => List.mem_map.2 ⟨_, (h0 x hx).record, rfl⟩⟩
  | entry n hm hg =>
    refine ⟨_, rfl, ?_, fun k hk hr => ?_, h.2.2⟩
    · rw [List.nodup_append]
      exact ⟨h.1, List.nodup_singleton _, fun a ha b hb hab => hg (by rw [← List.mem_singleton.1 hb, ← hab]; exact ha)⟩
    · rcases List.mem_append.1 hk with hk | hk
      · exact h.2.1 k hk hr
      · rw [List.mem_singleton.1 hk] at hr ⊢
        obtain ⟨e, he, rfl⟩ := List.mem_map.1 hm
        obtain ⟨y, hy, hye⟩ := List.mem_map.1 (p3 e he hr)
        exact ⟨y.2, by rw [← hye]; exact p2 y hy⟩
  | listed hl =>
    exact ⟨_, rfl, [], h.1, by simp, h.2.1, fun x hx => hl _ (h.2.2 x hx), ⟨List.Pairwise.nil, by simp, by simp⟩, Tally.nil⟩
  | done => exact ⟨_, rfl, h⟩
  | @turn n ns r m =>
    obtain ⟨l, hl⟩ := h
    by_cases hr : IsRec n
    · obtain ⟨p, hp⟩ := hl.todo n List.mem_cons_self hr
      rw [if_pos (by simp [(hp.regular hn).1, show Dir.extension n = FileStore.recordExtension from hr])]
      exact ⟨_, rfl, hr, l, hl⟩
    · rw [if_neg (by simp [show ¬ Dir.extension n = FileStore.recordExtension from hr])]
      refine ⟨_, rfl, l, ?_, hl.seen, fun k hk => hl.todo k (List.mem_cons_of_mem _ hk), fun x hx => ?_, hl.union, hl.tally⟩
      · exact (List.Sublist.append_left (List.sublist_cons_self n ns) _).nodup hl.nodup
      · rcases List.mem_append.1 (hl.all x hx) with h1 | h1
        · exact List.mem_append_left _ h1
        · rcases List.mem_cons.1 h1 with h1 | h1
          · exact absurd (by rw [← h1]; exact (h0 x hx).ext) hr
          · exact List.mem_append_right _ h1
  | @partner n ns r m =>
    obtain ⟨hr, l, hl⟩ := h
    obtain ⟨p, hp⟩ := hl.todo n List.mem_cons_self hr
    rw [if_pos (hp.regular hn).2.1]
    exact ⟨_, rfl, hr, l, hl⟩
  | @readRecord n ns r m =>
    obtain ⟨hr, l, hl⟩ := h
    obtain ⟨p, hp⟩ := hl.todo n List.mem_cons_self hr
    obtain ⟨r', h1, h2⟩ := hl.union.extract hp.ok
    rw [(hp.regular hn).2.2.1, h1]
    exact ⟨_, rfl, l, p, hl.nodup, hl.seen, hp, fun k hk => hl.todo k (List.mem_cons_of_mem _ hk), hl.all, h2, hl.tally⟩
  | @readStore n ns r m =>
    obtain ⟨l, p, h1, h2, hp, h4, h5, h6, h7⟩ := h
    obtain ⟨m', h8, h9⟩ := Store.addEntries_tally p.2 h7 hp.ok.counts_small
    rw [(hp.regular hn).2.2.2, Store.extract_print m hp.ok.keys_fit, h8]
    refine ⟨_, rfl, l ++ [(n, p)], ?_, ?_, h4, ?_, ?_, ?_⟩
    · rw [List.map_append, List.append_assoc]
      exact h1
    · intro x hx
      rcases List.mem_append.1 hx with hx | hx
      · exact h2 x hx
      · rw [List.mem_singleton.1 hx]
        exact hp
    · intro x hx
      rw [List.map_append, List.append_assoc]
      exact h5 x hx
    · rw [List.map_append]
      exact h6
    · rw [List.map_append, List.flatMap_append, List.map_singleton, List.flatMap_singleton]
      exact h9

/-- The result. -/
theorem LiveInv.ready {l₀ : List (List Char × (OSet Block × StoreMap))} {r : OSet Block} {m : StoreMap}
    (h : LiveInv result s d l₀ (.ready r m)) (hf : Fine result s d) (hb : [] ∉ s.blocks)
    (h0 : ∀ x ∈ l₀, Paired result s d x.1 x.2) :
    ∃ bs : List Block, bs.Subperm s.blocks ∧ Tally m (bs.flatMap (result s.cfg)) ∧ (∀ b, b ≠ [] → (b ∈ r ↔ b ∈ bs)) ∧
      ∀ x ∈ l₀, ∀ b ∈ x.2.1, b ∈ bs := by
  obtain ⟨l, hl⟩ := h
  have hn := hl.nodup
  rw [List.append_nil] at hn
  have hre : recorded (l.map Prod.snd) = l.flatMap fun x => x.2.1 := by
    unfold recorded
    rw [List.flatMap_map]
  refine ⟨recorded (l.map Prod.snd), by rw [hre]; exact hf.once hb hn hl.seen, ?_, fun b hb => ?_, fun x hx b hbx => ?_⟩
  · exact Run.tally_sections (s := ⟨s.cfg, recorded (l.map Prod.snd)⟩) (fun p hp => by
      obtain ⟨x, hx, rfl⟩ := List.mem_map.1 hp
      exact (hl.seen x hx).tally) (List.Perm.refl _) hl.tally
  · rw [hl.union.mem b hb]
    unfold recorded
    rw [List.mem_flatMap]
  · have h1 := hl.all x hx
    rw [List.append_nil] at h1
    obtain ⟨y, hy, hyx⟩ := List.mem_map.1 h1
    obtain ⟨_, _, _, _, _, hnd⟩ := hf.pairs
    have h2 := hl.seen y hy
    rw [hyx] at h2
    rw [hre, List.mem_flatMap]
    exact ⟨y, hy, by rw [← (h0 x hx).unique hnd.names hb h2]; exact hbx⟩

/-! ### The runs -/

theorem mem_write_of_ne {n c : List Char} {e : List Char × FileEntry} (h : e ∈ d) (hn : e.1 ≠ n) : e ∈ d.write n c := by
  induction d with
  | nil => cases h
  | cons x d ih =>
    obtain ⟨k, y⟩ := x
    unfold Dir.write
    rcases List.mem_cons.1 h with rfl | hd
    · rw [if_neg hn]
      exact List.mem_cons_self
    · split
      · split
        · exact List.mem_cons_of_mem _ hd
        · exact List.mem_cons_of_mem _ hd
      · exact List.mem_cons_of_mem _ (ih hd)

theorem storeFor_inj {n : List Char} {id : Nat} (h : IsRec n) (hn : storeFor n = FileStore.storeName id) :
    n = FileStore.recordName id := by
  obtain ⟨t, ht⟩ : ∃ t, n = t ++ FileStore.recordExtension := ⟨_, Dir.eq_of_extension h⟩
  subst ht
  unfold storeFor at hn
  rw [Dir.replace_record] at hn
  rw [List.append_cancel_right hn]
  rfl

/-- The next file that is written is not one of a pair. -/
theorem Holding.other {n c : List Char} {ws : List (List Char × List Char)} {ps w : List (OSet Block × StoreMap)}
    {L : Layout} {s : Sect} (h : HoldingIn L s d ((n, c) :: ws) ps w) : ∀ e ∈ d, IsRec e.1 → e.1 ≠ n ∧ storeFor e.1 ≠ n := by
  have hst : ∀ id, ¬ IsRec (FileStore.storeName id) := fun id hr => by
    unfold IsRec FileStore.storeName at hr
    rw [Dir.extension_store] at hr
    exact absurd hr (by decide)
  have hfor : ∀ m id, IsRec m → storeFor m ≠ FileStore.recordName id := by
    intro m id hm hid
    have h1 : Dir.extension (storeFor m) = FileStore.recordExtension := by rw [hid]; exact Dir.extension_record _
    rw [Dir.eq_of_extension hm] at h1
    unfold storeFor at h1
    rw [Dir.replace_record] at h1
    rw [Dir.extension_store] at h1
    exact absurd h1 (by decide)
  generalize hws : (n, c) :: ws = l at h
  cases h with
  | idle d ps h => cases hws
  | two d ps id p h ha hp =>
    cases hws
    intro e he hr
    exact ⟨fun hn => hst id (hn ▸ hr), fun hn => (ha e he).1 (storeFor_inj hr hn)⟩
  | one d ps id p h ha hp =>
    cases hws
    intro e he hr
    refine ⟨?_, hfor _ _ hr⟩
    rcases mem_write he with rfl | he
    · exact absurd hr (hst id)
    · exact (ha e he).1

theorem Holding.keeps {n c : List Char} {ws : List (List Char × List Char)} {ps w : List (OSet Block × StoreMap)}
    {L : Layout} {s : Sect} (h : HoldingIn L s d ((n, c) :: ws) ps w) (part : List Char) : Keeps d (d.write n part) := by
  intro m x y hm h1 h2
  obtain ⟨h3, h4⟩ := Holding.other h _ h1 hm
  exact ⟨mem_write_of_ne h1 h3, mem_write_of_ne h2 h4⟩

theorem Holding.back {n c : List Char} {ws : List (List Char × List Char)} {ps w : List (OSet Block × StoreMap)}
    {L : Layout} {s : Sect} (h : HoldingIn L s d ((n, c) :: ws) ps w) (hn : ¬ ∃ s, n = s ++ ".hycu_record".toList) (part : List Char) :
    Keeps (d.write n part) d := by
  intro m x y hm h1 h2
  have h3 : (m, FileEntry.file x) ∈ d := by
    rcases mem_write h1 with h | h
    · cases h
      exact absurd ⟨_, Dir.eq_of_extension hm⟩ hn
    · exact h
  refine ⟨h3, ?_⟩
  rcases mem_write h2 with h4 | h4
  · exact absurd (by cases h4; rfl) (Holding.other h _ h3 hm).2
  · exact h4

theorem Holding.keeps_crash {ws : List (List Char × List Char)} {ps w : List (OSet Block × StoreMap)}
    {L : Layout} {s : Sect} (h : HoldingIn L s d ws ps w) (hc : Dir.Crash ws d d') : Keeps d d' := by
  induction hc generalizing ps w with
  | stop ws d => exact .refl d
  | inside n c part ws d hp hn => exact Holding.keeps h part
  | step n c ws d d' _ ih =>
    obtain ⟨ps', w', h1, _⟩ := h.write
    exact (Holding.keeps h c).trans (ih h1)

/-- Runs that are possible. -/
def Sane (env : Env) (result : ConfigNode → Block → StoreMap) (ss : List Sect) : Now → Prop
  | .threaded st => ∃ kinds fs, kinds.length < 4294967296 ∧ (∀ s ∈ ss, Kept result fs s) ∧
      Run.Reachable env (Run.initial kinds fs (program ss)) st
  | .mpi st => ∃ kinds fs, kinds ≠ [] ∧ (∀ k ∈ kinds, k.length < 4294967296) ∧ (∀ s ∈ ss, Kept result fs s) ∧
      Mpi.Reachable env (Mpi.initial kinds fs (program ss)) st

theorem Sane.start {w : Now} {fs : FileSystem} (h : ∀ s ∈ ss, Kept result fs s) (hs : Starts ss fs w) :
    Sane env result ss w := by
  cases hs with
  | threaded kinds hk => exact ⟨kinds, fs, hk, h, .refl⟩
  | mpi kinds h0 hk => exact ⟨kinds, fs, h0, hk, h, .refl⟩

theorem Sane.leaves {w : Now} {fs : FileSystem} (h : Sane env result ss w) (hi : Input env ss result)
    (hl : w.Leaves fs) : ∀ s ∈ ss, Kept result fs s := by
  cases w with
  | threaded st =>
    obtain ⟨kinds, fs₀, hk, h1, h2⟩ := h
    exact (Run.DataInv.reachable hi hk h1 h2).dies hi ((Run.Good.init env hk fs₀ hi.blocks).reachable h2) hl
  | mpi st =>
    obtain ⟨kinds, fs₀, h0, hk, h1, h2⟩ := h
    exact (Mpi.DataInv.reachable hi h0 hk h1 h2).dies hi hl

theorem Sane.next {w w' : Now} (h : Sane env result ss w) (hi : Input env ss result) (hn : Next env ss w w') :
    Sane env result ss w' := by
  cases hn with
  | threaded l hs =>
    obtain ⟨kinds, fs₀, hk, h1, h2⟩ := h
    exact ⟨kinds, fs₀, hk, h1, .step l h2 hs⟩
  | mpi l hs =>
    obtain ⟨kinds, fs₀, h0, hk, h1, h2⟩ := h
    exact ⟨kinds, fs₀, h0, hk, h1, .step l h2 hs⟩
  | again hl hs => exact .start (h.leaves hi hl) hs

theorem Ongoing.sane {w : Now} (hi : Input env ss result) (h : Ongoing env ss w) : Sane env result ss w := by
  induction h with
  | start h hs => exact .start (Run.Past.kept (env := env) hi (.start _ h)) hs
  | next _ hn ih => exact ih.next hi hn

theorem leaves_refl (w : Now) : w.Leaves w.fs := by
  cases w with
  | threaded st => exact Run.Dies.between
  | mpi st => exact Mpi.Dies.between

/-- The files of two situations. -/
def KeepsAll (ss : List Sect) (fs fs' : FileSystem) : Prop := ∀ s ∈ ss, ∀ d, fs s.cfg.resultPath = some d →
  ∃ d', fs' s.cfg.resultPath = some d' ∧ Keeps d d'

theorem KeepsAll.refl (fs : FileSystem) : KeepsAll ss fs fs := fun _ _ d hd => ⟨d, hd, .refl d⟩

theorem KeepsAll.set {fs : FileSystem} {p : List Char} (hd : fs p = some d) (hk : Keeps d d') :
    KeepsAll ss fs (fs.set p d') := by
  intro s _ e he
  by_cases hp : s.cfg.resultPath = p
  · rw [hp, hd] at he
    cases he
    exact ⟨d', by simp [FileSystem.set, hp], hk⟩
  · exact ⟨e, by simp [FileSystem.set, hp, he], .refl e⟩

theorem KeepsAll.back {fs : FileSystem} {p : List Char} (hd : fs p = some d) (hk : Keeps d' d) :
    KeepsAll ss (fs.set p d') fs := by
  intro s _ e he
  by_cases hp : s.cfg.resultPath = p
  · simp only [FileSystem.set, hp, if_true] at he
    cases he
    exact ⟨d, by rw [hp]; exact hd, hk⟩
  · simp only [FileSystem.set, hp, if_false] at he
    exact ⟨e, he, .refl e⟩

/-- The files that are about to be written. -/
theorem run_holding {st : Run.State} (h : Sane env result ss (.threaded st)) (hi : Input env ss result)
    {ws : List (List Char × List Char)} {k : Run.Cont} (hpc : st.pc = .write ws k) {f : Run.FileStoreObj}
    (hf : st.fileStore = some f) (hd : st.fs f.config.resultPath = some d) : ∃ s ps w, HoldingIn exactly s d ws ps w := by
  obtain ⟨kinds, fs₀, hk, h1, h2⟩ := h
  obtain ⟨pre, s, post, done, rs, tb, ha, a1, d', ps, w, ps₀, sv, hc, hcfg, hv, hini⟩ :=
    (Run.DataInv.reachable hi hk h1 h2).current ((Run.Good.init env hk fs₀ hi.blocks).reachable h2) hf
      (by rw [hpc]; simp)
  have hdir := hc.dir
  rw [← hcfg, hd] at hdir
  cases hdir
  have hh := hc.holding
  rw [hpc] at hh
  exact ⟨s, ps, w, hh⟩

theorem mpi_holding {st : Mpi.State} (h : Sane env result ss (.mpi st)) (hi : Input env ss result)
    {ws : List (List Char × List Char)} {ix : Nat} {k : Run.Cont} (hpc : st.pc = .write ws ix k) {f : Run.FileStoreObj}
    (hf : st.fileStore = some f) (hd : st.fs f.config.resultPath = some d) : ∃ s ps w, HoldingIn exactly s d ws ps w := by
  obtain ⟨kinds, fs₀, h0, hk, h1, h2⟩ := h
  obtain ⟨pre, s, post, done, rs, ha, a1, d', ps, w, ps₀, sv, sr, hc, hcfg, hv, hini⟩ :=
    (Mpi.DataInv.reachable hi h0 hk h1 h2).current hf (by rw [hpc]; rfl)
  have hdir := hc.dir
  rw [← hcfg, hd] at hdir
  cases hdir
  have hh := hc.holding
  rw [hpc] at hh
  exact ⟨s, ps, w, hh⟩

theorem Sane.keeps_leaves {w : Now} {fs : FileSystem} (h : Sane env result ss w) (hi : Input env ss result)
    (hl : w.Leaves fs) : KeepsAll ss w.fs fs := by
  cases w with
  | threaded st =>
    cases hl with
    | between => exact .refl _
    | inside ws k f d d' hpc hf hd hc =>
      obtain ⟨_, ps, w, hh⟩ := run_holding h hi hpc hf hd
      exact .set hd (Holding.keeps_crash hh hc)
  | mpi st =>
    cases hl with
    | between => exact .refl _
    | inside ws ix k f d d' hpc hf hd hc =>
      obtain ⟨_, ps, w, hh⟩ := mpi_holding h hi hpc hf hd
      exact .set hd (Holding.keeps_crash hh hc)

theorem KeepsAll.verify {c : ConfigNode} {fs : FileSystem} {create : Bool} {v : FileSystem × Bool}
    (h : c.verify fs (.ok create) = .ok v) : KeepsAll ss fs v.1 := fun _ _ d hd =>
  ⟨d, (Run.verify_fs h).1 _ _ hd, .refl d⟩

theorem Sane.keeps_threaded {st st' : Run.State} (h : Sane env result ss (.threaded st)) (hi : Input env ss result)
    {l : Run.Label} (hs : Run.step env st l = .ok (some st')) : KeepsAll ss st.fs st'.fs := by
  have ht := Run.step_trans hs
  generalize l.actor = a at ht
  cases ht with
  | mainConfig hpc c rest ht create v hv => exact .verify hv
  | write k n c ws hpc f hf d hdir =>
    obtain ⟨_, ps, w, hh⟩ := run_holding h hi hpc hf hdir
    exact .set hdir (Holding.keeps hh c)
  | fillReady hpc =>
    show KeepsAll ss st.fs (Run.fillReadyStep st).fs
    simp only [Run.fillReadyStep]
    exact .refl _
  | notify i b hpc =>
    show KeepsAll ss st.fs (Run.wake st i).fs
    rw [Run.wake_fs]
    exact .refl _
  | shutNotify i hpc =>
    show KeepsAll ss st.fs (Run.wake st i).fs
    rw [Run.wake_fs]
    exact .refl _
  | _ => exact .refl _

theorem Sane.keeps_mpi {st st' : Mpi.State} (h : Sane env result ss (.mpi st)) (hi : Input env ss result)
    {l : Mpi.Label} (hs : Mpi.step env st l = .ok (some st')) : KeepsAll ss st.fs st'.fs := by
  by_cases hl : ∃ ch, l = .master ch
  · obtain ⟨ch, rfl⟩ := hl
    have ht := Mpi.masterStep_cases hs
    cases ht with
    | mainConfig hpc c rest ht create v hv => exact .verify hv
    | write ix k n c ws hpc f hf d hdir =>
      obtain ⟨_, ps, w, hh⟩ := mpi_holding h hi hpc hf hdir
      exact .set hdir (Holding.keeps hh c)
    | _ => exact .refl _
  · rw [(Mpi.step_pc (fun ch hch => hl ⟨ch, hch⟩) hs).2.2.1]
    exact .refl _

theorem Sane.keeps {w w' : Now} (h : Sane env result ss w) (hi : Input env ss result) (hn : Next env ss w w') :
    KeepsAll ss w.fs w'.fs := by
  cases hn with
  | threaded l hs => exact h.keeps_threaded hi hs
  | mpi l hs => exact h.keeps_mpi hi hs
  | again hl hs =>
    have h1 := h.keeps_leaves hi hl
    cases hs with
    | threaded kinds hk => exact h1
    | mpi kinds h0 hk => exact h1

/-- What other programs see. -/
theorem Sane.sees {w : Now} {fs : FileSystem} (h : Sane env result ss w) (hi : Input env ss result) (hs : Sees w fs) :
    (∀ s ∈ ss, Kept result fs s) ∧ KeepsAll ss w.fs fs ∧ KeepsAll ss fs w.fs := by
  cases hs with
  | between => exact ⟨h.leaves hi (leaves_refl w), .refl _, .refl _⟩
  | inside n c part path d hw hd hp hn =>
    cases w with
    | threaded st =>
      unfold Now.pending at hw
      simp only at hw
      split at hw
      · rename_i x ws k f hpc hf
        cases hw
        obtain ⟨_, ps, w, hh⟩ := run_holding h hi hpc hf hd
        exact ⟨h.leaves hi (Run.Dies.inside _ _ _ _ _ hpc hf hd (.inside _ _ _ _ _ hp hn)), .set hd (Holding.keeps hh part),
          .back hd (Holding.back hh hn part)⟩
      · cases hw
    | mpi st =>
      unfold Now.pending at hw
      simp only at hw
      split at hw
      · rename_i x ws ix k f hpc hf
        cases hw
        obtain ⟨_, ps, w, hh⟩ := mpi_holding h hi hpc hf hd
        exact ⟨h.leaves hi (Mpi.Dies.inside _ _ _ _ _ _ hpc hf hd (.inside _ _ _ _ _ hp hn)),
          .set hd (Holding.keeps hh part), .back hd (Holding.back hh hn part)⟩
      · cases hw

theorem Fine.of_kept {fs : FileSystem} (h : Kept result fs s) (hd : fs s.cfg.resultPath = some d) : Fine result s d := by
  rcases h with ⟨h, _⟩ | ⟨d', ps, h1, h2, h3, h4⟩
  · rw [hd] at h
    cases h
  · rw [hd] at h1
    cases h1
    exact ⟨ps, h2, h3, h4⟩

/-- What is known while a merger works. -/
theorem Merging.inv {w₀ w : Now} {m : Merger.Live} (hi : Input env ss result) (h0 : Sane env result ss w₀) (hs : s ∈ ss)
    {d₀ : Dir} (hd₀ : w₀.fs s.cfg.resultPath = some d₀) {l₀ : List (List Char × (OSet Block × StoreMap))}
    (hl₀ : ∀ x ∈ l₀, Paired result s d₀ x.1 x.2) (h : Merging env ss s.cfg.resultPath w₀ w m) :
    Sane env result ss w ∧ ∃ d, w.fs s.cfg.resultPath = some d ∧ Keeps d₀ d ∧ LiveInv result s d l₀ m := by
  induction h with
  | start => exact ⟨h0, d₀, hd₀, .refl _, trivial⟩
  | next _ hn ih =>
    obtain ⟨h1, d, h2, h3, h4⟩ := ih
    obtain ⟨d', h5, h6⟩ := h1.keeps hi hn s hs d h2
    exact ⟨h1.next hi hn, d', h5, h3.trans h6, h4.keeps h6⟩
  | merge _ hv hd hm ih =>
    obtain ⟨h1, d, h2, h3, h4⟩ := ih
    obtain ⟨h5, h6, h7⟩ := h1.sees hi hv
    obtain ⟨e, he, h8⟩ := h6 s hs d h2
    rw [hd] at he
    cases he
    obtain ⟨e, he, h9⟩ := h7 s hs _ hd
    rw [h2] at he
    cases he
    obtain ⟨m', h10, h11⟩ := (h4.keeps h8).step (.of_kept (h5 s hs) hd)
      (fun x hx => (hl₀ x hx).keeps (h3.trans h8)) hm
    cases h10
    exact ⟨h1, d, h2, h3, h11.keeps h9⟩

end Live
end Hycu
