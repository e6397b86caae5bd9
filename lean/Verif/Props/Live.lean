import Verif.Lemmas.Live

/-!
C64: merging while runs go on.
-/

namespace Hycu
namespace Live

open Run (Env Sect Input)
open Merger (storeFor LiveStep)

variable {env : Env} {result : ConfigNode → Block → StoreMap} {ss : List Sect} {s : Sect} {w₀ w : Now} {m : Merger.Live}

/-- C64: whatever the merger sees while runs go on, it does not fail: every record that it finds has a store, and both can
be read. -/
theorem C64_safe (hi : Input env ss result) (h0 : Ongoing env ss w₀) (hs : s ∈ ss)
    (hd : ∃ d₀, w₀.fs s.cfg.resultPath = some d₀) (h : Merging env ss s.cfg.resultPath w₀ w m) {fs : FileSystem}
    (hv : Sees w fs) : ∃ d, fs s.cfg.resultPath = some d ∧ ∀ x, LiveStep d m x → ∃ m', x = .ok m' ∧ m' ≠ .failed := by
  obtain ⟨d₀, hd₀⟩ := hd
  obtain ⟨h1, d, h2, h3, h4⟩ := Merging.inv hi (h0.sane hi) hs hd₀ (l₀ := []) (by simp) h
  obtain ⟨h5, h6, -⟩ := h1.sees hi hv
  obtain ⟨e, he, h8⟩ := h6 s hs d h2
  refine ⟨e, he, fun x hx => ?_⟩
  obtain ⟨m', h9, h10⟩ := (h4.keeps h8).step (.of_kept (h5 s hs) he) (by simp) hx
  exact ⟨m', h9, by rintro rfl; exact h10⟩

/-- C64: a merger that works while runs go on gives the sum of the results of some blocks, each of them once, and a record
of exactly these blocks (plus the empty one); all blocks that were recorded when the merger was started are among them. -/
theorem C64_exact (hi : Input env ss result) (h0 : Ongoing env ss w₀) (hs : s ∈ ss) {d₀ : Dir}
    (hd₀ : w₀.fs s.cfg.resultPath = some d₀) {r : OSet Block} {t : StoreMap}
    (h : Merging env ss s.cfg.resultPath w₀ w (.ready r t)) :
    ∃ bs : List Block, bs.Nodup ∧ (∀ b ∈ bs, b ∈ s.blocks) ∧ Tally t (bs.flatMap (result s.cfg)) ∧
      (∀ b, b ≠ [] → (b ∈ r ↔ b ∈ bs)) ∧
      ∃ r₀, FileStore.initialRecord d₀ = .ok r₀ ∧ ∀ b, b ≠ [] → b ∈ r₀ → b ∈ bs := by
  have hsane := h0.sane hi
  have hf₀ : Fine result s d₀ := .of_kept (hsane.leaves hi (leaves_refl w₀) s hs) hd₀
  obtain ⟨l, -, p2, -, -, p5⟩ := hf₀.pairs
  obtain ⟨h1, d, h2, h3, h4⟩ := Merging.inv hi hsane hs hd₀ p2 h
  have hb : [] ∉ s.blocks := fun hx => hi.nonempty s hs _ hx rfl
  obtain ⟨bs, b1, b2, b3, b4⟩ := h4.ready (.of_kept (h1.leaves hi (leaves_refl w) s hs) h2) hb
    fun x hx => (p2 x hx).keeps h3
  obtain ⟨r₀, h5, h6⟩ := initialRecord_holds p5
  refine ⟨bs, ?_, fun b hb => b1.subset hb, b2, b3, r₀, h5, fun b hb0 hbr => ?_⟩
  · obtain ⟨l', c1, c2⟩ := b1
    exact c1.nodup_iff.1 (c2.nodup (hi.blocks s hs))
  · obtain ⟨p, hp, hbp⟩ := (h6.mem b hb0).1 hbr
    obtain ⟨x, hx, rfl⟩ := List.mem_map.1 hp
    exact b4 x hx b hbp

/-! ### A directory that does not change -/

theorem Alone.trans {d : Dir} {a b c : Merger.Live} (h : Alone d a b) (h' : Alone d b c) : Alone d a c := by
  induction h with
  | refl m => exact h'
  | head h1 _ ih => exact .head h1 (ih h')

theorem Alone.snoc {d : Dir} {a b c : Merger.Live} (h : Alone d a b) (h' : LiveStep d b (.ok c)) : Alone d a c :=
  h.trans (.head h' (.refl c))

theorem alone_listing {d : Dir} : ∀ (l got there : List (List Char)), (∀ n ∈ l, n ∈ d.map Prod.fst) → (got ++ l).Nodup →
    Alone d (.listing there got) (.listing there (got ++ l))
  | [], got, there, _, _ => by rw [List.append_nil]; exact .refl _
  | n :: l, got, there, h, hn => by
    have h1 : LiveStep d (.listing there got) (.ok (.listing there (got ++ [n]))) := .entry n (h n List.mem_cons_self) (by
      rw [List.nodup_append] at hn
      exact fun hg => hn.2.2 n hg n List.mem_cons_self rfl)
    have h2 := alone_listing l (got ++ [n]) there (fun k hk => h k (List.mem_cons_of_mem _ hk))
      (by rw [List.append_assoc]; exact hn)
    rw [List.append_assoc] at h2
    exact .head h1 h2

/-- What the loop ends with. -/
def loopEnd : Option (OSet Block × StoreMap) → Merger.Live
  | some p => .ready p.1 p.2
  | none => .failed

theorem alone_loop {d : Dir} (hd : d.NamesDiffer) : ∀ (es : List (List Char × FileEntry)) (r : OSet Block) (m : StoreMap)
    (o : Option (OSet Block × StoreMap)), (∀ e ∈ es, e ∈ d) → Merger.mergeLoop d es r m = .ok o →
    Alone d (.turn (es.map Prod.fst) r m) (loopEnd o)
  | [], r, m, o, _, h => by
    cases h
    exact .head .done (.refl _)
  | e :: es, r, m, o, he, h => by
    have hl := Dir.lookup_of_mem hd (he e List.mem_cons_self)
    have hes : ∀ x ∈ es, x ∈ d := fun x hx => he x (List.mem_cons_of_mem _ hx)
    have hreg : Dir.isRegularFile d e.1 = Dir.regular e.2 := by unfold Dir.isRegularFile; rw [hl]
    unfold Merger.mergeLoop at h
    have h1 : LiveStep d (.turn (e.1 :: es.map Prod.fst) r m) _ := .turn
    have hcond : (Dir.isRegularFile d e.1 && Dir.extension e.1 = FileStore.recordExtension) = FileStore.isRecordFile e := by
      rw [hreg]
      rfl
    rw [hcond] at h1
    split at h
    · rename_i hr
      rw [if_pos hr] at h1
      refine .head h1 ?_
      have h2 : LiveStep d (.partner e.1 (es.map Prod.fst) r m) _ := .partner
      simp only at h
      split at h
      · rename_i hst
        rw [if_pos (show Dir.isRegularFile d (storeFor e.1) = true from hst)] at h2
        obtain ⟨r', h3, h⟩ := Res.bind_eq_ok.1 h
        obtain ⟨m', h4, h⟩ := Res.bind_eq_ok.1 h
        have h5 : LiveStep d (.readRecord e.1 (es.map Prod.fst) r m) _ := .readRecord
        have h6 : LiveStep d (.readStore e.1 (es.map Prod.fst) r' m) _ := .readStore
        rw [h3, Res.bind_ok] at h5
        unfold storeFor at h6
        rw [h4, Res.bind_ok] at h6
        exact .head h2 (.head h5 (.head h6 (alone_loop hd es r' m' o hes h)))
      · rename_i hst
        rw [if_neg (show ¬ Dir.isRegularFile d (storeFor e.1) = true from hst)] at h2
        cases h
        exact .head h2 (.refl _)
    · rename_i hr
      rw [if_neg hr] at h1
      exact .head h1 (alone_loop hd es r m o hes h)

/-- C64: for a directory that does not change, the small steps can do what the merger is taken to do in C33. -/
theorem C64_alone {d : Dir} (hd : d.NamesDiffer) {o : Option (OSet Block × StoreMap)}
    (h : Merger.mergeLoop d d [] [] = .ok o) : Alone d .opening (loopEnd o) := by
  refine .head .opening ((alone_listing (d.map Prod.fst) [] _ (fun _ h => h) hd).trans ?_)
  rw [List.nil_append]
  exact .head (.listed fun _ h => h) (alone_loop hd d [] [] o (fun _ h => h) h)

/-- What is known in a directory that does not change. -/
def AloneInv (d : Dir) : Merger.Live → Prop
  | .opening => True
  | .listing there got => there = d.map Prod.fst ∧ got.Nodup ∧ ∀ n ∈ got, n ∈ d.map Prod.fst
  | .turn ns r m => ∃ es rest : Dir, es.Perm d ∧ (∀ e ∈ rest, e ∈ d) ∧ rest.map Prod.fst = ns ∧
      Merger.mergeLoop d es [] [] = Merger.mergeLoop d rest r m
  | .partner n ns r m => ∃ (es rest : Dir) (e : List Char × FileEntry), es.Perm d ∧ (∀ e ∈ rest, e ∈ d) ∧
      rest.map Prod.fst = ns ∧ e.1 = n ∧ FileStore.isRecordFile e = true ∧
      Merger.mergeLoop d es [] [] = Merger.mergeLoop d (e :: rest) r m
  | .readRecord n ns r m => ∃ es rest : Dir, es.Perm d ∧ (∀ e ∈ rest, e ∈ d) ∧ rest.map Prod.fst = ns ∧
      Merger.mergeLoop d es [] [] = (do
        let r ← Record.extract r (Dir.openIn d n)
        let m ← Store.extract m (Dir.openIn d (storeFor n))
        Merger.mergeLoop d rest r m)
  | .readStore n ns r m => ∃ es rest : Dir, es.Perm d ∧ (∀ e ∈ rest, e ∈ d) ∧ rest.map Prod.fst = ns ∧
      Merger.mergeLoop d es [] [] = (do
        let m ← Store.extract m (Dir.openIn d (storeFor n))
        Merger.mergeLoop d rest r m)
  | .ready r m => ∃ es : Dir, es.Perm d ∧ Merger.mergeLoop d es [] [] = .ok (some (r, m))
  | .failed => ∃ es : Dir, es.Perm d ∧ Merger.mergeLoop d es [] [] = .ok none

/-- The entries with the given names. -/
theorem exists_entries {d : Dir} (hd : d.NamesDiffer) {got : List (List Char)} (hg : got.Perm (d.map Prod.fst)) :
    ∃ es : Dir, es.Perm d ∧ es.map Prod.fst = got := by
  refine ⟨got.filterMap fun n => (Dir.lookup d n).map fun e => (n, e), ?_, ?_⟩
  · refine (hg.filterMap _).trans (List.Perm.of_eq ?_)
    rw [List.filterMap_map]
    have : ∀ l : Dir, (∀ e ∈ l, e ∈ d) →
        l.filterMap ((fun n => (Dir.lookup d n).map fun e => (n, e)) ∘ Prod.fst) = l := by
      intro l hl
      induction l with
      | nil => rfl
      | cons e l ih =>
        rw [List.filterMap_cons_some (b := e), ih fun x hx => hl x (List.mem_cons_of_mem _ hx)]
        simp only [Function.comp]
        rw [Dir.lookup_of_mem hd (hl e List.mem_cons_self)]
        rfl
    exact this d fun _ h => h
  · have : ∀ l : List (List Char), (∀ n ∈ l, n ∈ d.map Prod.fst) →
        (l.filterMap fun n => (Dir.lookup d n).map fun e => (n, e)).map Prod.fst = l := by
      intro l hl
      induction l with
      | nil => rfl
      | cons n l ih =>
        obtain ⟨e, he, hen⟩ := List.mem_map.1 (hl n List.mem_cons_self)
        rw [List.filterMap_cons_some (b := (n, e.2)), List.map_cons, ih fun x hx => hl x (List.mem_cons_of_mem _ hx)]
        rw [← hen, Dir.lookup_of_mem hd he]
        rfl
    exact this got fun n hn => hg.subset hn

theorem AloneInv.step {d : Dir} (hd : d.NamesDiffer) {m m' : Merger.Live} (h : AloneInv d m)
    (hs : LiveStep d m (.ok m')) : AloneInv d m' := by
  generalize hx : Res.ok m' = x at hs
  cases hs with
  | opening =>
    cases hx
    exact ⟨rfl, List.nodup_nil, by simp⟩
  | entry n hm hg =>
    cases hx
    refine ⟨h.1, ?_, fun k hk => ?_⟩
    · rw [List.nodup_append]
      exact ⟨h.2.1, List.nodup_singleton _, fun a ha b hb hab => hg (by rw [← List.mem_singleton.1 hb, ← hab]; exact ha)⟩
    · rcases List.mem_append.1 hk with hk | hk
      · exact h.2.2 k hk
      · rw [List.mem_singleton.1 hk]
        exact hm
  | listed hl =>
    cases hx
    obtain ⟨h1, h2, h3⟩ := h
    subst h1
    obtain ⟨es, h4, h5⟩ := exists_entries hd ((List.perm_ext_iff_of_nodup h2 hd).2 fun n => ⟨h3 n, hl n⟩)
    exact ⟨es, es, h4, fun e he => h4.subset he, h5, rfl⟩
  | done =>
    cases hx
    obtain ⟨es, rest, h1, h2, h3, h4⟩ := h
    rw [List.map_eq_nil_iff.1 h3] at h4
    exact ⟨es, h1, h4⟩
  | @turn n ns r m =>
    obtain ⟨es, rest, h1, h2, h3, h4⟩ := h
    cases rest with
    | nil => cases h3
    | cons e rest =>
      obtain ⟨rfl, rfl⟩ : e.1 = n ∧ rest.map Prod.fst = ns := by
        rw [List.map_cons] at h3
        injection h3 with h3 h3'
        exact ⟨h3, h3'⟩
      have hl := Dir.lookup_of_mem hd (h2 e List.mem_cons_self)
      have hcond : (Dir.isRegularFile d e.1 && Dir.extension e.1 = FileStore.recordExtension) = FileStore.isRecordFile e := by
        unfold Dir.isRegularFile
        rw [hl]
        rfl
      rw [hcond] at hx
      have h2' : ∀ x ∈ rest, x ∈ d := fun x hx => h2 x (List.mem_cons_of_mem _ hx)
      split at hx
      · rename_i hr
        cases hx
        exact ⟨es, rest, e, h1, h2', rfl, rfl, hr, h4⟩
      · rename_i hr
        cases hx
        refine ⟨es, rest, h1, h2', rfl, ?_⟩
        rw [h4]
        conv_lhs => unfold Merger.mergeLoop
        rw [if_neg hr]
  | @partner n ns r m =>
    obtain ⟨es, rest, e, h1, h2, h3, rfl, hr, h4⟩ := h
    conv at h4 => rhs; unfold Merger.mergeLoop
    rw [if_pos hr] at h4
    simp only at h4
    split at hx
    · rename_i hst
      cases hx
      rw [if_pos (show Dir.isRegularFile d (Dir.replaceExtension e.1 FileStore.storeExtension) = true from hst)] at h4
      exact ⟨es, rest, h1, h2, h3, h4⟩
    · rename_i hst
      cases hx
      rw [if_neg (show ¬ Dir.isRegularFile d (Dir.replaceExtension e.1 FileStore.storeExtension) = true from hst)] at h4
      exact ⟨es, h1, h4⟩
  | @readRecord n ns r m =>
    obtain ⟨es, rest, h1, h2, h3, h4⟩ := h
    obtain ⟨r', h5, h6⟩ := Res.bind_eq_ok.1 hx.symm
    cases h6
    rw [h5, Res.bind_ok] at h4
    exact ⟨es, rest, h1, h2, h3, h4⟩
  | @readStore n ns r m =>
    obtain ⟨es, rest, h1, h2, h3, h4⟩ := h
    obtain ⟨m', h5, h6⟩ := Res.bind_eq_ok.1 hx.symm
    cases h6
    rw [h5, Res.bind_ok] at h4
    exact ⟨es, rest, h1, h2, h3, h4⟩

theorem AloneInv.alone {d : Dir} (hd : d.NamesDiffer) {m m' : Merger.Live} (h : AloneInv d m) (ha : Alone d m m') :
    AloneInv d m' := by
  induction ha with
  | refl m => exact h
  | head h1 _ ih => exact ih (h.step hd h1)

/-- C64: for a directory that does not change, the small steps do nothing else than what the merger is taken to do in C33,
for some order of the entries. -/
theorem C64_alone_only {d : Dir} (hd : d.NamesDiffer) {m : Merger.Live} (h : Alone d .opening m) :
    (∀ r t, m = .ready r t → ∃ d' : Dir, d'.Perm d ∧ Merger.merge d' = .ok (mergeOutput (r, t))) ∧
    (m = .failed → ∃ d' : Dir, d'.Perm d ∧ Merger.merge d' = .ok ⟨1, none⟩) := by
  have h1 := AloneInv.alone hd (m := .opening) trivial h
  have key : ∀ es : Dir, es.Perm d → Merger.mergeLoop es es [] [] = Merger.mergeLoop d es [] [] := fun es he =>
    Merger.mergeLoop_congr es [] [] fun e _ _ => ⟨(Dir.lookup_perm hd he.symm _).symm, (Dir.lookup_perm hd he.symm _).symm⟩
  refine ⟨fun r t hm => ?_, fun hm => ?_⟩
  · subst hm
    obtain ⟨es, h2, h3⟩ := h1
    refine ⟨es, h2, ?_⟩
    unfold Merger.merge
    rw [key es h2, h3]
    rfl
  · subst hm
    obtain ⟨es, h2, h3⟩ := h1
    refine ⟨es, h2, ?_⟩
    unfold Merger.merge
    rw [key es h2, h3]
    rfl

/-! ### Examples -/

open Run (onceEnv onceSect onceResult onceLabels onceEnd once_input threadSteps mainSteps exec_reachable)

theorem Ongoing.reach {fs : FileSystem} {kinds : List Bool} {st : Run.State} (h : Run.Untouched ss fs)
    (hk : kinds.length < 4294967296) (hr : Run.Reachable env (Run.initial kinds fs (Run.program ss)) st) :
    Ongoing env ss (.threaded st) := by
  induction hr with
  | refl => exact .start h (.threaded kinds hk)
  | step l _ hs ih => exact .next ih (.threaded l hs)

theorem Merging.reach {path : List Char} {w₀ : Now} {st st' : Run.State} {m : Merger.Live}
    (h : Merging env ss path w₀ (.threaded st) m) (hr : Run.Reachable env st st') :
    Merging env ss path w₀ (.threaded st') m := by
  induction hr with
  | refl => exact h
  | step l _ hs ih => exact .next ih (.threaded l hs)

/-- Steps of the merger between two writes. -/
theorem Merging.alone {path : List Char} {w₀ w : Now} {m m' : Merger.Live} {d : Dir} (h : Merging env ss path w₀ w m)
    (hd : w.fs path = some d) (ha : Alone d m m') : Merging env ss path w₀ w m' := by
  induction ha with
  | refl m => exact h
  | head h1 _ ih => exact ih (h.merge .between hd h1)

/-- The files of the run in the example. -/
def onceFiles : Dir := FileStore.save [] 5 (Record.print [[(0, 10)]], Store.print (onceResult onceSect.cfg []))

/-- Hypotheses of `C64_exact`: the merger opens the directory when it is empty, then the run writes both files, and the
merger finds them. -/
example : ∃ w₀ w, Ongoing onceEnv [onceSect] w₀ ∧ w₀.fs "out".toList = some [] ∧
    Merging onceEnv [onceSect] "out".toList w₀ w (.ready [[], [(0, 10)]] [(⟨[1, 1, 2], [0, 5]⟩, 12)]) := by
  have h0 : Run.Untouched [onceSect] (fun _ => none) := by intro s hs d hd; cases hd
  obtain ⟨st, st', h1, h2, h3, h4⟩ : ∃ st st', Run.Reachable onceEnv (Run.initial [false] (fun _ => none)
      (Run.program [onceSect])) st ∧ st.fs "out".toList = some [] ∧ Run.Reachable onceEnv st st' ∧
      st'.fs "out".toList = some onceFiles :=
    ⟨_, _, exec_reachable (ls := onceLabels 5) .refl rfl, rfl, exec_reachable (ls := mainSteps 2) .refl rfl, rfl⟩
  refine ⟨_, _, .reach h0 (by decide) h1, h2, Merging.alone (d := onceFiles)
    (.reach (.alone .start (d := []) h2 (.head .opening (.refl _))) h3) h4 ?_⟩
  refine .head (.entry "5.hycu_record".toList (by decide) (by decide)) (.head (.listed (by decide)) ?_)
  refine .head (m' := .partner "5.hycu_record".toList [] [] []) (by exact .turn) ?_
  refine .head (m' := .readRecord "5.hycu_record".toList [] [] []) (by exact .partner) ?_
  refine .head (m' := .readStore "5.hycu_record".toList [] [[], [(0, 10)]] []) (by exact .readRecord) ?_
  refine .head (m' := .turn [] [[], [(0, 10)]] [(⟨[1, 1, 2], [0, 5]⟩, 12)]) (by exact .readStore) ?_
  exact .head .done (.refl _)

/-- C64 does not hold for a merger that sees a record file after its creation, before anything was written to it: the
result of the block is counted, but the block is not in the record. -/
theorem C64_false : ∃ (env : Env) (ss : List Sect) (result : ConfigNode → Block → StoreMap) (w : Now) (s : Sect)
    (n c path : List Char) (d : Dir), Input env ss result ∧ Ongoing env ss w ∧ s ∈ ss ∧ path = s.cfg.resultPath ∧
    w.pending = some ((n, c), path) ∧ w.fs path = some d ∧
    Alone (d.write n []) .opening (.ready [] [(⟨[1, 1, 2], [0, 5]⟩, 12)]) := by
  have h0 : Run.Untouched [onceSect] (fun _ => none) := by intro s hs d hd; cases hd
  refine ⟨onceEnv, [onceSect], onceResult, _, onceSect, _, _, _, _, once_input,
    .reach h0 (kinds := [false]) (by decide) (exec_reachable (ls := onceLabels 5 ++ mainSteps 1) .refl rfl),
    List.mem_singleton_self _, rfl, rfl, rfl, ?_⟩
  exact C64_alone (d := Run.onceTorn) (by unfold Dir.NamesDiffer; decide)
    (o := some ([], [(⟨[1, 1, 2], [0, 5]⟩, 12)])) (by decide)

end Live
end Hycu
