import Verif.Props.Files
import Verif.Spec.Resume

/-!
Directories while they are written.
-/

namespace Hycu
namespace Run

/-- The blocks of some records. -/
def recorded (ps : List (OSet Block × StoreMap)) : List Block := ps.flatMap Prod.fst

theorem recorded_append (ps qs : List (OSet Block × StoreMap)) : recorded (ps ++ qs) = recorded ps ++ recorded qs :=
  List.flatMap_append

/-- What is meant by a directory of a section that contains pairs of records and stores. -/
structure Layout where
  holds : Sect → Dir → List (OSet Block × StoreMap) → Prop
  names : ∀ {s : Sect} {d : Dir} {ps : List (OSet Block × StoreMap)}, holds s d ps → d.NamesDiffer
  initial : ∀ {s : Sect} {d : Dir} {ps : List (OSet Block × StoreMap)}, holds s d ps →
    ∃ r, FileStore.initialRecord d = .ok r ∧
      ∀ b ∈ s.blocks, b ≠ [] → (FileStore.contains r b = true ↔ b ∈ recorded ps)
  part : ∀ {s : Sect} {d : Dir} {ps : List (OSet Block × StoreMap)} {id : Nat}, holds s d ps → d.Absent id →
    ∀ c, holds s (d.write (FileStore.storeName id) c) ps
  save : ∀ {s : Sect} {d : Dir} {ps : List (OSet Block × StoreMap)} {id : Nat} {p : OSet Block × StoreMap},
    holds s d ps → d.Absent id → PairOk p →
    holds s (FileStore.save d id (Record.print p.1, Store.print p.2)) (ps ++ [p])

theorem isUnion_contains {ps : List (OSet Block × StoreMap)} {r : OSet Block} (h : IsUnion ps r) {b : Block} (hb : b ≠ []) :
    FileStore.contains r b = true ↔ b ∈ recorded ps := by
  unfold FileStore.contains recorded
  rw [OSet.contains_iff h.sorted, h.mem b hb, List.mem_flatMap]

theorem holds_part {d : Dir} {ps : List (OSet Block × StoreMap)} (h : d.Holds ps) {id : Nat} (hid : d.Absent id)
    (part : List Char) : (d.write (FileStore.storeName id) part).Holds ps := by
  rw [Dir.write_new fun e he => (hid e he).2]
  refine ⟨?_, ?_, h.pairs⟩
  · unfold Dir.NamesDiffer
    rw [List.map_append, List.nodup_append]
    refine ⟨h.names, by simp, ?_⟩
    intro a ha b hb
    obtain ⟨e, he, rfl⟩ := List.mem_map.1 ha
    rw [List.map_singleton, List.mem_singleton] at hb
    rw [hb]
    exact (hid e he).2
  · rw [List.filter_append, List.filter_cons_of_neg (by simp [isRecordFile_store]), List.filter_nil, List.append_nil]
    exact h.files.imp fun e q hq => ⟨hq.1, List.mem_append_left _ hq.2⟩

/-- The files contain nothing but the pairs. -/
def exactly : Layout where
  holds _ d ps := d.Holds ps
  names h := h.names
  initial h := by
    obtain ⟨r, h1, h2⟩ := initialRecord_holds h
    exact ⟨r, h1, fun b _ hb => isUnion_contains h2 hb⟩
  part h ha c := holds_part h ha c
  save h ha hp := holds_save h ha hp

/-- The directory contains the pairs `ps`; `w` is being written, `ws` is still to be written. -/
inductive HoldingIn (L : Layout) (s : Sect) : Dir → List (List Char × List Char) → List (OSet Block × StoreMap) →
    List (OSet Block × StoreMap) → Prop
  | idle (d : Dir) (ps : List (OSet Block × StoreMap)) (h : L.holds s d ps) : HoldingIn L s d [] ps []
  | two (d : Dir) (ps : List (OSet Block × StoreMap)) (id : Nat) (p : OSet Block × StoreMap) (h : L.holds s d ps)
      (ha : d.Absent id) (hp : PairOk p) :
      HoldingIn L s d (FileStore.saveWrites id (Record.print p.1, Store.print p.2)) ps [p]
  | one (d : Dir) (ps : List (OSet Block × StoreMap)) (id : Nat) (p : OSet Block × StoreMap) (h : L.holds s d ps)
      (ha : d.Absent id) (hp : PairOk p) :
      HoldingIn L s (d.write (FileStore.storeName id) (Store.print p.2)) [(FileStore.recordName id, Record.print p.1)]
        ps [p]

section

variable {L : Layout} {s : Sect}

theorem HoldingIn.write {d : Dir} {n c : List Char} {ws : List (List Char × List Char)}
    {ps w : List (OSet Block × StoreMap)} (h : HoldingIn L s d ((n, c) :: ws) ps w) :
    ∃ ps' w', HoldingIn L s (d.write n c) ws ps' w' ∧ ps' ++ w' = ps ++ w := by
  generalize hws : (n, c) :: ws = l at h
  cases h with
  | idle d ps h => cases hws
  | two d ps id p h ha hp =>
    cases hws
    exact ⟨ps, [p], .one d ps id p h ha hp, rfl⟩
  | one d ps id p h ha hp =>
    cases hws
    exact ⟨ps ++ [p], [], .idle _ _ (L.save h ha hp), List.append_nil _⟩

theorem HoldingIn.done {d : Dir} {ps w : List (OSet Block × StoreMap)} (h : HoldingIn L s d [] ps w) :
    L.holds s d ps ∧ w = [] := by
  generalize hws : ([] : List (List Char × List Char)) = l at h
  cases h with
  | idle d ps h => exact ⟨h, rfl⟩
  | two d ps id p h ha hp => cases hws
  | one d ps id p h ha hp => cases hws

theorem holds_crashed {d d' : Dir} {ps : List (OSet Block × StoreMap)} (h : L.holds s d ps) {id : Nat}
    {p : OSet Block × StoreMap} (hp : PairOk p) (hid : d.Absent id)
    (hc : Dir.Crash (FileStore.saveWrites id (Record.print p.1, Store.print p.2)) d d') :
    L.holds s d' ps ∨ L.holds s d' (ps ++ [p]) := by
  rcases crash_cases hc with rfl | ⟨part, rfl⟩ | rfl
  · exact Or.inl h
  · exact Or.inl (L.part h hid part)
  · exact Or.inr (L.save h hid hp)

theorem HoldingIn.crash {d d' : Dir} {ws : List (List Char × List Char)} {ps w : List (OSet Block × StoreMap)}
    (h : HoldingIn L s d ws ps w) (hc : Dir.Crash ws d d') : L.holds s d' ps ∨ L.holds s d' (ps ++ w) := by
  cases h with
  | idle d ps h =>
    cases hc
    exact Or.inl h
  | two d ps id p h ha hp => exact holds_crashed h hp ha hc
  | one d ps id p h ha hp => exact holds_crashed h hp ha (.step _ _ _ _ _ hc)

end

theorem mem_write {d : Dir} {n c : List Char} {e : List Char × FileEntry} (h : e ∈ d.write n c) :
    e = (n, .file c) ∨ e ∈ d := by
  induction d with
  | nil => exact Or.inl (List.mem_singleton.1 h)
  | cons x d ih =>
    obtain ⟨m, y⟩ := x
    unfold Dir.write at h
    split at h
    · rename_i hm
      subst hm
      split at h
      · rcases List.mem_cons.1 h with h | h
        · exact Or.inl h
        · exact Or.inr (List.mem_cons_of_mem _ h)
      · exact Or.inr h
    · rcases List.mem_cons.1 h with h | h
      · exact Or.inr (by rw [h]; exact List.mem_cons_self)
      · rcases ih h with h | h
        · exact Or.inl h
        · exact Or.inr (List.mem_cons_of_mem _ h)

theorem Plain.write {d : Dir} (h : Plain d) (n c : List Char) : Plain (d.write n c) := by
  intro e he hn
  rcases mem_write he with rfl | he
  · rfl
  · exact h e he hn

theorem Plain.crash {d d' : Dir} {ws : List (List Char × List Char)} (h : Plain d) (hc : Dir.Crash ws d d') : Plain d' := by
  induction hc with
  | stop ws d => exact h
  | inside n c part ws d hp hn => exact h.write _ _
  | step n c ws d d' _ ih => exact ih (h.write _ _)

theorem Plain.absent {d : Dir} (h : Plain d) (hn : d.NamesDiffer) {id : Nat} (hf : FileStore.fresh d id = true) :
    d.Absent id := by
  unfold FileStore.fresh at hf
  simp only [Bool.not_eq_true', Bool.or_eq_false_iff] at hf
  have key : ∀ n, Dir.isRegularFile d n = false → (∃ s, n = s ++ ".hycu_record".toList) ∨ (∃ s, n = s ++ ".hycu_store".toList) →
      ∀ e ∈ d, e.1 ≠ n := by
    rintro n h1 h2 e he rfl
    unfold Dir.isRegularFile at h1
    rw [Dir.lookup_of_mem hn he] at h1
    simp only [h e he h2] at h1
    cases h1
  exact fun e he => ⟨key _ hf.1 (Or.inl ⟨_, rfl⟩) e he, key _ hf.2 (Or.inr ⟨_, rfl⟩) e he⟩

theorem Untouched.holds {ss : List Sect} {fs : FileSystem} (h : Untouched ss fs) {s : Sect} (hs : s ∈ ss) {d : Dir}
    (hd : fs s.cfg.resultPath = some d) : Plain d ∧ d.Holds [] := by
  obtain ⟨h1, h2, h3⟩ := h s hs d hd
  refine ⟨h2, h1, ?_, by simp⟩
  rw [List.filter_eq_nil_iff.2]
  · exact .nil
  · intro e he hr
    unfold FileStore.isRecordFile at hr
    simp only [Bool.and_eq_true, decide_eq_true_eq] at hr
    exact h3 e he ⟨_, Dir.eq_of_extension hr.2⟩

theorem holds_empty : Dir.Holds [] [] := ⟨List.nodup_nil, .nil, by simp⟩

end Run
end Hycu
