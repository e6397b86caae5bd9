import Verif.Lemmas.StoreFile
import Verif.Spec.History
import Verif.Props.Ramification

/-!
Properties C27-C31 and C36: stores, their files, and the size of counters.
-/

set_option linter.unusedSectionVars false

namespace Hycu

variable {F : Type}

/-! ### C27 -/

/-- The offsets of the key of a curve are `int`s. -/
theorem ofCurve_int [DecidableEq F] {fl : FlintPoly F} {c : Curve F} {k : Key} (h : Key.ofCurve fl c = .ok k) :
    ∀ z ∈ k.offsets, -2147483648 ≤ z ∧ z < 2147483648 := by
  obtain ⟨rs, _, h⟩ := Res.bind_eq_ok.1 h
  obtain ⟨m, _, h⟩ := Res.bind_eq_ok.1 h
  obtain ⟨os, h1, h⟩ := Res.bind_eq_ok.1 h
  obtain rfl := Res.ok.inj h
  simp only
  unfold Curve.hasseWeilOffsets at h1
  split at h1
  · exact absurd h1 (by simp)
  obtain ⟨om, h2, h1⟩ := Res.bind_eq_ok.1 h1
  have hom : ∀ (l : List (Nat × Nat × Nat)) (om om' : OMap Nat Int),
      (∀ e ∈ om, -2147483648 ≤ e.2 ∧ e.2 < 2147483648) →
      l.foldlM (fun (m : OMap Nat Int) en => do
        let v ← Curve.toInt ((c.table.prime ^ en.1 : Nat) + 1 - (u32 (en.2.1 + en.2.2) : Nat))
        pure (m.set en.1 v)) om = .ok om' → ∀ e ∈ om', -2147483648 ≤ e.2 ∧ e.2 < 2147483648 := by
    intro l
    induction l with
    | nil => intro om om' h1 h2; obtain rfl := Res.ok.inj h2; exact h1
    | cons x l ih =>
      intro om om' h1 h2
      rw [List.foldlM_cons] at h2
      obtain ⟨om1, h3, h4⟩ := Res.bind_eq_ok.1 h2
      obtain ⟨v, h5, h6⟩ := Res.bind_eq_ok.1 h3
      obtain rfl := Res.ok.inj h6
      refine ih _ _ (fun e he => ?_) h4
      rcases OMap.mem_set he with rfl | he
      · unfold Curve.toInt at h5
        split at h5
        · rename_i h7
          obtain rfl := Res.ok.inj h5
          exact h7
        · exact absurd h5 (by simp)
      · exact h1 e he
  have hom := hom _ _ _ (by simp) h2
  obtain rfl := Res.ok.inj h1
  intro z hz
  obtain ⟨j, _, rfl⟩ := List.mem_map.1 hz
  split
  · rename_i v hv
    exact hom _ (OMap.mem_of_find? hv)
  · omega

/-- Key, twisted key and multiplicity of a curve. -/
structure CurveData where
  key : Key
  twisted : Key
  count : Int

/-- The data under which a curve is registered. -/
structure IsData [DecidableEq F] (fl : FlintPoly F) (c : Curve F) (x : CurveData) : Prop where
  key : Key.ofCurve fl c = .ok x.key
  twisted : x.key.twist = .ok x.twisted
  count : Store.countOf c = .ok x.count
  small : Small x.count

/-- The contributions of a curve. -/
def CurveData.parts (x : CurveData) : List (Key × Int) := [(x.key, x.count), (x.twisted, x.count)]

theorem twist_symm {k t : Key} (hk : ∀ z ∈ k.offsets, -2147483648 ≤ z ∧ z < 2147483648) (h : k.twist = .ok t) :
    t.twist = .ok k := by
  obtain ⟨rfl, h1⟩ := twist_iff.1 h
  refine twist_iff.2 ⟨by rw [twistedOffsets_twice], ?_⟩
  intro j z hj hj2
  simp only [twistedOffsets, List.getElem?_mapIdx, Option.map_eq_some_iff] at hj
  obtain ⟨w, hw, rfl⟩ := hj
  rw [if_pos hj2]
  have := hk w (List.mem_of_getElem? hw)
  omega

/-- Registering curves one after the other, from a store with the same property. -/
theorem registerAll_tally [DecidableEq F] {fl : FlintPoly F} : ∀ {cs : List (Curve F)} {xs ys : List CurveData} {m : StoreMap},
    List.Forall₂ (IsData fl) cs xs → Tally m (ys.flatMap CurveData.parts) →
    (∀ y ∈ ys, y.key.twist = .ok y.twisted ∧ y.twisted.twist = .ok y.key) →
    ∃ m', cs.foldlM (Store.registerCurve fl) m = .ok m' ∧ Tally m' ((ys ++ xs).flatMap CurveData.parts)
  | [], _, ys, m, .nil, ht, _ => ⟨m, rfl, by rwa [List.append_nil]⟩
  | c :: cs, x :: xs, ys, m, .cons hx hxs, ht, hys => by
    have hx2 := twist_symm (ofCurve_int hx.key) hx.twisted
    have hmem : ∀ k : Key, k ∈ (ys.flatMap CurveData.parts).map Prod.fst ↔ ∃ y ∈ ys, k = y.key ∨ k = y.twisted := by
      intro k
      simp only [List.mem_map, List.mem_flatMap, CurveData.parts, List.mem_cons, List.not_mem_nil, or_false]
      constructor
      · rintro ⟨e, ⟨y, hy, rfl | rfl⟩, rfl⟩
        · exact ⟨y, hy, Or.inl rfl⟩
        · exact ⟨y, hy, Or.inr rfl⟩
      · rintro ⟨y, hy, rfl | rfl⟩
        · exact ⟨_, ⟨y, hy, Or.inl rfl⟩, rfl⟩
        · exact ⟨_, ⟨y, hy, Or.inr rfl⟩, rfl⟩
    have hkt : x.key ∈ (ys.flatMap CurveData.parts).map Prod.fst ↔
        x.twisted ∈ (ys.flatMap CurveData.parts).map Prod.fst := by
      rw [hmem, hmem]
      constructor
      · rintro ⟨y, hy, h | h⟩
        · refine ⟨y, hy, Or.inr (Res.ok.inj ?_)⟩
          rw [← hx.twisted, h, (hys y hy).1]
        · refine ⟨y, hy, Or.inl (Res.ok.inj ?_)⟩
          rw [← hx.twisted, h, (hys y hy).2]
      · rintro ⟨y, hy, h | h⟩
        · refine ⟨y, hy, Or.inr (Res.ok.inj ?_)⟩
          rw [← hx2, h, (hys y hy).1]
        · refine ⟨y, hy, Or.inl (Res.ok.inj ?_)⟩
          rw [← hx2, h, (hys y hy).2]
    obtain ⟨m1, h1, h2⟩ := Store.registerData_tally ht hkt fun _ => hx.small
    have h2' : Tally m1 ((ys ++ [x]).flatMap CurveData.parts) := by
      rw [List.flatMap_append, List.flatMap_singleton]
      exact h2
    obtain ⟨m2, h3, h4⟩ := registerAll_tally hxs h2' (by
      intro y hy
      rcases List.mem_append.1 hy with hy | hy
      · exact hys y hy
      · obtain rfl := List.mem_singleton.1 hy
        exact ⟨hx.twisted, hx2⟩)
    refine ⟨m2, ?_, ?_⟩
    · rw [List.foldlM_cons]
      have : Store.registerCurve fl m c = .ok m1 := by
        unfold Store.registerCurve
        rw [hx.key, Res.bind_ok, hx.twisted, Res.bind_ok, hx.count, Res.bind_ok, h1]
      rw [this]
      exact h3
    · rwa [List.append_assoc, List.singleton_append] at h4

theorem total_parts (xs : List CurveData) (k : Key) : total (xs.flatMap CurveData.parts) k =
    (xs.map fun x => x.count * ((if x.key = k then 1 else 0) + (if x.twisted = k then 1 else 0))).sum := by
  induction xs with
  | nil => rfl
  | cons x xs ih =>
    rw [List.flatMap_cons, total_append, ih, List.map_cons, List.sum_cons]
    congr 1
    simp only [CurveData.parts, total_cons, total_nil, Int.mul_add]
    split <;> split <;> simp

/-- C27: registering curves into an empty store gives an entry exactly for the keys and the twisted keys of the
curves; it is the sum of the multiplicities of the curves with this key plus those of the curves with this twisted
key. -/
theorem C27_register [DecidableEq F] (fl : FlintPoly F) (cs : List (Curve F)) (xs : List CurveData)
    (h : List.Forall₂ (IsData fl) cs xs) :
    ∃ m, cs.foldlM (Store.registerCurve fl) [] = .ok m ∧ OMap.Sorted m ∧
      ∀ (k : Key) (z : Int), (k, z) ∈ m ↔ (∃ x ∈ xs, x.key = k ∨ x.twisted = k) ∧
        z = (xs.map fun x =>
          x.count * ((if x.key = k then 1 else 0) + (if x.twisted = k then 1 else 0))).sum := by
  obtain ⟨m, h1, h2⟩ := registerAll_tally (ys := []) h Tally.nil (by simp)
  rw [List.nil_append] at h2
  refine ⟨m, h1, h2.sorted, fun k z => ?_⟩
  rw [h2.entry, total_parts]
  refine and_congr_left fun _ => ?_
  simp only [List.mem_map, List.mem_flatMap, CurveData.parts, List.mem_cons, List.not_mem_nil, or_false]
  constructor
  · rintro ⟨e, ⟨y, hy, rfl | rfl⟩, rfl⟩
    · exact ⟨y, hy, Or.inl rfl⟩
    · exact ⟨y, hy, Or.inr rfl⟩
  · rintro ⟨y, hy, rfl | rfl⟩
    · exact ⟨_, ⟨y, hy, Or.inl rfl⟩, rfl⟩
    · exact ⟨_, ⟨y, hy, Or.inr rfl⟩, rfl⟩

/-! ### C28 -/

/-- C28: a flush adds the local counts to the static ones, records the block and empties the local store. -/
theorem C28_flush {st : Store.Static} {m : StoreMap} {l l' : List (Key × Int)} (hst : Tally st.store l)
    (hr : OSet.Sorted st.record) (hm : Tally m l') (hsmall : ∀ e ∈ m, Small e.2) (b : Block) :
    ∃ st', Store.flushToStatic st m b = .ok (st', []) ∧ Tally st'.store (l ++ l') ∧ OSet.Sorted st'.record ∧
      ∀ b', b' ∈ st'.record ↔ b' = b ∨ b' ∈ st.record := by
  obtain ⟨m', h1, h2⟩ := Store.addEntries_tally m hst hsmall
  refine ⟨⟨OSet.insert st.record b, m'⟩, ?_, ?_, OSet.sorted_insert hr b, fun b' => OSet.mem_insert⟩
  · unfold Store.flushToStatic
    rw [h1]
    rfl
  · refine h2.congr (fun k => ?_) fun k => ?_
    · rw [List.map_append, List.map_append, List.mem_append, List.mem_append, hm.mem_keys]
    · rw [total_append, total_append, hm.total_eq]

/-- C28: the static members after all flushes do not depend on their order. -/
theorem C28_order {st : Store.Static} (hs : OMap.Sorted st.store) (hr : OSet.Sorted st.record)
    {fs gs : List (StoreMap × Block)} (hsmall : ∀ f ∈ fs, ∀ e ∈ f.1, Small e.2) (hp : fs.Perm gs) :
    ∃ st', fs.foldlM (fun st f => do let p ← Store.flushToStatic st f.1 f.2; pure p.1) st = .ok st' ∧
      gs.foldlM (fun st f => do let p ← Store.flushToStatic st f.1 f.2; pure p.1) st = .ok st' := by
  have key : ∀ (fs : List (StoreMap × Block)) (st : Store.Static) (l : List (Key × Int)),
      Tally st.store l → OSet.Sorted st.record → (∀ f ∈ fs, ∀ e ∈ f.1, Small e.2) →
      ∃ st', fs.foldlM (fun st f => do let p ← Store.flushToStatic st f.1 f.2; pure p.1) st = .ok st' ∧
        Tally st'.store (l ++ fs.flatMap Prod.fst) ∧ OSet.Sorted st'.record ∧
        ∀ b, b ∈ st'.record ↔ b ∈ st.record ∨ b ∈ fs.map Prod.snd := by
    intro fs
    induction fs with
    | nil => intro st l h1 h2 _; exact ⟨st, rfl, by simpa using h1, h2, by simp⟩
    | cons f fs ih =>
      intro st l h1 h2 h3
      obtain ⟨m', h4, h5⟩ := Store.addEntries_tally f.1 h1 (h3 f (by simp))
      obtain ⟨st', h6, h7, h8, h9⟩ := ih ⟨OSet.insert st.record f.2, m'⟩ _ h5 (OSet.sorted_insert h2 f.2)
        fun g hg => h3 g (by simp [hg])
      refine ⟨st', ?_, ?_, h8, ?_⟩
      · rw [List.foldlM_cons]
        have : Store.flushToStatic st f.1 f.2 = .ok (⟨OSet.insert st.record f.2, m'⟩, []) := by
          unfold Store.flushToStatic
          rw [h4]
          rfl
        rw [this]
        exact h6
      · rwa [List.append_assoc] at h7
      · intro b
        rw [h9]
        simp only [OSet.mem_insert, List.map_cons, List.mem_cons]
        tauto
  obtain ⟨st1, h1, h2, h3, h4⟩ := key fs st _ (Tally.self hs) hr hsmall
  obtain ⟨st2, h5, h6, h7, h8⟩ := key gs st _ (Tally.self hs) hr fun f hf => hsmall f (hp.mem_iff.2 hf)
  have e1 : st1.store = st2.store := h2.unique h6 ((hp.flatMap_right Prod.fst).append_left _)
  have e2 : st1.record = st2.record := OSet.ext_mem h3 h7 fun b => by
    rw [h4, h8, (hp.map Prod.snd).mem_iff]
  have : st1 = st2 := by
    cases st1
    cases st2
    simp only at e1 e2
    rw [e1, e2]
  exact ⟨st1, h1, this ▸ h5⟩

/-! ### C29 -/

theorem history_match (result : Block → StoreMap) (hsmall : ∀ b, ∀ e ∈ result b, Small e.2) :
    ∀ (es : List StoreEvent) (st : Store.Static), Match result st.record st.store →
    (flushed es).Nodup → (∀ b ∈ st.record, b ∉ flushed es) →
    ∃ (st' : Store.Static) (saved : List (OSet Block × StoreMap)),
      runHistory result es st = .ok (st', saved.map fun p => (Record.print p.1, Store.print p.2)) ∧
      (∀ p ∈ saved, Match result p.1 p.2) ∧ Match result st'.record st'.store ∧
      ((saved.map Prod.fst).flatten ++ st'.record).Perm (st.record ++ flushed es)
  | [], st, h, _, _ => ⟨st, [], rfl, by simp, h, by simp [flushed]⟩
  | .flush b :: es, st, h, hn, hd => by
    have hn := List.nodup_cons.1 hn
    obtain ⟨m', h1, h2⟩ := Store.addEntries_tally (result b) h.tally (hsmall b)
    have hb : b ∉ st.record := fun hb => hd b hb (by simp [flushed])
    have hperm : (OSet.insert st.record b).Perm (st.record ++ [b]) := by
      refine (List.perm_ext_iff_of_nodup (OSet.sorted_nodup (OSet.sorted_insert h.record_sorted b)) ?_).2 fun x => ?_
      · exact List.Nodup.append (OSet.sorted_nodup h.record_sorted) (by simp) (by simpa using hb)
      · rw [OSet.mem_insert, List.mem_append, List.mem_singleton]
        tauto
    obtain ⟨st', saved, h3, h4, h5, h6⟩ := history_match result hsmall es ⟨OSet.insert st.record b, m'⟩
      ⟨OSet.sorted_insert h.record_sorted b, by
        refine h2.perm ?_
        have := (hperm.flatMap_right result).symm
        rwa [List.flatMap_append, List.flatMap_singleton] at this⟩ hn.2
      (fun x hx => by
        rcases OSet.mem_insert.1 hx with rfl | hx
        · exact hn.1
        · intro hx'
          exact hd x hx (by simp [flushed, hx']))
    refine ⟨st', saved, ?_, h4, h5, h6.trans ?_⟩
    · unfold runHistory Store.flushToStatic
      rw [h1]
      exact h3
    · have := hperm.append_right (flushed es)
      rwa [List.append_assoc, List.singleton_append] at this
  | .save :: es, st, h, hn, hd => by
    obtain ⟨st', saved, h3, h4, h5, h6⟩ := history_match result hsmall es ⟨[], []⟩
      ⟨List.Pairwise.nil, Tally.nil⟩ hn (by simp)
    refine ⟨st', (st.record, st.store) :: saved, ?_, ?_, h5, ?_⟩
    · unfold runHistory Store.flushStatic
      simp only [h3]
      rfl
    · intro p hp
      rcases List.mem_cons.1 hp with rfl | hp
      · exact h
      · exact h4 p hp
    · simp only [List.map_cons, List.flatten_cons, List.append_assoc]
      exact h6.append_left _

/-- C29: in every history of flushes of different blocks and of saves, each saved pair is a printed record and a
printed store that match: the store is the pointwise sum of the results of the blocks in the record.  The blocks
flushed are those in the saved records and in the static record, each once. -/
theorem C29_record_matches_store (result : Block → StoreMap) (hsmall : ∀ b, ∀ e ∈ result b, Small e.2)
    (es : List StoreEvent) (hn : (flushed es).Nodup) :
    ∃ (st : Store.Static) (saved : List (OSet Block × StoreMap)),
      runHistory result es ⟨[], []⟩ = .ok (st, saved.map fun p => (Record.print p.1, Store.print p.2)) ∧
      (∀ p ∈ saved, Match result p.1 p.2) ∧ Match result st.record st.store ∧
      ((saved.map Prod.fst).flatten ++ st.record).Perm (flushed es) := by
  obtain ⟨st, saved, h1, h2, h3, h4⟩ := history_match result hsmall es ⟨[], []⟩ ⟨List.Pairwise.nil, Tally.nil⟩ hn
    (by simp)
  exact ⟨st, saved, h1, h2, h3, by simpa using h4⟩

/-! ### C30 -/

/-- C30: a printed store is read back as the same map. -/
theorem C30_store_round_trip {m : StoreMap} (hs : OMap.Sorted m) (hf : ∀ e ∈ m, e.1.Fits)
    (hsmall : ∀ e ∈ m, Small e.2) : Store.extract [] (IStream.ofList (Store.print m)) = .ok m := by
  rw [Store.extract_print [] hf]
  obtain ⟨m', h1, h2⟩ := Store.addEntries_tally m Tally.nil hsmall
  rw [h1, h2.unique (Tally.self hs) (by simp)]

/-! ### C31 -/

/-- C31: a printed record is read back with all its blocks; if it is not empty, the empty block is added. -/
theorem C31_record_round_trip {r : OSet Block}
    (hf : ∀ b ∈ r, ∀ x ∈ b, x.1 < 2147483648 ∧ x.2 < 2147483648) :
    ∃ r', Record.extract [] (IStream.ofList (Record.print r)) = .ok r' ∧ OSet.Sorted r' ∧
      (∀ b, b ≠ [] → (b ∈ r' ↔ b ∈ r)) ∧ ([] ∈ r' ↔ r ≠ []) := by
  refine ⟨_, Record.extract_print [] hf, ?_, ?_, ?_⟩
  · split
    · exact List.Pairwise.nil
    · exact OSet.sorted_insert (Record.sorted_foldl_insert r List.Pairwise.nil) _
  · intro b hb
    split
    · rename_i h
      rw [h]
    · rw [OSet.mem_insert, Record.mem_foldl_insert]
      simp [hb]
  · split
    · rename_i h
      simp [h]
    · rename_i h
      rw [OSet.mem_insert]
      simp [h]

/-! ### C36 -/

/-- C36: adding an entry, as in flushes and when reading files, is exact, except that a new entry of absolute value
at least `2^62` is undefined. -/
theorem C36_add_entry {m : StoreMap} (hs : OMap.Sorted m) (k : Key) (z : Int) :
    (k ∉ m.map Prod.fst ∧ ¬ Small z ∧ Store.addEntry m k z = .ub) ∨
    ((k ∈ m.map Prod.fst ∨ Small z) ∧ ∃ m', Store.addEntry m k z = .ok m' ∧ Tally m' (m ++ [(k, z)])) := by
  have ht := Tally.self hs
  by_cases hk : k ∈ m.map Prod.fst
  · refine Or.inr ⟨Or.inl hk, _, ?_, ht.set k z⟩
    unfold Store.addEntry
    rw [ht.find?, if_pos hk]
  · by_cases hz : Small z
    · exact Or.inr ⟨Or.inr hz, Store.addEntry_tally ht k hz⟩
    · refine Or.inl ⟨hk, hz, ?_⟩
      unfold Store.addEntry
      rw [ht.find?, if_neg hk]
      simp only [copyCount_large hz]
      rfl

/-- C36: registering under a key and a twisted key that are both present or both missing is exact, except that a
count of at least `2^62` under a new key is undefined. -/
theorem C36_register {m : StoreMap} (hs : OMap.Sorted m) (k t : Key) (z : Int)
    (hkt : k ∈ m.map Prod.fst ↔ t ∈ m.map Prod.fst) :
    (k ∉ m.map Prod.fst ∧ ¬ Small z ∧ Store.registerData m k t z = .ub) ∨
    ((k ∈ m.map Prod.fst ∨ Small z) ∧
      ∃ m', Store.registerData m k t z = .ok m' ∧ Tally m' (m ++ [(k, z), (t, z)])) := by
  have ht := Tally.self hs
  by_cases hk : k ∈ m.map Prod.fst
  · exact Or.inr ⟨Or.inl hk, Store.registerData_tally ht hkt fun h => absurd hk h⟩
  · by_cases hz : Small z
    · exact Or.inr ⟨Or.inr hz, Store.registerData_tally ht hkt fun _ => hz⟩
    · refine Or.inl ⟨hk, hz, ?_⟩
      unfold Store.registerData
      rw [ht.find?, if_neg hk]
      simp only [Store.registerNew, copyCount_large hz]
      rfl

/-- C36: a written store can be read back exactly if no count reaches `2^62`; otherwise reading it is undefined. -/
theorem C36_large_counts {m : StoreMap} (hs : OMap.Sorted m) (hf : ∀ e ∈ m, e.1.Fits) :
    ((∀ e ∈ m, Small e.2) ∧ Store.extract [] (IStream.ofList (Store.print m)) = .ok m) ∨
    ((∃ e ∈ m, ¬ Small e.2) ∧ Store.extract [] (IStream.ofList (Store.print m)) = .ub) := by
  by_cases h : ∀ e ∈ m, Small e.2
  · exact Or.inl ⟨h, C30_store_round_trip hs hf h⟩
  · refine Or.inr ⟨by simpa using h, ?_⟩
    rw [Store.extract_print [] hf]
    have key : ∀ (m : StoreMap), OMap.Sorted m → ∀ (m0 : StoreMap) (l : List (Key × Int)), Tally m0 l →
        (∀ e ∈ m, e.1 ∉ l.map Prod.fst) → (¬ ∀ e ∈ m, Small e.2) →
        m.foldlM (fun m e => Store.addEntry m e.1 e.2) m0 = .ub := by
      intro m
      induction m with
      | nil => intro _ _ _ _ _ h; exact absurd (by simp) h
      | cons e m ih =>
        intro hs m0 l ht hd h
        have hs' := List.pairwise_cons.1 hs
        rw [List.foldlM_cons]
        by_cases he : Small e.2
        · obtain ⟨m1, h1, h2⟩ := Store.addEntry_tally ht e.1 he
          rw [h1, Res.bind_ok]
          refine ih hs'.2 m1 _ h2 (fun e' he' hmem => ?_) fun h' => h ?_
          · rw [List.map_append, List.mem_append] at hmem
            rcases hmem with hmem | hmem
            · exact hd e' (by simp [he']) hmem
            · simp only [List.map_cons, List.map_nil, List.mem_singleton] at hmem
              have := hs'.1 e' he'
              rw [hmem, LawfulLess.irrefl] at this
              exact absurd this (by simp)
          · intro e' he'
            rcases List.mem_cons.1 he' with rfl | he'
            · exact he
            · exact h' e' he'
        · have : Store.addEntry m0 e.1 e.2 = .ub := by
            unfold Store.addEntry
            rw [ht.find?, if_neg (hd e (by simp))]
            simp only [copyCount_large he]
            rfl
          rw [this]
          rfl
    exact key m hs [] [] Tally.nil (by simp) h

/-! ### Non-trivial instances -/

/-- C27 on `y^2 = x^3 + x`, which has the key of its twist, `y^2 = x^3 + x + 3`, and `y^2 = x^3 + 1` over the field of
7 elements. -/
example : (do
    let t ← FqElementTable.make (fun _ => (3 : ZMod 7)) 7 1 1
    let rt ← ReductionTable.make rep7.coeff (fun _ => (3 : ZMod 7)) 7 1 false 1
    let cs ← [[6, 0, 6, 0], [1, 0, 6, 0], [0, 6, 6, 0]].mapM fun v => do
      let c ← Curve.make t v
      c.count rt
    cs.foldlM (Store.registerCurve
      ⟨rep7.coeff, fun _ => false, fun _ => false, fun _ => [], fun _ => []⟩) ([] : StoreMap)) = .ok
    [(⟨[1, 1, 1, 1], [-4]⟩, 21), (⟨[1, 1, 1, 1], [4]⟩, 21), (⟨[1, 1, 2], [-2]⟩, 126), (⟨[1, 1, 2], [0]⟩, 42),
      (⟨[1, 1, 2], [2]⟩, 126)] := by decide

/-- A store of two keys that are twists of each other, and one of its own twist. -/
def exampleStore : StoreMap := [(⟨[1, 1, 2], [-3, 0]⟩, 7), (⟨[1, 1, 2], [0, 5]⟩, 12), (⟨[1, 1, 2], [3, 0]⟩, 7)]

example : OMap.Sorted exampleStore ∧ (∀ e ∈ exampleStore, e.1.Fits) ∧ (∀ e ∈ exampleStore, Small e.2) := by
  refine ⟨by unfold OMap.Sorted; decide, fun e he => ⟨?_, ?_, ?_, ?_⟩, ?_⟩
  · revert e; decide
  · revert e; decide
  · revert e; decide
  · revert e; decide
  · unfold Small; decide

/-- C30 on a store with three keys. -/
example : Store.print exampleStore = "1,1,2;-3,0:7\n1,1,2;0,5:12\n1,1,2;3,0:7\n".toList ∧
    Store.extract [] (IStream.ofList "1,1,2;-3,0:7\n1,1,2;0,5:12\n1,1,2;3,0:7\n".toList) = .ok exampleStore := by
  decide

/-- A key without offsets is not read back: the last degree is taken for the offset. -/
example : Key.parse (Key.print ⟨[2, 4], []⟩) = .ok ⟨[2, 4], [4]⟩ := by decide

/-- A key without ramification type and an empty line. -/
example : Key.parse (Key.print ⟨[], [3]⟩) = .ok ⟨[0], []⟩ ∧ Key.parse [] = .ub := by decide

/-- C31 on a record with two blocks; a bound that does not fit in `int` is lost. -/
example : Record.extract [] (IStream.ofList (Record.print [[(0, 1), (2, 5)], [(1, 2), (2, 5)]])) =
      .ok [[], [(0, 1), (2, 5)], [(1, 2), (2, 5)]] ∧
    Record.extract [] (IStream.ofList "0 3000000000 \n".toList) = .ok [[]] := by decide

/-- A record file that cannot be opened is read forever. -/
example : ∀ n, Record.extractLoop n ⟨[], false, true⟩ [] = .diverge := by
  have : ∀ n r, (r = [] ∨ r = [[]]) → Record.extractLoop n ⟨[], false, true⟩ r = .diverge := by
    intro n
    induction n with
    | zero => intros; rfl
    | succ n ih =>
      intro r hr
      have h : Record.extractBlock ⟨[], false, true⟩ = .ok (⟨[], false, true⟩, []) := by decide
      unfold Record.extractLoop
      rw [if_neg (by simp), h, Res.bind_ok]
      refine ih _ ?_
      rcases hr with rfl | rfl
      · right; decide
      · right; decide
  exact fun n => this n [] (Or.inl rfl)

/-- C28, C29 on two flushes with a save in between. -/
example : runHistory (fun b => if b = [(0, 1)] then exampleStore else [(⟨[1, 1, 2], [0, 5]⟩, 4)])
      [.flush [(0, 1)], .flush [(1, 2)], .save, .flush [(2, 3)]] ⟨[], []⟩ =
    .ok (⟨[[(2, 3)]], [(⟨[1, 1, 2], [0, 5]⟩, 4)]⟩,
      [("0 1 \n1 2 \n".toList, "1,1,2;-3,0:7\n1,1,2;0,5:16\n1,1,2;3,0:7\n".toList)]) := by
  rfl

/-- C36: a store with a count of `2^62` cannot be read back. -/
example : Store.extract [] (IStream.ofList "1,1,2;0,5:4611686018427387904\n".toList) = .ub ∧
    Store.extract [] (IStream.ofList "1,1,2;0,5:4611686018427387903\n1,1,2;0,5:4611686018427387903\n".toList) =
      .ok [(⟨[1, 1, 2], [0, 5]⟩, 9223372036854775806)] := by
  decide

end Hycu
