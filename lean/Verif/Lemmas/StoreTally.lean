import Verif.Spec.Tally
import Verif.Lemmas.KeyOrder
import Mathlib.Algebra.BigOperators.Group.List.Basic

/-!
Stores as tallies of contributions.
-/

namespace Hycu

theorem total_nil (k : Key) : total [] k = 0 := rfl

theorem total_cons (e : Key × Int) (l : List (Key × Int)) (k : Key) :
    total (e :: l) k = (if e.1 = k then e.2 else 0) + total l k := by
  unfold total
  rw [List.filter_cons]
  by_cases h : e.1 = k
  · simp [h]
  · simp [h]

theorem total_append (l l' : List (Key × Int)) (k : Key) : total (l ++ l') k = total l k + total l' k := by
  simp [total]

theorem total_perm {l l' : List (Key × Int)} (h : l.Perm l') (k : Key) : total l k = total l' k :=
  ((h.filter _).map _).sum_eq

theorem total_of_not_mem {l : List (Key × Int)} {k : Key} (h : k ∉ l.map Prod.fst) : total l k = 0 := by
  unfold total
  rw [List.filter_eq_nil_iff.2]
  · rfl
  · intro e he
    simp only [decide_eq_true_eq]
    rintro rfl
    exact h (List.mem_map_of_mem he)

theorem total_flatten (ls : List (List (Key × Int))) (k : Key) :
    total ls.flatten k = (ls.map fun l => total l k).sum := by
  induction ls with
  | nil => rfl
  | cons l ls ih => rw [List.flatten_cons, total_append, ih]; rfl

namespace Tally

theorem find? {m : StoreMap} {l : List (Key × Int)} (h : Tally m l) (k : Key) :
    OMap.find? m k = if k ∈ l.map Prod.fst then some (total l k) else none := by
  split
  · rename_i hk
    exact (OMap.find?_eq_some h.sorted).2 ((h.entry k _).2 ⟨hk, rfl⟩)
  · rename_i hk
    exact (OMap.find?_eq_none h.sorted).2 fun v hv => hk ((h.entry k v).1 hv).1

theorem of_find? {m : StoreMap} {l : List (Key × Int)} (hs : OMap.Sorted m)
    (h : ∀ k, OMap.find? m k = if k ∈ l.map Prod.fst then some (total l k) else none) : Tally m l := by
  refine ⟨hs, fun k z => ?_⟩
  rw [← OMap.find?_eq_some hs, h k]
  split
  · rename_i hk
    rw [Option.some.injEq, eq_comm]
    exact ⟨fun h => ⟨hk, h⟩, fun h => h.2⟩
  · rename_i hk
    simp [hk]

theorem nil : Tally [] [] := ⟨OMap.sorted_nil, by simp⟩

theorem unique {m m' : StoreMap} {l l' : List (Key × Int)} (h : Tally m l) (h' : Tally m' l') (hp : l.Perm l') :
    m = m' := by
  apply OMap.ext_find? h.sorted h'.sorted
  intro k
  rw [h.find?, h'.find?, total_perm hp]
  exact if_congr (hp.map Prod.fst).mem_iff rfl rfl

theorem perm {m : StoreMap} {l l' : List (Key × Int)} (h : Tally m l) (hp : l.Perm l') : Tally m l' :=
  ⟨h.sorted, fun k z => by rw [h.entry, total_perm hp, (hp.map Prod.fst).mem_iff]⟩

/-- A sorted map is the tally of its own entries. -/
theorem self {m : StoreMap} (hs : OMap.Sorted m) : Tally m m := by
  refine ⟨hs, fun k z => ?_⟩
  have key : ∀ (m : StoreMap), OMap.Sorted m → ∀ k v, (k, v) ∈ m → total m k = v := by
    intro m
    induction m with
    | nil => intro _ k v h; exact absurd h (by simp)
    | cons e m ih =>
      intro hs k v h
      have hs' := List.pairwise_cons.1 hs
      rw [total_cons]
      rcases List.mem_cons.1 h with h | h
      · subst h
        rw [if_pos rfl, total_of_not_mem, Int.add_zero]
        intro hk
        obtain ⟨e, he, rfl⟩ := List.mem_map.1 hk
        have := hs'.1 e he
        rw [LawfulLess.irrefl] at this
        exact absurd this (by simp)
      · rw [if_neg, ih hs'.2 k v h, Int.zero_add]
        rintro rfl
        have := hs'.1 _ h
        rw [LawfulLess.irrefl] at this
        exact absurd this (by simp)
  constructor
  · intro h
    exact ⟨List.mem_map.2 ⟨_, h, rfl⟩, (key m hs k z h).symm⟩
  · rintro ⟨h, rfl⟩
    obtain ⟨⟨k', v⟩, he, rfl⟩ := List.mem_map.1 h
    rw [key m hs _ v he]
    exact he

/-- Contributions may be replaced by others with the same keys and the same sums. -/
theorem congr {m : StoreMap} {l l' : List (Key × Int)} (h : Tally m l)
    (h1 : ∀ k, k ∈ l.map Prod.fst ↔ k ∈ l'.map Prod.fst) (h2 : ∀ k, total l k = total l' k) : Tally m l' :=
  ⟨h.sorted, fun k z => by rw [h.entry, h1, h2]⟩

theorem mem_keys {m : StoreMap} {l : List (Key × Int)} (h : Tally m l) (k : Key) :
    k ∈ m.map Prod.fst ↔ k ∈ l.map Prod.fst := by
  constructor
  · intro hk
    obtain ⟨⟨k', v⟩, he, rfl⟩ := List.mem_map.1 hk
    exact ((h.entry _ _).1 he).1
  · intro hk
    exact List.mem_map.2 ⟨_, (h.entry k _).2 ⟨hk, rfl⟩, rfl⟩

theorem total_eq {m : StoreMap} {l : List (Key × Int)} (h : Tally m l) (k : Key) : total m k = total l k := by
  have h1 := (self h.sorted).find? k
  rw [h.find? k] at h1
  by_cases hk : k ∈ l.map Prod.fst
  · rw [if_pos hk, if_pos ((h.mem_keys k).2 hk)] at h1
    exact (Option.some.inj h1).symm
  · rw [total_of_not_mem hk, total_of_not_mem fun h2 => hk ((h.mem_keys k).1 h2)]

/-- `m` with one entry set. -/
theorem set {m : StoreMap} {l : List (Key × Int)} (h : Tally m l) (k : Key) (z : Int) :
    Tally (OMap.set m k (total l k + z)) (l ++ [(k, z)]) := by
  refine of_find? (OMap.sorted_set h.sorted _ _) fun k' => ?_
  rw [OMap.find?_set h.sorted, h.find?, total_append, total_cons, total_nil, List.map_append]
  by_cases hk : k' = k
  · subst hk
    simp
  · have hk' : ¬ k = k' := fun h => hk h.symm
    rw [if_neg hk, if_neg hk', Int.add_zero, Int.add_zero]
    refine if_congr ?_ rfl rfl
    rw [List.mem_append]
    exact ⟨Or.inl, fun h => h.resolve_right (by simpa using hk)⟩

end Tally

theorem copyCount_small {z : Int} (h : Small z) : copyCount z = .ok z := if_pos h

theorem copyCount_large {z : Int} (h : ¬ Small z) : copyCount z = .ub := if_neg h

theorem copyCount_eq_ok {z w : Int} : copyCount z = .ok w ↔ Small z ∧ w = z := by
  unfold copyCount
  split
  · rename_i h
    exact ⟨fun h' => ⟨h, (Res.ok.inj h').symm⟩, fun h' => by rw [h'.2]⟩
  · rename_i h
    exact ⟨fun h' => absurd h' (by simp), fun h' => absurd h'.1 h⟩

namespace Store

theorem addAt_tally {m : StoreMap} {l : List (Key × Int)} (h : Tally m l) (k : Key) (z : Int) :
    Tally (addAt m k z) (l ++ [(k, z)]) := by
  have := h.set k z
  unfold addAt
  rw [h.find?]
  by_cases hk : k ∈ l.map Prod.fst
  · rw [if_pos hk]
    exact this
  · rw [if_neg hk]
    rw [total_of_not_mem hk] at this
    exact this

/-- An entry is added; a new one must not be large. -/
theorem addEntry_tally {m : StoreMap} {l : List (Key × Int)} (h : Tally m l) (k : Key) {z : Int} (hz : Small z) :
    ∃ m', addEntry m k z = .ok m' ∧ Tally m' (l ++ [(k, z)]) := by
  have := h.set k z
  unfold addEntry
  rw [h.find?]
  by_cases hk : k ∈ l.map Prod.fst
  · rw [if_pos hk]
    exact ⟨_, rfl, this⟩
  · rw [if_neg hk]
    rw [total_of_not_mem hk, Int.zero_add] at this
    simp only [copyCount_small hz]
    exact ⟨_, rfl, this⟩

theorem addEntries_tally : ∀ (l' : List (Key × Int)) {m : StoreMap} {l : List (Key × Int)}, Tally m l →
    (∀ e ∈ l', Small e.2) →
    ∃ m', l'.foldlM (fun m e => addEntry m e.1 e.2) m = .ok m' ∧ Tally m' (l ++ l')
  | [], m, l, h, _ => ⟨m, rfl, by rwa [List.append_nil]⟩
  | e :: l', m, l, h, hs => by
    obtain ⟨m1, h1, h2⟩ := addEntry_tally h e.1 (hs e (by simp))
    obtain ⟨m2, h3, h4⟩ := addEntries_tally l' h2 fun e he => hs e (by simp [he])
    refine ⟨m2, ?_, ?_⟩
    · rw [List.foldlM_cons, h1]
      exact h3
    · rwa [List.append_assoc] at h4

/-- Registering a curve, when its key is present exactly if its twisted key is. -/
theorem registerData_tally {m : StoreMap} {l : List (Key × Int)} (h : Tally m l) {k t : Key} {z : Int}
    (hkt : k ∈ l.map Prod.fst ↔ t ∈ l.map Prod.fst) (hz : k ∉ l.map Prod.fst → Small z) :
    ∃ m', registerData m k t z = .ok m' ∧ Tally m' (l ++ [(k, z), (t, z)]) := by
  have hset := h.set k z
  have happ : l ++ [(k, z), (t, z)] = (l ++ [(k, z)]) ++ [(t, z)] := by simp
  unfold registerData
  rw [h.find?]
  by_cases hk : k ∈ l.map Prod.fst
  · rw [if_pos hk]
    exact ⟨_, rfl, by rw [happ]; exact addAt_tally hset t z⟩
  · rw [if_neg hk]
    have hz := copyCount_small (hz hk)
    rw [total_of_not_mem hk, Int.zero_add] at hset
    simp only [registerNew, hz, Res.bind_ok]
    by_cases htk : t = k
    · rw [if_pos htk]
      exact ⟨_, rfl, by rw [happ, htk]; exact addAt_tally hset k z⟩
    · rw [if_neg htk]
      refine ⟨_, rfl, ?_⟩
      have h2 := hset.set t z
      rw [total_append, total_of_not_mem fun h => hk (hkt.2 h), total_cons, total_nil,
        if_neg (fun h => htk h.symm)] at h2
      simp only [Int.zero_add, Int.add_zero] at h2
      rw [happ]
      exact h2

end Store
end Hycu
