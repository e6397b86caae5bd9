import Verif.Cpp.Basic

/-
`std::map` and `std::set` as lists sorted by the code's own comparison.  A search walks along the
sorted sequence with the comparison only (as the tree search does); `operator==` of the key type is
never used, as in C++.
-/

namespace Hycu

/-- The comparison `std::less<K>` used by `std::map`, `std::set` and `operator<` of the type. -/
class CppLess (K : Type) where
  lt : K → K → Bool

/-- What the C++ standard asks of the comparison (strict weak order), plus: equivalent keys are equal. -/
class LawfulLess (K : Type) [CppLess K] : Prop where
  irrefl : ∀ a : K, CppLess.lt a a = false
  trans : ∀ a b c : K, CppLess.lt a b = true → CppLess.lt b c = true → CppLess.lt a c = true
  total : ∀ a b : K, CppLess.lt a b = false → CppLess.lt b a = false → a = b

/-- `std::map<K,V>`: its entries in iteration order. -/
abbrev OMap (K V : Type) := List (K × V)

namespace OMap

variable {K V : Type} [CppLess K]

/-- `m.find(x)`. -/
def find? : OMap K V → K → Option V
  | [], _ => none
  | (k, v) :: m, x =>
    if CppLess.lt k x then find? m x
    else if CppLess.lt x k then none
    else some v

/-- `m.count(x) != 0`. -/
def contains (m : OMap K V) (x : K) : Bool := (find? m x).isSome

/-- `m[x] = v`. -/
def set : OMap K V → K → V → OMap K V
  | [], x, w => [(x, w)]
  | (k, v) :: m, x, w =>
    if CppLess.lt k x then (k, v) :: set m x w
    else if CppLess.lt x k then (x, w) :: (k, v) :: m
    else (k, w) :: m

/-- `m.erase(m.find(x))`. -/
def erase : OMap K V → K → OMap K V
  | [], _ => []
  | (k, v) :: m, x =>
    if CppLess.lt k x then (k, v) :: erase m x
    else if CppLess.lt x k then (k, v) :: m
    else m

/-- The invariant of a `std::map`: keys strictly increasing in iteration order. -/
def Sorted (m : OMap K V) : Prop := m.Pairwise (fun a b => CppLess.lt a.1 b.1 = true)

theorem sorted_nil : Sorted ([] : OMap K V) := List.Pairwise.nil

variable [LawfulLess K]

theorem find?_of_mem {m : OMap K V} (hs : Sorted m) {k : K} {v : V} (h : (k, v) ∈ m) :
    find? m k = some v := by
  induction m with
  | nil => cases h
  | cons e m ih =>
    obtain ⟨k', v'⟩ := e
    unfold Sorted at hs
    rw [List.pairwise_cons] at hs
    rcases List.mem_cons.1 h with h | h
    · cases h
      simp [find?, LawfulLess.irrefl]
    · have := hs.1 _ h
      simp only at this
      simp [find?, this, ih hs.2 h]

theorem mem_of_find? {m : OMap K V} {k : K} {v : V} (h : find? m k = some v) : (k, v) ∈ m := by
  induction m with
  | nil => simp [find?] at h
  | cons e m ih =>
    obtain ⟨k', v'⟩ := e
    unfold find? at h
    split at h
    · exact List.mem_cons_of_mem _ (ih h)
    · rename_i h1
      split at h
      · cases h
      · rename_i h2
        have : k' = k := LawfulLess.total _ _ (by simpa using h1) (by simpa using h2)
        cases h
        subst this
        exact List.mem_cons_self

theorem find?_eq_some {m : OMap K V} (hs : Sorted m) {k : K} {v : V} :
    find? m k = some v ↔ (k, v) ∈ m :=
  ⟨mem_of_find?, find?_of_mem hs⟩

theorem find?_eq_none {m : OMap K V} (hs : Sorted m) {k : K} :
    find? m k = none ↔ ∀ v, (k, v) ∉ m := by
  constructor
  · intro h v hv
    rw [find?_of_mem hs hv] at h
    cases h
  · intro h
    cases hf : find? m k with
    | none => rfl
    | some v => exact absurd (mem_of_find? hf) (h v)

theorem key_unique {m : OMap K V} (hs : Sorted m) {k : K} {v w : V} (h1 : (k, v) ∈ m)
    (h2 : (k, w) ∈ m) : v = w := by
  have := find?_of_mem hs h1
  rw [find?_of_mem hs h2] at this
  exact (Option.some.inj this).symm

theorem find?_nil_of_lt {m : OMap K V} (hs : Sorted m) {x : K}
    (h : ∀ e ∈ m, CppLess.lt x e.1 = true) : find? m x = none := by
  rw [find?_eq_none hs]
  intro v hv
  have := h _ hv
  rw [LawfulLess.irrefl] at this
  cases this

theorem mem_set {m : OMap K V} {x : K} {w : V} {e : K × V} (h : e ∈ set m x w) :
    e = (x, w) ∨ e ∈ m := by
  induction m with
  | nil => simp [set] at h; exact .inl h
  | cons a m ih =>
    obtain ⟨k, v⟩ := a
    unfold set at h
    split at h
    · rcases List.mem_cons.1 h with h | h
      · exact .inr (h ▸ List.mem_cons_self)
      · rcases ih h with h | h
        · exact .inl h
        · exact .inr (List.mem_cons_of_mem _ h)
    · rename_i h1
      split at h
      · rcases List.mem_cons.1 h with h | h
        · exact .inl h
        · exact .inr h
      · rename_i h2
        have : k = x := LawfulLess.total _ _ (by simpa using h1) (by simpa using h2)
        rcases List.mem_cons.1 h with h | h
        · left; rw [h, this]
        · exact .inr (List.mem_cons_of_mem _ h)

theorem sorted_set {m : OMap K V} (hs : Sorted m) (x : K) (w : V) : Sorted (set m x w) := by
  induction m with
  | nil => simp [set, Sorted]
  | cons a m ih =>
    obtain ⟨k, v⟩ := a
    unfold Sorted at hs
    rw [List.pairwise_cons] at hs
    unfold set
    split
    · rename_i h1
      unfold Sorted
      rw [List.pairwise_cons]
      refine ⟨?_, ih hs.2⟩
      intro e he
      rcases mem_set he with rfl | he
      · exact h1
      · exact hs.1 _ he
    · split
      · rename_i h1 h2
        unfold Sorted
        rw [List.pairwise_cons]
        refine ⟨?_, List.pairwise_cons.2 hs⟩
        intro e he
        rcases List.mem_cons.1 he with rfl | he
        · exact h2
        · exact LawfulLess.trans _ _ _ h2 (hs.1 _ he)
      · unfold Sorted
        rw [List.pairwise_cons]
        exact hs

theorem find?_set_self {m : OMap K V} (hs : Sorted m) (x : K) (w : V) :
    find? (set m x w) x = some w := by
  induction m with
  | nil => simp [set, find?, LawfulLess.irrefl]
  | cons a m ih =>
    obtain ⟨k, v⟩ := a
    unfold Sorted at hs
    rw [List.pairwise_cons] at hs
    unfold set
    split
    · rename_i h1
      simp [find?, h1, ih hs.2]
    · rename_i h1
      split
      · simp [find?, LawfulLess.irrefl]
      · rename_i h2
        simp [find?, h1, h2]

theorem find?_set_of_ne {m : OMap K V} (hs : Sorted m) {x y : K} (hne : y ≠ x) (w : V) :
    find? (set m x w) y = find? m y := by
  have hs' := sorted_set hs x w
  cases h : find? m y with
  | some v =>
    rw [find?_eq_some hs']
    have hm := mem_of_find? h
    clear h hs hs'
    induction m with
    | nil => cases hm
    | cons a m ih =>
      obtain ⟨k, u⟩ := a
      unfold set
      split
      · rcases List.mem_cons.1 hm with h | h
        · exact h ▸ List.mem_cons_self
        · exact List.mem_cons_of_mem _ (ih h)
      · rename_i h1
        split
        · exact List.mem_cons_of_mem _ hm
        · rename_i h2
          have : k = x := LawfulLess.total _ _ (by simpa using h1) (by simpa using h2)
          rcases List.mem_cons.1 hm with h | h
          · cases h
            exact absurd this hne
          · exact List.mem_cons_of_mem _ h
  | none =>
    rw [find?_eq_none hs']
    intro v hv
    rcases mem_set hv with h' | h'
    · exact hne (by cases h'; rfl)
    · exact (find?_eq_none hs).1 h v h'

theorem find?_set [DecidableEq K] {m : OMap K V} (hs : Sorted m) (x y : K) (w : V) :
    find? (set m x w) y = if y = x then some w else find? m y := by
  split
  · rename_i h
    rw [h, find?_set_self hs]
  · rename_i h
    exact find?_set_of_ne hs h w

theorem mem_erase {m : OMap K V} (hs : Sorted m) {x : K} {e : K × V} :
    e ∈ erase m x ↔ e ∈ m ∧ e.1 ≠ x := by
  induction m with
  | nil => simp [erase]
  | cons a m ih =>
    obtain ⟨k, v⟩ := a
    unfold Sorted at hs
    rw [List.pairwise_cons] at hs
    unfold erase
    split
    · rename_i h1
      have hk : k ≠ x := by
        rintro rfl
        rw [LawfulLess.irrefl] at h1
        cases h1
      rw [List.mem_cons, ih hs.2, List.mem_cons]
      constructor
      · rintro (rfl | h)
        · exact ⟨.inl rfl, hk⟩
        · exact ⟨.inr h.1, h.2⟩
      · rintro ⟨rfl | h, h'⟩
        · exact .inl rfl
        · exact .inr ⟨h, h'⟩
    · rename_i h1
      split
      · rename_i h2
        constructor
        · intro h
          refine ⟨h, ?_⟩
          rintro rfl
          rcases List.mem_cons.1 h with rfl | h
          · simp [LawfulLess.irrefl] at h2
          · have := LawfulLess.trans _ _ _ h2 (hs.1 _ h)
            simp [LawfulLess.irrefl] at this
        · exact fun h => h.1
      · rename_i h2
        have : k = x := LawfulLess.total _ _ (by simpa using h1) (by simpa using h2)
        subst this
        constructor
        · intro h
          refine ⟨List.mem_cons_of_mem _ h, ?_⟩
          intro he
          have := hs.1 _ h
          rw [he, LawfulLess.irrefl] at this
          cases this
        · rintro ⟨h, h'⟩
          rcases List.mem_cons.1 h with rfl | h
          · exact absurd rfl h'
          · exact h

omit [LawfulLess K] in
theorem sorted_erase {m : OMap K V} (hs : Sorted m) (x : K) : Sorted (erase m x) := by
  refine List.Pairwise.sublist ?_ hs
  clear hs
  induction m with
  | nil => exact List.Sublist.refl _
  | cons a m ih =>
    obtain ⟨k, v⟩ := a
    unfold erase
    split
    · exact ih.cons_cons _
    · split
      · exact List.Sublist.refl _
      · exact List.sublist_cons_self _ _

theorem find?_erase [DecidableEq K] {m : OMap K V} (hs : Sorted m) (x y : K) :
    find? (erase m x) y = if y = x then none else find? m y := by
  split
  · rename_i h
    rw [find?_eq_none (sorted_erase hs x)]
    intro v hv
    exact ((mem_erase hs).1 hv).2 h
  · rename_i h
    cases hf : find? m y with
    | none =>
      rw [find?_eq_none (sorted_erase hs x)]
      intro v hv
      exact (find?_eq_none hs).1 hf v ((mem_erase hs).1 hv).1
    | some v =>
      rw [find?_eq_some (sorted_erase hs x), mem_erase hs]
      exact ⟨mem_of_find? hf, h⟩

/-- Two maps with the same lookups are the same map. -/
theorem ext_find? {m n : OMap K V} (hm : Sorted m) (hn : Sorted n)
    (h : ∀ k, find? m k = find? n k) : m = n := by
  induction m generalizing n with
  | nil =>
    cases n with
    | nil => rfl
    | cons b n =>
      have := h b.1
      rw [find?_of_mem hn (k := b.1) (v := b.2) List.mem_cons_self] at this
      simp [find?] at this
  | cons a m ih =>
    cases n with
    | nil =>
      have := h a.1
      rw [find?_of_mem hm (k := a.1) (v := a.2) List.mem_cons_self] at this
      simp [find?] at this
    | cons b n =>
      have hab : a = b := by
        have h1 := h a.1
        rw [find?_of_mem hm (k := a.1) (v := a.2) List.mem_cons_self] at h1
        have h1 := mem_of_find? h1.symm
        have h2 := h b.1
        rw [find?_of_mem hn (k := b.1) (v := b.2) List.mem_cons_self] at h2
        have h2 := mem_of_find? h2
        rcases List.mem_cons.1 h1 with h1 | h1
        · exact h1
        · rcases List.mem_cons.1 h2 with h2 | h2
          · exact h2.symm
          · have l1 := (List.pairwise_cons.1 hn).1 _ h1
            have l2 := (List.pairwise_cons.1 hm).1 _ h2
            have := LawfulLess.trans _ _ _ l1 l2
            simp [LawfulLess.irrefl] at this
      subst hab
      have hm' := List.pairwise_cons.1 hm
      have hn' := List.pairwise_cons.1 hn
      congr 1
      refine ih hm'.2 hn'.2 ?_
      intro k
      have hk := h k
      unfold find? at hk
      split at hk
      · exact hk
      · rename_i h1
        have hlt : ∀ (l : OMap K V), (∀ e ∈ l, CppLess.lt a.1 e.1 = true) →
            Sorted l → find? l k = none := by
          intro l hl hsl
          rw [find?_eq_none hsl]
          intro v hv
          exact h1 (hl _ hv)
        rw [hlt m hm'.1 hm'.2, hlt n hn'.1 hn'.2]

end OMap

/-- `std::set<K>`: its elements in iteration order. -/
abbrev OSet (K : Type) := List K

namespace OSet

variable {K : Type} [CppLess K]

/-- `s.count(x) != 0`. -/
def contains : OSet K → K → Bool
  | [], _ => false
  | k :: s, x =>
    if CppLess.lt k x then contains s x
    else if CppLess.lt x k then false
    else true

/-- `s.insert(x)`. -/
def insert : OSet K → K → OSet K
  | [], x => [x]
  | k :: s, x =>
    if CppLess.lt k x then k :: insert s x
    else if CppLess.lt x k then x :: k :: s
    else k :: s

/-- `s.erase(s.find(x))`. -/
def erase : OSet K → K → OSet K
  | [], _ => []
  | k :: s, x =>
    if CppLess.lt k x then k :: erase s x
    else if CppLess.lt x k then k :: s
    else s

/-- The invariant of a `std::set`. -/
def Sorted (s : OSet K) : Prop := s.Pairwise (fun a b => CppLess.lt a b = true)

variable [LawfulLess K]

theorem contains_iff {s : OSet K} (hs : Sorted s) {x : K} : contains s x = true ↔ x ∈ s := by
  induction s with
  | nil => simp [contains]
  | cons k s ih =>
    have hs' := List.pairwise_cons.1 hs
    unfold contains
    split
    · rename_i h1
      rw [ih hs'.2, List.mem_cons]
      constructor
      · exact .inr
      · rintro (rfl | h)
        · simp [LawfulLess.irrefl] at h1
        · exact h
    · rename_i h1
      split
      · rename_i h2
        simp only [Bool.false_eq_true, false_iff, List.mem_cons]
        rintro (rfl | h)
        · simp [LawfulLess.irrefl] at h2
        · have := LawfulLess.trans _ _ _ h2 (hs'.1 _ h)
          simp [LawfulLess.irrefl] at this
      · rename_i h2
        have : k = x := LawfulLess.total _ _ (by simpa using h1) (by simpa using h2)
        simp [this]

theorem mem_insert {s : OSet K} {x y : K} : y ∈ insert s x ↔ y = x ∨ y ∈ s := by
  induction s with
  | nil => simp [insert]
  | cons k s ih =>
    unfold insert
    split
    · rw [List.mem_cons, ih, List.mem_cons]
      constructor
      · rintro (h | h | h)
        · exact .inr (.inl h)
        · exact .inl h
        · exact .inr (.inr h)
      · rintro (h | h | h)
        · exact .inr (.inl h)
        · exact .inl h
        · exact .inr (.inr h)
    · rename_i h1
      split
      · rw [List.mem_cons]
      · rename_i h2
        have : k = x := LawfulLess.total _ _ (by simpa using h1) (by simpa using h2)
        subst this
        simp

theorem sorted_insert {s : OSet K} (hs : Sorted s) (x : K) : Sorted (insert s x) := by
  induction s with
  | nil => simp [insert, Sorted]
  | cons k s ih =>
    have hs' := List.pairwise_cons.1 hs
    unfold insert
    split
    · rename_i h1
      refine List.pairwise_cons.2 ⟨?_, ih hs'.2⟩
      intro e he
      rcases mem_insert.1 he with rfl | he
      · exact h1
      · exact hs'.1 _ he
    · split
      · rename_i h1 h2
        refine List.pairwise_cons.2 ⟨?_, hs⟩
        intro e he
        rcases List.mem_cons.1 he with rfl | he
        · exact h2
        · exact LawfulLess.trans _ _ _ h2 (hs'.1 _ he)
      · exact hs

theorem mem_erase {s : OSet K} (hs : Sorted s) {x y : K} : y ∈ erase s x ↔ y ∈ s ∧ y ≠ x := by
  induction s with
  | nil => simp [erase]
  | cons k s ih =>
    have hs' := List.pairwise_cons.1 hs
    unfold erase
    split
    · rename_i h1
      have hk : k ≠ x := by
        rintro rfl
        simp [LawfulLess.irrefl] at h1
      rw [List.mem_cons, ih hs'.2, List.mem_cons]
      constructor
      · rintro (rfl | h)
        · exact ⟨.inl rfl, hk⟩
        · exact ⟨.inr h.1, h.2⟩
      · rintro ⟨rfl | h, h'⟩
        · exact .inl rfl
        · exact .inr ⟨h, h'⟩
    · rename_i h1
      split
      · rename_i h2
        refine ⟨fun h => ⟨h, ?_⟩, fun h => h.1⟩
        rintro rfl
        rcases List.mem_cons.1 h with rfl | h
        · simp [LawfulLess.irrefl] at h2
        · have := LawfulLess.trans _ _ _ h2 (hs'.1 _ h)
          simp [LawfulLess.irrefl] at this
      · rename_i h2
        have : k = x := LawfulLess.total _ _ (by simpa using h1) (by simpa using h2)
        subst this
        constructor
        · intro h
          refine ⟨List.mem_cons_of_mem _ h, ?_⟩
          rintro rfl
          have := hs'.1 _ h
          simp [LawfulLess.irrefl] at this
        · rintro ⟨h, h'⟩
          rcases List.mem_cons.1 h with rfl | h
          · exact absurd rfl h'
          · exact h

omit [LawfulLess K] in
theorem sorted_erase {s : OSet K} (hs : Sorted s) (x : K) : Sorted (erase s x) := by
  refine List.Pairwise.sublist ?_ hs
  clear hs
  induction s with
  | nil => exact List.Sublist.refl _
  | cons k s ih =>
    unfold erase
    split
    · exact ih.cons_cons _
    · split
      · exact List.Sublist.refl _
      · exact List.sublist_cons_self _ _

theorem sorted_nodup {s : OSet K} (hs : Sorted s) : s.Nodup := by
  refine List.Pairwise.imp ?_ hs
  intro a b h hab
  subst hab
  simp [LawfulLess.irrefl] at h

/-- Two sets with the same elements are the same set. -/
theorem ext_mem {s t : OSet K} (hs : Sorted s) (ht : Sorted t) (h : ∀ x, x ∈ s ↔ x ∈ t) : s = t := by
  induction s generalizing t with
  | nil =>
    cases t with
    | nil => rfl
    | cons b t => exact absurd ((h b).2 List.mem_cons_self) (by simp)
  | cons a s ih =>
    cases t with
    | nil => exact absurd ((h a).1 List.mem_cons_self) (by simp)
    | cons b t =>
      have hs' := List.pairwise_cons.1 hs
      have ht' := List.pairwise_cons.1 ht
      have hab : a = b := by
        rcases List.mem_cons.1 ((h a).1 List.mem_cons_self) with h1 | h1
        · exact h1
        · rcases List.mem_cons.1 ((h b).2 List.mem_cons_self) with h2 | h2
          · exact h2.symm
          · have := LawfulLess.trans _ _ _ (ht'.1 _ h1) (hs'.1 _ h2)
            simp [LawfulLess.irrefl] at this
      subst hab
      congr 1
      refine ih hs'.2 ht'.2 ?_
      intro x
      constructor
      · intro hx
        rcases List.mem_cons.1 ((h x).1 (List.mem_cons_of_mem _ hx)) with h1 | h1
        · subst h1
          have := hs'.1 _ hx
          simp [LawfulLess.irrefl] at this
        · exact h1
      · intro hx
        rcases List.mem_cons.1 ((h x).2 (List.mem_cons_of_mem _ hx)) with h1 | h1
        · subst h1
          have := ht'.1 _ hx
          simp [LawfulLess.irrefl] at this
        · exact h1

end OSet

/-! ### Comparison of the standard types -/

/-- `operator<` on unsigned integers. -/
instance : CppLess Nat := ⟨fun a b => decide (a < b)⟩

instance : LawfulLess Nat where
  irrefl a := by simp [CppLess.lt]
  trans a b c := by simp only [CppLess.lt, decide_eq_true_eq]; omega
  total a b := by simp only [CppLess.lt, decide_eq_false_iff_not]; omega

/-- `operator<` on (signed) integers. -/
instance : CppLess Int := ⟨fun a b => decide (a < b)⟩

instance : LawfulLess Int where
  irrefl a := by simp [CppLess.lt]
  trans a b c := by simp only [CppLess.lt, decide_eq_true_eq]; omega
  total a b := by simp only [CppLess.lt, decide_eq_false_iff_not]; omega

/-- `operator<` on `std::tuple<A,B>`: lexicographic. -/
instance {A B : Type} [CppLess A] [CppLess B] : CppLess (A × B) :=
  ⟨fun a b => CppLess.lt a.1 b.1 || (!CppLess.lt b.1 a.1 && CppLess.lt a.2 b.2)⟩

theorem LawfulLess.asymm {K : Type} [CppLess K] [LawfulLess K] {a b : K}
    (h : CppLess.lt a b = true) : CppLess.lt b a = false := by
  cases h' : CppLess.lt b a with
  | false => rfl
  | true =>
    have := LawfulLess.trans _ _ _ h h'
    rw [LawfulLess.irrefl] at this
    cases this

instance {A B : Type} [CppLess A] [CppLess B] [LawfulLess A] [LawfulLess B] : LawfulLess (A × B) where
  irrefl a := by simp [CppLess.lt, LawfulLess.irrefl]
  trans a b c := by
    simp only [CppLess.lt, Bool.or_eq_true, Bool.and_eq_true, Bool.not_eq_true']
    rintro (h1 | ⟨h1, h1'⟩) (h2 | ⟨h2, h2'⟩)
    · exact .inl (LawfulLess.trans _ _ _ h1 h2)
    · cases h : CppLess.lt b.1 c.1 with
      | true => exact .inl (LawfulLess.trans _ _ _ h1 h)
      | false => exact .inl (LawfulLess.total _ _ h h2 ▸ h1)
    · cases h : CppLess.lt a.1 b.1 with
      | true => exact .inl (LawfulLess.trans _ _ _ h h2)
      | false => exact .inl (LawfulLess.total _ _ h h1 ▸ h2)
    · cases h : CppLess.lt a.1 b.1 with
      | true =>
        cases h3 : CppLess.lt b.1 c.1 with
        | true => exact .inl (LawfulLess.trans _ _ _ h h3)
        | false => exact .inl (LawfulLess.total _ _ h3 h2 ▸ h)
      | false =>
        have e := LawfulLess.total _ _ h h1
        cases h3 : CppLess.lt b.1 c.1 with
        | true => exact .inl (e ▸ h3)
        | false =>
          have e' := LawfulLess.total _ _ h3 h2
          right
          rw [e, e', LawfulLess.irrefl]
          exact ⟨rfl, LawfulLess.trans _ _ _ h1' h2'⟩
  total a b := by
    simp only [CppLess.lt, Bool.or_eq_false_iff, Bool.and_eq_false_iff, Bool.not_eq_false']
    rintro ⟨h1, h2⟩ ⟨h3, h4⟩
    have e := LawfulLess.total _ _ h1 h3
    rw [h1] at h4
    rw [h3] at h2
    have := LawfulLess.total a.2 b.2 (by simpa using h2) (by simpa using h4)
    exact Prod.ext e this

/-- `operator<` on `std::vector`: lexicographic. -/
def lexLt {A : Type} [CppLess A] : List A → List A → Bool
  | [], [] => false
  | [], _ :: _ => true
  | _ :: _, [] => false
  | a :: l, b :: m => CppLess.lt a b || (!CppLess.lt b a && lexLt l m)

instance {A : Type} [CppLess A] : CppLess (List A) := ⟨lexLt⟩

instance {A : Type} [CppLess A] [LawfulLess A] : LawfulLess (List A) where
  irrefl a := by
    show lexLt a a = false
    induction a with
    | nil => rfl
    | cons a l ih => simp [lexLt, LawfulLess.irrefl, ih]
  trans a b c := by
    show lexLt a b = true → lexLt b c = true → lexLt a c = true
    induction a generalizing b c with
    | nil =>
      cases b <;> cases c <;> simp [lexLt]
    | cons x l ih =>
      cases b with
      | nil => simp [lexLt]
      | cons y m =>
        cases c with
        | nil => simp [lexLt]
        | cons z n =>
          simp only [lexLt, Bool.or_eq_true, Bool.and_eq_true, Bool.not_eq_true']
          rintro (h1 | ⟨h1, h1'⟩) (h2 | ⟨h2, h2'⟩)
          · exact .inl (LawfulLess.trans _ _ _ h1 h2)
          · cases h : CppLess.lt y z with
            | true => exact .inl (LawfulLess.trans _ _ _ h1 h)
            | false => exact .inl (LawfulLess.total _ _ h h2 ▸ h1)
          · cases h : CppLess.lt x y with
            | true => exact .inl (LawfulLess.trans _ _ _ h h2)
            | false => exact .inl (LawfulLess.total _ _ h h1 ▸ h2)
          · cases h : CppLess.lt x y with
            | true =>
              cases h3 : CppLess.lt y z with
              | true => exact .inl (LawfulLess.trans _ _ _ h h3)
              | false => exact .inl (LawfulLess.total _ _ h3 h2 ▸ h)
            | false =>
              have e := LawfulLess.total _ _ h h1
              cases h3 : CppLess.lt y z with
              | true => exact .inl (e ▸ h3)
              | false =>
                have e' := LawfulLess.total _ _ h3 h2
                right
                rw [e, e', LawfulLess.irrefl]
                exact ⟨rfl, ih _ _ h1' h2'⟩
  total a b := by
    show lexLt a b = false → lexLt b a = false → a = b
    induction a generalizing b with
    | nil => cases b <;> simp [lexLt]
    | cons x l ih =>
      cases b with
      | nil => simp [lexLt]
      | cons y m =>
        simp only [lexLt, Bool.or_eq_false_iff, Bool.and_eq_false_iff, Bool.not_eq_false']
        rintro ⟨h1, h2⟩ ⟨h3, h4⟩
        have e := LawfulLess.total _ _ h1 h3
        rw [h1] at h4
        rw [h3] at h2
        rw [e, ih m (by simpa using h2) (by simpa using h4)]

end Hycu
