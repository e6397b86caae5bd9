import Verif.Model.CurveIterator
import Verif.Spec.Tuples
import Verif.Lemmas.BlockMain

/-!
The descriptions that the constructor of `CurveIterator` passes to `BlockIterator`.
-/

namespace Hycu

/-- The description of tuples given by the arguments of a constructor call. -/
def EnumeratorArgs.toDescr (a : EnumeratorArgs) : Descr :=
  { length := a.length, blocks := a.blocks, sets := a.sets, deps := a.deps }

namespace CurveIterator

theorem mem_down {lo hi k : Nat} : k ∈ down lo hi ↔ lo ≤ k ∧ k < hi := by
  unfold down
  rw [List.mem_reverse, List.mem_range'_1]
  omega

theorem sorted_setAll {β : Type} (ks : List Nat) (v : β) : ∀ {m : OMap Nat β}, OMap.Sorted m →
    OMap.Sorted (setAll m ks v) := by
  unfold setAll
  induction ks with
  | nil => intro m h; exact h
  | cons k ks ih => intro m h; exact ih (OMap.sorted_set h _ _)

theorem find?_setAll {β : Type} (v : β) (i : Nat) : ∀ (ks : List Nat) {m : OMap Nat β}, OMap.Sorted m →
    (setAll m ks v).find? i = if i ∈ ks then some v else m.find? i := by
  intro ks
  unfold setAll
  induction ks with
  | nil => intro m _; simp
  | cons k ks ih =>
    intro m h
    rw [List.foldl_cons, ih (OMap.sorted_set h _ _), OMap.find?_set h]
    by_cases h1 : i ∈ ks
    · simp [h1]
    · by_cases h2 : i = k
      · simp [h2]
      · simp [h1, h2]

/-- What is known about the arguments of a constructor call: the set of tuples is a product of sets
`A 0, A 1, .., A d`. -/
structure ArgsOk (a : EnumeratorArgs) (d : Nat) (A : Nat → Nat → Prop) : Prop where
  len : a.length = d + 1
  valid : ∀ package, 0 < package → a.toDescr.Valid package
  contains : ∀ v : List Nat, a.toDescr.Contains v ↔
    v.length = d + 1 ∧ ∀ (i x : Nat), v[i]? = some x → A i x

/-- The part of `deps` used: at most one coordinate `j`, coupled to the coordinate `i`, which has one value. -/
def depList : Option (Nat × Nat × List Nat) → OMap Nat (Nat × OMap Nat (List Nat))
  | none => []
  | some (j, i, T) => [(j, i, [(0, T)])]

theorem argsOk_of {blocks : OMap Nat (Nat × Nat)} {sets : OMap Nat (List Nat)}
    {dep : Option (Nat × Nat × List Nat)} {d : Nat} (hbs : OMap.Sorted blocks) (hss : OMap.Sorted sets)
    (A : Nat → Nat → Prop)
    (hcov : ∀ i, i < d + 1 → (blocks.find? i).isSome ∨ (sets.find? i).isSome ∨ ∃ j T, dep = some (i, j, T))
    (hblen : ∀ i lo hi, blocks.find? i = some (lo, hi) → i < d + 1 ∧ sets.find? i = none ∧
      (∀ j T, dep ≠ some (i, j, T)) ∧ lo < hi ∧ hi ≤ 2147483648 ∧ ∀ x, A i x ↔ lo ≤ x ∧ x < hi)
    (hslen : ∀ i S, sets.find? i = some S → i < d + 1 ∧ (∀ j T, dep ≠ some (i, j, T)) ∧
      S ≠ [] ∧ S.Nodup ∧ S.length < 2147483648 ∧ (∀ x ∈ S, x < 2147483648) ∧ ∀ x, A i x ↔ x ∈ S)
    (hdlen : ∀ i j T, dep = some (i, j, T) → i < d + 1 ∧ (∃ y, sets.find? j = some [y]) ∧
      T ≠ [] ∧ T.Nodup ∧ T.length < 2147483648 ∧ (∀ x ∈ T, x < 2147483648) ∧ ∀ x, A i x ↔ x ∈ T) :
    ArgsOk { length := d + 1, blocks := blocks, sets := sets, deps := depList dep } d A := by
  have mb : ∀ i lo hi, (i, lo, hi) ∈ blocks ↔ blocks.find? i = some (lo, hi) := fun i lo hi =>
    (OMap.find?_eq_some hbs).symm
  have ms : ∀ i S, (i, S) ∈ sets ↔ sets.find? i = some S := fun i S => (OMap.find?_eq_some hss).symm
  have md : ∀ i j M, (i, j, M) ∈ depList dep ↔ ∃ T, dep = some (i, j, T) ∧ M = [(0, T)] := by
    intro i j M
    cases dep with
    | none => simp [depList]
    | some t =>
      obtain ⟨a, b, T⟩ := t
      simp only [depList, List.mem_singleton, Prod.mk.injEq, Option.some.injEq]
      constructor
      · rintro ⟨rfl, rfl, rfl⟩; exact ⟨T, ⟨rfl, rfl, rfl⟩, rfl⟩
      · rintro ⟨T', ⟨rfl, rfl, rfl⟩, rfl⟩; exact ⟨rfl, rfl, rfl⟩
  have kb : ∀ i, i ∈ blocks.map Prod.fst ↔ ∃ lo hi, blocks.find? i = some (lo, hi) := by
    intro i
    rw [List.mem_map]
    constructor
    · rintro ⟨⟨i, lo, hi⟩, h, rfl⟩; exact ⟨lo, hi, (mb _ _ _).1 h⟩
    · rintro ⟨lo, hi, h⟩; exact ⟨_, (mb _ _ _).2 h, rfl⟩
  have ks : ∀ i, i ∈ sets.map Prod.fst ↔ ∃ S, sets.find? i = some S := by
    intro i
    rw [List.mem_map]
    constructor
    · rintro ⟨⟨i, S⟩, h, rfl⟩; exact ⟨S, (ms _ _).1 h⟩
    · rintro ⟨S, h⟩; exact ⟨_, (ms _ _).2 h, rfl⟩
  have kd : ∀ i, i ∈ (depList dep).map Prod.fst ↔ ∃ j T, dep = some (i, j, T) := by
    intro i
    rw [List.mem_map]
    constructor
    · rintro ⟨⟨i, j, M⟩, h, rfl⟩
      obtain ⟨T, h, _⟩ := (md _ _ _).1 h
      exact ⟨j, T, h⟩
    · rintro ⟨j, T, h⟩; exact ⟨(i, j, [(0, T)]), (md _ _ _).2 ⟨T, h, rfl⟩, rfl⟩
  refine ⟨rfl, ?_, ?_⟩
  · intro package hpk
    refine ⟨Nat.succ_pos _, hpk, BlockIterator.keys_of_sorted hbs, BlockIterator.keys_of_sorted hss, ?_, ?_, ?_,
      ?_, ?_, ?_, ?_, ?_, ?_, ?_⟩
    · show ((depList dep).map Prod.fst).Pairwise (· < ·)
      cases dep with
      | none => simp [depList]
      | some t => obtain ⟨a, b, T⟩ := t; simp [depList]
    · intro i
      show i < d + 1 ↔ i ∈ blocks.map Prod.fst ∨ i ∈ sets.map Prod.fst ∨ i ∈ (depList dep).map Prod.fst
      rw [kb, ks, kd]
      constructor
      · intro hi
        rcases hcov i hi with h | h | h
        · obtain ⟨⟨lo, hi⟩, h⟩ := Option.isSome_iff_exists.1 h; exact Or.inl ⟨lo, hi, h⟩
        · obtain ⟨S, h⟩ := Option.isSome_iff_exists.1 h; exact Or.inr (Or.inl ⟨S, h⟩)
        · exact Or.inr (Or.inr h)
      · rintro (⟨lo, hi, h⟩ | ⟨S, h⟩ | ⟨j, T, h⟩)
        · exact (hblen i lo hi h).1
        · exact (hslen i S h).1
        · exact (hdlen i j T h).1
    · intro i h1 h2
      obtain ⟨lo, hi, h1⟩ := (kb i).1 h1
      obtain ⟨S, h2⟩ := (ks i).1 h2
      rw [(hblen i lo hi h1).2.1] at h2
      cases h2
    · intro i h1 h2
      obtain ⟨lo, hi, h1⟩ := (kb i).1 h1
      obtain ⟨j, T, h2⟩ := (kd i).1 h2
      exact (hblen i lo hi h1).2.2.1 j T h2
    · intro i h1 h2
      obtain ⟨S, h1⟩ := (ks i).1 h1
      obtain ⟨j, T, h2⟩ := (kd i).1 h2
      exact (hslen i S h1).2.1 j T h2
    · intro i lo hi h
      have := hblen i lo hi ((mb _ _ _).1 h)
      exact ⟨this.2.2.2.1, this.2.2.2.2.1⟩
    · intro i S h
      have := hslen i S ((ms _ _).1 h)
      exact ⟨this.2.2.1, this.2.2.2.1, this.2.2.2.2.1, this.2.2.2.2.2.1⟩
    · intro i j M h
      obtain ⟨T, _, rfl⟩ := (md _ _ _).1 h
      simp
    · intro i j M c T h hc
      obtain ⟨T', h1, rfl⟩ := (md _ _ _).1 h
      obtain ⟨rfl, rfl⟩ : c = 0 ∧ T = T' := by simpa using hc
      have := hdlen _ _ _ h1
      exact ⟨this.2.2.1, this.2.2.2.1, this.2.2.2.2.1, this.2.2.2.2.2.1⟩
    · intro i j M h
      obtain ⟨T, h1, rfl⟩ := (md _ _ _).1 h
      obtain ⟨_, ⟨y, hy⟩, _⟩ := hdlen _ _ _ h1
      refine Or.inl ⟨[y], (ms _ _).2 hy, ?_⟩
      intro k hk
      obtain rfl : k = 0 := by simpa using hk
      exact ⟨T, by simp⟩
  · intro v
    constructor
    · intro h
      refine ⟨h.length_eq, ?_⟩
      intro i x hx
      have hi : i < d + 1 := by
        have := (List.getElem?_eq_some_iff.1 hx).1
        rw [h.length_eq] at this
        exact this
      rcases hcov i hi with hc | hc | ⟨j, T, hc⟩
      · obtain ⟨⟨lo, hi'⟩, hc⟩ := Option.isSome_iff_exists.1 hc
        obtain ⟨y, h1, h2⟩ := h.block i lo hi' ((mb _ _ _).2 hc)
        rw [hx] at h1
        obtain rfl := Option.some.inj h1
        exact ((hblen i lo hi' hc).2.2.2.2.2 x).2 h2
      · obtain ⟨S, hc⟩ := Option.isSome_iff_exists.1 hc
        obtain ⟨y, h1, h2⟩ := h.set i S ((ms _ _).2 hc)
        rw [hx] at h1
        obtain rfl := Option.some.inj h1
        exact ((hslen i S hc).2.2.2.2.2.2 x).2 h2
      · obtain ⟨_, ⟨y, hy⟩, _, _, _, _, hA⟩ := hdlen _ _ _ hc
        obtain ⟨k, y', x', h1, h2, h3, h4⟩ := h.dep_set i j [(0, T)] [y] ((md _ _ _).2 ⟨T, hc, rfl⟩)
          ((ms _ _).2 hy)
        rw [hx] at h3
        obtain rfl := Option.some.inj h3
        obtain ⟨T', h5, h6⟩ := h4
        obtain ⟨_, rfl⟩ : k = 0 ∧ T' = T := by simpa using h5
        exact (hA x).2 h6
    · rintro ⟨hl, h⟩
      have hget : ∀ i, i < d + 1 → ∃ x, v[i]? = some x := fun i hi =>
        ⟨v[i]'(by omega), List.getElem?_eq_getElem _⟩
      refine ⟨hl, ?_, ?_, ?_, ?_⟩
      · intro i lo hi hm
        have hb := hblen i lo hi ((mb _ _ _).1 hm)
        obtain ⟨x, hx⟩ := hget i hb.1
        exact ⟨x, hx, (hb.2.2.2.2.2 x).1 (h i x hx)⟩
      · intro i S hm
        have hs := hslen i S ((ms _ _).1 hm)
        obtain ⟨x, hx⟩ := hget i hs.1
        exact ⟨x, hx, (hs.2.2.2.2.2.2 x).1 (h i x hx)⟩
      · intro i j M S hd hs
        obtain ⟨T, hd', rfl⟩ := (md _ _ _).1 hd
        have hs := (ms _ _).1 hs
        obtain ⟨hi, ⟨y, hy⟩, _, _, _, _, hA⟩ := hdlen _ _ _ hd'
        rw [hy] at hs
        obtain rfl := Option.some.inj hs
        obtain ⟨x, hx⟩ := hget i hi
        have hj := hslen j [y] hy
        obtain ⟨z, hz⟩ := hget j hj.1
        have hzy := (hj.2.2.2.2.2.2 z).1 (h j z hz)
        obtain rfl : z = y := by simpa using hzy
        exact ⟨0, z, x, rfl, hz, hx, T, by simp, (hA x).1 (h i x hx)⟩
      · intro i j M lo hi hd hb
        obtain ⟨T, hd', rfl⟩ := (md _ _ _).1 hd
        obtain ⟨_, ⟨y, hy⟩, _⟩ := hdlen _ _ _ hd'
        have := (hblen j lo hi ((mb _ _ _).1 hb)).2.1
        rw [hy] at this
        cases this

/-! ### The cases -/

theorem insert_append : ∀ (s : List Nat) (x : Nat), (∀ y ∈ s, y < x) → OSet.insert s x = s ++ [x]
  | [], x, _ => rfl
  | k :: s, x, h => by
    have hk := h k List.mem_cons_self
    rw [OSet.insert, if_pos (by simpa [CppLess.lt] using hk),
      insert_append s x (fun y hy => h y (List.mem_cons_of_mem _ hy))]
    rfl

theorem foldl_insert_range (f : Nat → Nat) : ∀ n, (∀ b, b < n → f b = b) →
    (List.range n).foldl (fun (s : OSet Nat) b => s.insert (f b)) [] = List.range n
  | 0, _ => rfl
  | n + 1, h => by
    rw [List.range_succ, List.foldl_append, foldl_insert_range f n (fun b hb => h b (by omega))]
    simp only [List.foldl_cons, List.foldl_nil]
    rw [h n (by omega), insert_append _ _ (by simp)]

variable {F : Type}

theorem coset_one (t : FqElementTable F) : t.powerCosetRepresentatives 1 = [0] := by
  simp [FqElementTable.powerCosetRepresentatives]

theorem cosetProducts_eq (t : FqElementTable F) (hp : 0 < t.primePowerPred) (n : Nat) :
    cosetProducts t [0] n = [(0, List.range (Nat.gcd n t.primePowerPred))] := by
  unfold cosetProducts FqElementTable.powerCosetRepresentatives
  simp only [List.zipIdx_cons, List.zipIdx_nil, List.foldl_cons, List.foldl_nil, OMap.set]
  rw [foldl_insert_range]
  intro b hb
  have : Nat.gcd n t.primePowerPred ≤ t.primePowerPred := Nat.gcd_le_right _ hp
  rw [FqElementTable.reduceIndex, Nat.zero_add, Nat.mod_eq_of_lt (by omega)]

/-- The size of the field as used by the constructor. -/
structure TableSize (t : FqElementTable F) (q : Nat) : Prop where
  power : t.primePower = q
  pred : t.primePowerPred = q - 1
  ge : 2 ≤ q
  le : q ≤ 2147483648

theorem nodup_coset (t : FqElementTable F) {q : Nat} (h : TableSize t q) (n : Nat) :
    (t.powerCosetRepresentatives n ++ [t.zeroIndex]).Nodup ∧
    (t.powerCosetRepresentatives n ++ [t.zeroIndex]).length < 2147483648 + 1 ∧
    ∀ x, x ∈ t.powerCosetRepresentatives n ++ [t.zeroIndex] ↔ x < Nat.gcd n (q - 1) ∨ x = q - 1 := by
  have hge := h.ge
  have hle := h.le
  have hg : Nat.gcd n (q - 1) ≤ q - 1 := Nat.gcd_le_right _ (by omega)
  unfold FqElementTable.powerCosetRepresentatives FqElementTable.zeroIndex
  rw [h.pred]
  refine ⟨?_, by simp; omega, by simp⟩
  rw [List.nodup_append]
  refine ⟨List.nodup_range, by simp, ?_⟩
  intro a ha b hb
  have := List.mem_range.1 ha
  obtain rfl : b = q - 1 := by simpa using hb
  omega

/-- Allowed indices in `squareCase`. -/
def squareA (q d i x : Nat) : Prop :=
  if i = d then x = 0 else if i = d - 1 then x = q - 1
  else if i = d - 2 then x < Nat.gcd 2 (q - 1) ∨ x = q - 1 else x < q

theorem squareCase_ok (t : FqElementTable F) {q d : Nat} (h : TableSize t q) (hd : 3 ≤ d) :
    ArgsOk (squareCase t d) d (squareA q d) := by
  have hge := h.ge
  have hle := h.le
  obtain ⟨n1, n2, n3⟩ := nodup_coset t h 2
  have hg2 : Nat.gcd 2 (q - 1) ≤ 2 := Nat.gcd_le_left _ (by omega)
  have hs0 : OMap.Sorted (OMap.set [] d (t.powerCosetRepresentatives 1)) := OMap.sorted_set OMap.sorted_nil _ _
  have hs1 := OMap.sorted_set hs0 (d - 1) [t.zeroIndex]
  have hs2 := OMap.sorted_set hs1 (d - 2) (t.powerCosetRepresentatives 2 ++ [t.zeroIndex])
  have hb := sorted_setAll (β := Nat × Nat) (down 0 (d - 2)) t.blockComplete OMap.sorted_nil
  have fb : ∀ i, (squareCase t d).blocks.find? i = if i < d - 2 then some (0, q) else none := by
    intro i
    show (setAll [] (down 0 (d - 2)) t.blockComplete).find? i = _
    rw [find?_setAll _ _ _ OMap.sorted_nil]
    simp only [mem_down, Nat.zero_le, true_and, FqElementTable.blockComplete, h.power]
    rfl
  have fs : ∀ i, (squareCase t d).sets.find? i = if i = d - 2 then
      some (t.powerCosetRepresentatives 2 ++ [t.zeroIndex]) else if i = d - 1 then some [q - 1]
      else if i = d then some [0] else none := by
    intro i
    show ((OMap.set (OMap.set [] d (t.powerCosetRepresentatives 1)) (d - 1) [t.zeroIndex]).set (d - 2)
      (t.powerCosetRepresentatives 2 ++ [t.zeroIndex])).find? i = _
    rw [OMap.find?_set hs1, OMap.find?_set hs0, OMap.find?_set OMap.sorted_nil, coset_one,
      FqElementTable.zeroIndex, h.pred]
    rfl
  refine argsOk_of (dep := none) hb hs2 (squareA q d) ?_ ?_ ?_ ?_
  · intro i hi
    have e1 := fb i
    have e2 := fs i
    simp only [squareCase] at e1 e2
    rw [e1, e2]
    by_cases h1 : i < d - 2
    · rw [if_pos h1]; exact Or.inl rfl
    · right; left
      by_cases h2 : i = d - 2
      · rw [if_pos h2]; rfl
      · rw [if_neg h2]
        by_cases h3 : i = d - 1
        · rw [if_pos h3]; rfl
        · rw [if_neg h3, if_pos (by omega)]; rfl
  · intro i lo hi hf
    have e1 := fb i
    have e2 := fs i
    simp only [squareCase] at e1 e2
    rw [e1] at hf
    by_cases h1 : i < d - 2
    · rw [if_pos h1] at hf
      obtain ⟨rfl, rfl⟩ : 0 = lo ∧ q = hi := by simpa using hf
      rw [e2, if_neg (by omega), if_neg (by omega), if_neg (by omega)]
      refine ⟨by omega, rfl, by simp, by omega, hle, ?_⟩
      intro x
      rw [squareA, if_neg (by omega), if_neg (by omega), if_neg (by omega)]
      omega
    · rw [if_neg h1] at hf; cases hf
  · intro i S hf
    have e2 := fs i
    simp only [squareCase] at e2
    rw [e2] at hf
    by_cases h2 : i = d - 2
    · rw [if_pos h2] at hf
      obtain rfl := Option.some.inj hf
      refine ⟨by omega, by simp, by simp, n1, ?_, ?_, ?_⟩
      · simp only [List.length_append, FqElementTable.powerCosetRepresentatives, List.length_range, h.pred,
          List.length_singleton]
        omega
      · intro x hx
        rw [n3] at hx
        omega
      · intro x
        rw [squareA, if_neg (by omega), if_neg (by omega), if_pos h2, n3]
    · rw [if_neg h2] at hf
      by_cases h3 : i = d - 1
      · rw [if_pos h3] at hf
        obtain rfl := Option.some.inj hf
        refine ⟨by omega, by simp, by simp, by simp, by simp, by simp; omega, ?_⟩
        intro x
        rw [squareA, if_neg (by omega), if_pos h3]
        simp
      · rw [if_neg h3] at hf
        by_cases h4 : i = d
        · rw [if_pos h4] at hf
          obtain rfl := Option.some.inj hf
          refine ⟨by omega, by simp, by simp, by simp, by simp, by simp, ?_⟩
          intro x
          rw [squareA, if_pos h4]
          simp
        · rw [if_neg h4] at hf; cases hf
  · intro i j T h; cases h

/-- Allowed indices in `divCaseNonZero`. -/
def divA (q d i x : Nat) : Prop :=
  if i = d then x = 0 else if i = d - 1 then x < q - 1 else if i = d - 2 then x = q - 1
  else if i = d - 3 then x < Nat.gcd 3 (q - 1) ∨ x = q - 1 else x < q

theorem divCase_ok (t : FqElementTable F) {q d : Nat} (h : TableSize t q) (hd : 3 ≤ d) :
    ArgsOk (divCaseNonZero t d) d (divA q d) := by
  have hge := h.ge
  have hle := h.le
  obtain ⟨n1, n2, n3⟩ := nodup_coset t h 3
  have hg2 : Nat.gcd 3 (q - 1) ≤ 3 := Nat.gcd_le_left _ (by omega)
  have hs0 : OMap.Sorted (OMap.set [] d (t.powerCosetRepresentatives 1)) := OMap.sorted_set OMap.sorted_nil _ _
  have hs1 := OMap.sorted_set hs0 (d - 2) [t.zeroIndex]
  have hs2 := OMap.sorted_set hs1 (d - 3) (t.powerCosetRepresentatives 3 ++ [t.zeroIndex])
  have hb0 : OMap.Sorted (OMap.set [] (d - 1) t.blockNonZero) := OMap.sorted_set OMap.sorted_nil _ _
  have hb := sorted_setAll (β := Nat × Nat) (down 0 (d - 3)) t.blockComplete hb0
  have fb : ∀ i, (divCaseNonZero t d).blocks.find? i = if i < d - 3 then some (0, q) else
      if i = d - 1 then some (0, q - 1) else none := by
    intro i
    show (setAll (OMap.set [] (d - 1) t.blockNonZero) (down 0 (d - 3)) t.blockComplete).find? i = _
    rw [find?_setAll _ _ _ hb0, OMap.find?_set OMap.sorted_nil]
    simp only [mem_down, Nat.zero_le, true_and, FqElementTable.blockComplete, h.power,
      FqElementTable.blockNonZero, h.pred]
    rfl
  have fs : ∀ i, (divCaseNonZero t d).sets.find? i = if i = d - 3 then
      some (t.powerCosetRepresentatives 3 ++ [t.zeroIndex]) else if i = d - 2 then some [q - 1]
      else if i = d then some [0] else none := by
    intro i
    show ((OMap.set (OMap.set [] d (t.powerCosetRepresentatives 1)) (d - 2) [t.zeroIndex]).set (d - 3)
      (t.powerCosetRepresentatives 3 ++ [t.zeroIndex])).find? i = _
    rw [OMap.find?_set hs1, OMap.find?_set hs0, OMap.find?_set OMap.sorted_nil, coset_one,
      FqElementTable.zeroIndex, h.pred]
    rfl
  refine argsOk_of (dep := none) hb hs2 (divA q d) ?_ ?_ ?_ ?_
  · intro i hi
    have e1 := fb i
    have e2 := fs i
    simp only [divCaseNonZero] at e1 e2
    rw [e1, e2]
    by_cases h1 : i < d - 3
    · rw [if_pos h1]; exact Or.inl rfl
    · rw [if_neg h1]
      by_cases h2 : i = d - 1
      · rw [if_pos h2]; exact Or.inl rfl
      · right; left
        by_cases h3 : i = d - 3
        · rw [if_pos h3]; rfl
        · rw [if_neg h3]
          by_cases h4 : i = d - 2
          · rw [if_pos h4]; rfl
          · rw [if_neg h4, if_pos (by omega)]; rfl
  · intro i lo hi hf
    have e1 := fb i
    have e2 := fs i
    simp only [divCaseNonZero] at e1 e2
    rw [e1] at hf
    by_cases h1 : i < d - 3
    · rw [if_pos h1] at hf
      obtain ⟨rfl, rfl⟩ : 0 = lo ∧ q = hi := by simpa using hf
      rw [e2, if_neg (by omega), if_neg (by omega), if_neg (by omega)]
      refine ⟨by omega, rfl, by simp, by omega, hle, ?_⟩
      intro x
      rw [divA, if_neg (by omega), if_neg (by omega), if_neg (by omega), if_neg (by omega)]
      omega
    · rw [if_neg h1] at hf
      by_cases h2 : i = d - 1
      · rw [if_pos h2] at hf
        obtain ⟨rfl, rfl⟩ : 0 = lo ∧ q - 1 = hi := by simpa using hf
        rw [e2, if_neg (by omega), if_neg (by omega), if_neg (by omega)]
        refine ⟨by omega, rfl, by simp, by omega, by omega, ?_⟩
        intro x
        rw [divA, if_neg (by omega), if_pos h2]
        omega
      · rw [if_neg h2] at hf; cases hf
  · intro i S hf
    have e2 := fs i
    simp only [divCaseNonZero] at e2
    rw [e2] at hf
    by_cases h2 : i = d - 3
    · rw [if_pos h2] at hf
      obtain rfl := Option.some.inj hf
      refine ⟨by omega, by simp, by simp, n1, ?_, ?_, ?_⟩
      · simp only [List.length_append, FqElementTable.powerCosetRepresentatives, List.length_range, h.pred,
          List.length_singleton]
        omega
      · intro x hx
        rw [n3] at hx
        omega
      · intro x
        rw [divA, if_neg (by omega), if_neg (by omega), if_neg (by omega), if_pos h2, n3]
    · rw [if_neg h2] at hf
      by_cases h3 : i = d - 2
      · rw [if_pos h3] at hf
        obtain rfl := Option.some.inj hf
        refine ⟨by omega, by simp, by simp, by simp, by simp, by simp; omega, ?_⟩
        intro x
        rw [divA, if_neg (by omega), if_neg (by omega), if_pos h3]
        simp
      · rw [if_neg h3] at hf
        by_cases h4 : i = d
        · rw [if_pos h4] at hf
          obtain rfl := Option.some.inj hf
          refine ⟨by omega, by simp, by simp, by simp, by simp, by simp, ?_⟩
          intro x
          rw [divA, if_pos h4]
          simp
        · rw [if_neg h4] at hf; cases hf
  · intro i j T h; cases h

/-- Allowed indices in `largeMonomial`. -/
def monoA (q d i x : Nat) : Prop := if i = d then x = 0 else x = q - 1

theorem largeMonomial_ok (t : FqElementTable F) {q d : Nat} (h : TableSize t q) :
    ArgsOk (largeMonomial t d) d (fun i x => i < d + 1 → monoA q d i x) := by
  have hge := h.ge
  have hle := h.le
  have hs0 : OMap.Sorted (OMap.set [] d (t.powerCosetRepresentatives 1)) := OMap.sorted_set OMap.sorted_nil _ _
  have hs := sorted_setAll (down 0 d) [t.zeroIndex] hs0
  have fs : ∀ i, (largeMonomial t d).sets.find? i = if i < d then some [q - 1] else
      if i = d then some [0] else none := by
    intro i
    show (setAll (OMap.set [] d (t.powerCosetRepresentatives 1)) (down 0 d) [t.zeroIndex]).find? i = _
    rw [find?_setAll _ _ _ hs0, OMap.find?_set OMap.sorted_nil, coset_one, FqElementTable.zeroIndex, h.pred]
    simp only [mem_down, Nat.zero_le, true_and]
    rfl
  refine argsOk_of (dep := none) OMap.sorted_nil hs _ ?_ ?_ ?_ ?_
  · intro i hi
    have e2 := fs i
    simp only [largeMonomial] at e2
    rw [e2]
    right; left
    by_cases h1 : i < d
    · rw [if_pos h1]; rfl
    · rw [if_neg h1, if_pos (by omega)]; rfl
  · intro i lo hi hf; cases hf
  · intro i S hf
    have e2 := fs i
    simp only [largeMonomial] at e2
    rw [e2] at hf
    by_cases h1 : i < d
    · rw [if_pos h1] at hf
      obtain rfl := Option.some.inj hf
      refine ⟨by omega, by simp, by simp, by simp, by simp, by simp; omega, ?_⟩
      intro x
      rw [monoA, if_neg (by omega)]
      simp only [List.mem_singleton]
      exact ⟨fun h => h (by omega), fun h _ => h⟩
    · rw [if_neg h1] at hf
      by_cases h2 : i = d
      · rw [if_pos h2] at hf
        obtain rfl := Option.some.inj hf
        refine ⟨by omega, by simp, by simp, by simp, by simp, by simp, ?_⟩
        intro x
        rw [monoA, if_pos h2]
        simp only [List.mem_singleton]
        exact ⟨fun h => h (by omega), fun h _ => h⟩
      · rw [if_neg h2] at hf; cases hf
  · intro i j T h; cases h

/-- Allowed indices in `largeCase`. -/
def largeA (q d m l1 i x : Nat) : Prop :=
  if i = d then x < q - 1 else if m < i then x = q - 1 else if i = m then x = 0
  else if l1 ≤ i then x = q - 1 else if i + 1 = l1 then x < Nat.gcd (m - i) (q - 1) else x < q

theorem largeCase_ok (t : FqElementTable F) {q d m l1 : Nat} (h : TableSize t q) (hm : m + 1 < d)
    (hl : l1 ≤ m) : ArgsOk (largeCase t d m l1) d (largeA q d m l1) := by
  have hge := h.ge
  have hle := h.le
  have hpred : 0 < t.primePowerPred := by rw [h.pred]; omega
  have hb0 : OMap.Sorted (OMap.set [] d t.blockNonZero) := OMap.sorted_set OMap.sorted_nil _ _
  have hb := sorted_setAll (β := Nat × Nat) (down 0 (l1 - 1)) t.blockComplete hb0
  have hs1 := sorted_setAll (β := List Nat) (down (m + 1) d) [t.zeroIndex] OMap.sorted_nil
  have hs2 := OMap.sorted_set hs1 m (t.powerCosetRepresentatives 1)
  have hs3 := sorted_setAll (down l1 m) [t.zeroIndex] hs2
  have fb : ∀ i, (setAll (OMap.set [] d t.blockNonZero) (down 0 (l1 - 1)) t.blockComplete).find? i =
      if i < l1 - 1 then some (0, q) else if i = d then some (0, q - 1) else none := by
    intro i
    rw [find?_setAll _ _ _ hb0, OMap.find?_set OMap.sorted_nil]
    simp only [mem_down, Nat.zero_le, true_and, FqElementTable.blockComplete, h.power,
      FqElementTable.blockNonZero, h.pred]
    rfl
  have fs : ∀ i, (setAll ((setAll [] (down (m + 1) d) [t.zeroIndex]).set m (t.powerCosetRepresentatives 1))
      (down l1 m) [t.zeroIndex]).find? i = if l1 ≤ i ∧ i < m then some [q - 1] else if i = m then some [0]
      else if m + 1 ≤ i ∧ i < d then some [q - 1] else none := by
    intro i
    rw [find?_setAll _ _ _ hs2, OMap.find?_set hs1, find?_setAll _ _ _ OMap.sorted_nil, coset_one,
      FqElementTable.zeroIndex, h.pred]
    simp only [mem_down]
    rfl
  have hdep : (largeCase t d m l1).deps = depList (if l1 = 0 then none else
      some (l1 - 1, m, List.range (Nat.gcd (m - (l1 - 1)) (q - 1)))) := by
    show (if l1 = 0 then [] else OMap.set [] (l1 - 1)
        (m, cosetProducts t (t.powerCosetRepresentatives 1) (m - (l1 - 1)))) = _
    by_cases h0 : l1 = 0
    · simp [h0, depList]
    · rw [if_neg h0, if_neg h0, coset_one, cosetProducts_eq t hpred, h.pred]
      rfl
  have hgoal : largeCase t d m l1 = EnumeratorArgs.mk (d + 1)
      (setAll (OMap.set [] d t.blockNonZero) (down 0 (l1 - 1)) t.blockComplete)
      (setAll ((setAll [] (down (m + 1) d) [t.zeroIndex]).set m (t.powerCosetRepresentatives 1))
        (down l1 m) [t.zeroIndex])
      (depList (if l1 = 0 then none else
        some (l1 - 1, m, List.range (Nat.gcd (m - (l1 - 1)) (q - 1))))) := by
    rw [← hdep]; rfl
  rw [hgoal]
  have hdepi : ∀ i j T, (if l1 = 0 then none else
      some (l1 - 1, m, List.range (Nat.gcd (m - (l1 - 1)) (q - 1)))) = some (i, j, T) ↔
      l1 = i + 1 ∧ j = m ∧ T = List.range (Nat.gcd (m - i) (q - 1)) := by
    intro i j T
    by_cases h0 : l1 = 0
    · simp [h0]
    · rw [if_neg h0]
      simp only [Option.some.injEq, Prod.mk.injEq]
      constructor
      · rintro ⟨rfl, rfl, rfl⟩; exact ⟨by omega, rfl, rfl⟩
      · rintro ⟨h1, rfl, rfl⟩
        have : l1 - 1 = i := by omega
        rw [this]
        exact ⟨rfl, rfl, rfl⟩
  refine argsOk_of hb hs3 _ ?_ ?_ ?_ ?_
  · intro i hi
    rw [fb, fs]
    by_cases h1 : i < l1 - 1
    · rw [if_pos h1]; exact Or.inl rfl
    · by_cases h2 : i = d
      · rw [if_neg h1, if_pos h2]; exact Or.inl rfl
      · right
        by_cases h3 : i + 1 = l1
        · right; exact ⟨m, _, (hdepi i m _).2 ⟨h3.symm, rfl, rfl⟩⟩
        · left
          by_cases h4 : l1 ≤ i ∧ i < m
          · rw [if_pos h4]; rfl
          · rw [if_neg h4]
            by_cases h5 : i = m
            · rw [if_pos h5]; rfl
            · rw [if_neg h5, if_pos (by omega)]; rfl
  · intro i lo hi hf
    rw [fb] at hf
    by_cases h1 : i < l1 - 1
    · rw [if_pos h1] at hf
      obtain ⟨rfl, rfl⟩ : 0 = lo ∧ q = hi := by simpa using hf
      rw [fs, if_neg (by omega), if_neg (by omega), if_neg (by omega)]
      refine ⟨by omega, rfl, ?_, by omega, hle, ?_⟩
      · intro j T hT
        have := (hdepi i j T).1 hT
        omega
      · intro x
        rw [largeA, if_neg (by omega), if_neg (by omega), if_neg (by omega), if_neg (by omega),
          if_neg (by omega)]
        omega
    · rw [if_neg h1] at hf
      by_cases h2 : i = d
      · rw [if_pos h2] at hf
        obtain ⟨rfl, rfl⟩ : 0 = lo ∧ q - 1 = hi := by simpa using hf
        rw [fs, if_neg (by omega), if_neg (by omega), if_neg (by omega)]
        refine ⟨by omega, rfl, ?_, by omega, by omega, ?_⟩
        · intro j T hT
          have := (hdepi i j T).1 hT
          omega
        · intro x
          rw [largeA, if_pos h2]
          omega
      · rw [if_neg h2] at hf; cases hf
  · intro i S hf
    rw [fs] at hf
    have hnd : ∀ j T, (if l1 = 0 then none else
        some (l1 - 1, m, List.range (Nat.gcd (m - (l1 - 1)) (q - 1)))) = some (i, j, T) → i + 1 = l1 := by
      intro j T hT
      exact ((hdepi i j T).1 hT).1.symm
    by_cases h1 : l1 ≤ i ∧ i < m
    · rw [if_pos h1] at hf
      obtain rfl := Option.some.inj hf
      refine ⟨by omega, ?_, by simp, by simp, by simp, by simp; omega, ?_⟩
      · intro j T hT; have := hnd j T hT; omega
      · intro x
        rw [largeA, if_neg (by omega), if_neg (by omega), if_neg (by omega), if_pos (by omega)]
        simp
    · rw [if_neg h1] at hf
      by_cases h2 : i = m
      · rw [if_pos h2] at hf
        obtain rfl := Option.some.inj hf
        refine ⟨by omega, ?_, by simp, by simp, by simp, by simp, ?_⟩
        · intro j T hT; have := hnd j T hT; omega
        · intro x
          rw [largeA, if_neg (by omega), if_neg (by omega), if_pos h2]
          simp
      · rw [if_neg h2] at hf
        by_cases h3 : m + 1 ≤ i ∧ i < d
        · rw [if_pos h3] at hf
          obtain rfl := Option.some.inj hf
          refine ⟨by omega, ?_, by simp, by simp, by simp, by simp; omega, ?_⟩
          · intro j T hT; have := hnd j T hT; omega
          · intro x
            rw [largeA, if_neg (by omega), if_pos (by omega)]
            simp
        · rw [if_neg h3] at hf; cases hf
  · intro i j T hT
    obtain ⟨e1, rfl, rfl⟩ := (hdepi i j T).1 hT
    have hg : Nat.gcd (j - i) (q - 1) ≤ q - 1 := Nat.gcd_le_right _ (by omega)
    have hg0 : 0 < Nat.gcd (j - i) (q - 1) := Nat.gcd_pos_of_pos_right _ (by omega)
    refine ⟨by omega, ⟨0, ?_⟩, ?_, List.nodup_range, ?_, ?_, ?_⟩
    · rw [fs, if_neg (by omega), if_pos rfl]
    · intro h0
      have := congrArg List.length h0
      simp at this
      omega
    · rw [List.length_range]; omega
    · intro x hx
      have := List.mem_range.1 hx
      omega
    · intro x
      rw [largeA, if_neg (by omega), if_neg (by omega), if_neg (by omega), if_neg (by omega),
        if_pos (by omega), List.mem_range]

end CurveIterator
end Hycu
