import Verif.Lemmas.CurveEnum

/-!
The enumerators of `CurveIterator` together.
-/

namespace Hycu
namespace CurveIterator

theorem down_pairwise (lo hi : Nat) : (down lo hi).Pairwise (fun a b => b < a) := by
  unfold down
  rw [List.pairwise_reverse]
  exact List.pairwise_lt_range' (s := lo) (n := hi - lo)

theorem degrees_eq {genus : Nat} (hg : genus < 1073741824) (marked : Bool) :
    degrees genus marked = if marked then [2 * genus + 1] else [2 * genus + 1, 2 * genus + 2] := by
  unfold degrees
  rw [u32_of_lt (by omega), u32_of_lt (by omega), u32_of_lt (by omega)]
  cases marked with
  | true => simp [List.range'_succ, show 2 * genus + 2 - (2 * genus + 1) = 1 by omega]
  | false => simp [List.range'_succ, show 2 * genus + 3 - (2 * genus + 1) = 2 by omega]

theorem ArgsOk.not_both {a b : EnumeratorArgs} {d e : Nat} {A B : Nat → Nat → Prop} (ha : ArgsOk a d A)
    (hb : ArgsOk b e B) (h : d ≠ e ∨ ∃ i, i < d + 1 ∧ ∀ x, A i x → B i x → False) (v : List Nat) :
    ¬ (a.toDescr.Contains v ∧ b.toDescr.Contains v) := by
  rintro ⟨h1, h2⟩
  rw [ha.contains] at h1
  rw [hb.contains] at h2
  rcases h with h | ⟨i, hi, h⟩
  · omega
  · have hx : v[i]? = some (v[i]'(by omega)) := List.getElem?_eq_getElem _
    exact h _ (h1.2 _ _ hx) (h2.2 _ _ hx)

/-- Which predicate describes the arguments `a`. -/
inductive Kind (q p d : Nat) : (Nat → Nat → Prop) → Prop
  | large {m l1 : Nat} (hp : d < p) (hm : m + 1 < d) (hl : l1 ≤ m) : Kind q p d (largeA q d m l1)
  | mono (hp : d < p) : Kind q p d (fun i x => i < d + 1 → monoA q d i x)
  | div (hp : p ≤ d) (hd : d % p = 0) : Kind q p d (divA q d)
  | square (hp : p ≤ d) : Kind q p d (squareA q d)

variable {F : Type}

theorem enumeratorArgs_kind {t : FqElementTable F} {q d : Nat} (h : TableSize t q) (hd : 3 ≤ d) :
    ∀ a ∈ enumeratorArgs t d, ∃ A, Kind q t.prime d A ∧ ArgsOk a d A := by
  intro a ha
  unfold enumeratorArgs at ha
  by_cases h1 : t.prime > d
  · rw [if_pos h1, List.mem_append] at ha
    rcases ha with ha | ha
    · obtain ⟨m, hm, ha⟩ := List.mem_flatMap.1 ha
      obtain ⟨l1, hl, rfl⟩ := List.mem_map.1 ha
      rw [mem_down] at hm hl
      exact ⟨_, .large h1 (by omega) (by omega), largeCase_ok t h (by omega) (by omega)⟩
    · obtain rfl := List.mem_singleton.1 ha
      exact ⟨_, .mono h1, largeMonomial_ok t h⟩
  · rw [if_neg h1] at ha
    by_cases h2 : d % t.prime = 0
    · rw [if_pos h2] at ha
      rcases List.mem_cons.1 ha with rfl | ha
      · exact ⟨_, .div (by omega) h2, divCase_ok t h hd⟩
      · obtain rfl := List.mem_singleton.1 ha
        exact ⟨_, .square (by omega), squareCase_ok t h hd⟩
    · rw [if_neg h2] at ha
      obtain rfl := List.mem_singleton.1 ha
      exact ⟨_, .square (by omega), squareCase_ok t h hd⟩

theorem Kind.lt {q p d : Nat} {A : Nat → Nat → Prop} (h : Kind q p d A) (hq : 2 ≤ q) {i x : Nat}
    (hi : i < d + 1) (hx : A i x) : x < q := by
  have hgc : ∀ n, Nat.gcd n (q - 1) ≤ q - 1 := fun n => Nat.gcd_le_right _ (by omega)
  cases h with
  | large hp hm hl =>
    rename_i m l1
    have := hgc (m - i)
    unfold largeA at hx
    split_ifs at hx <;> omega
  | mono =>
    have := hx hi
    unfold monoA at this
    split_ifs at this <;> omega
  | div =>
    have := hgc 3
    unfold divA at hx
    split_ifs at hx <;> omega
  | square =>
    have := hgc 2
    unfold squareA at hx
    split_ifs at hx <;> omega

theorem Kind.top {q p d : Nat} {A : Nat → Nat → Prop} (h : Kind q p d A) (hq : 2 ≤ q) {x : Nat}
    (hx : A d x) : x < q - 1 := by
  cases h with
  | large hp hm hl => rw [largeA, if_pos rfl] at hx; exact hx
  | mono => have := hx (by omega); rw [monoA, if_pos rfl] at this; omega
  | div => rw [divA, if_pos rfl] at hx; omega
  | square => rw [squareA, if_pos rfl] at hx; omega

theorem enumeratorArgs_disjoint {t : FqElementTable F} {q d : Nat} (h : TableSize t q) (hq : 3 ≤ q) (hd : 3 ≤ d) :
    (enumeratorArgs t d).Pairwise fun a b => ∀ v, ¬ (a.toDescr.Contains v ∧ b.toDescr.Contains v) := by
  have hgc : ∀ n, Nat.gcd n (q - 1) ≤ q - 1 := fun n => Nat.gcd_le_right _ (by omega)
  unfold enumeratorArgs
  by_cases h1 : t.prime > d
  · rw [if_pos h1, List.pairwise_append]
    refine ⟨?_, by simp, ?_⟩
    · rw [List.pairwise_flatMap]
      refine ⟨?_, ?_⟩
      · intro m hm
        rw [mem_down] at hm
        rw [List.pairwise_map]
        refine List.Pairwise.imp_of_mem ?_ (down_pairwise _ _)
        intro a b ha hb hba v
        rw [mem_down] at ha hb
        refine (largeCase_ok t h (by omega) (by omega)).not_both (largeCase_ok t h (by omega) (by omega))
          (Or.inr ⟨a - 1, by omega, ?_⟩) v
        intro x hx hy
        have := hgc (m - (a - 1))
        rw [largeA, if_neg (by omega), if_neg (by omega), if_neg (by omega), if_neg (by omega),
          if_pos (by omega)] at hx
        rw [largeA, if_neg (by omega), if_neg (by omega), if_neg (by omega), if_pos (by omega)] at hy
        omega
      · refine List.Pairwise.imp_of_mem ?_ (down_pairwise _ _)
        intro m m' hm hm' hlt a ha b hb v
        obtain ⟨l, hl, rfl⟩ := List.mem_map.1 ha
        obtain ⟨l', hl', rfl⟩ := List.mem_map.1 hb
        rw [mem_down] at hm hm' hl hl'
        refine (largeCase_ok t h (by omega) (by omega)).not_both (largeCase_ok t h (by omega) (by omega))
          (Or.inr ⟨m, by omega, ?_⟩) v
        intro x hx hy
        rw [largeA, if_neg (by omega), if_neg (by omega), if_pos rfl] at hx
        rw [largeA, if_neg (by omega), if_pos (by omega)] at hy
        omega
    · intro a ha b hb v
      obtain ⟨m, hm, ha⟩ := List.mem_flatMap.1 ha
      obtain ⟨l, hl, rfl⟩ := List.mem_map.1 ha
      obtain rfl := List.mem_singleton.1 hb
      rw [mem_down] at hm hl
      refine (largeCase_ok t h (by omega) (by omega)).not_both (largeMonomial_ok t h)
        (Or.inr ⟨m, by omega, ?_⟩) v
      intro x hx hy
      rw [largeA, if_neg (by omega), if_neg (by omega), if_pos rfl] at hx
      have hy := hy (by omega)
      rw [monoA, if_neg (by omega)] at hy
      omega
  · rw [if_neg h1]
    by_cases h2 : d % t.prime = 0
    · rw [if_pos h2]
      simp only [List.pairwise_cons, List.mem_singleton, forall_eq, List.not_mem_nil, false_imp_iff,
        implies_true, List.Pairwise.nil, and_true]
      intro v
      refine (divCase_ok t h hd).not_both (squareCase_ok t h hd) (Or.inr ⟨d - 1, by omega, ?_⟩) v
      intro x hx hy
      rw [divA, if_neg (by omega), if_pos rfl] at hx
      rw [squareA, if_neg (by omega), if_pos rfl] at hy
      omega
    · rw [if_neg h2]
      simp

theorem allArgs_disjoint {t : FqElementTable F} {q : Nat} (h : TableSize t q) (hq : 3 ≤ q) :
    ∀ ds : List Nat, ds.Nodup → (∀ d ∈ ds, 3 ≤ d) →
    (ds.flatMap (enumeratorArgs t)).Pairwise fun a b => ∀ v, ¬ (a.toDescr.Contains v ∧ b.toDescr.Contains v) := by
  intro ds hn hd
  rw [List.pairwise_flatMap]
  refine ⟨fun d hd' => enumeratorArgs_disjoint h hq (hd d hd'), ?_⟩
  refine List.Pairwise.imp_of_mem ?_ hn
  intro d e hd' he hne a ha b hb v
  obtain ⟨A, _, hA⟩ := enumeratorArgs_kind h (hd d hd') a ha
  obtain ⟨B, _, hB⟩ := enumeratorArgs_kind h (hd e he) b hb
  exact hA.not_both hB (Or.inl hne) v

/-- `f d` holds for some `d` of the list `degrees`. -/
theorem mem_degrees {genus : Nat} (hg : genus < 1073741824) {marked : Bool} {d : Nat} :
    d ∈ degrees genus marked ↔ d = 2 * genus + 1 ∨ (marked = false ∧ d = 2 * genus + 2) := by
  rw [degrees_eq hg]
  cases marked <;> simp

theorem nodup_degrees {genus : Nat} (hg : genus < 1073741824) (marked : Bool) : (degrees genus marked).Nodup := by
  rw [degrees_eq hg]
  cases marked <;> simp

/-- What the constructor builds and what is visited. -/
theorem make_spec {t : FqElementTable F} {q : Nat} (h : TableSize t q) (hq : 3 ≤ q) (hp0 : t.prime ≠ 0)
    (hp : t.prime ≠ 2) {genus : Nat} (hg0 : 0 < genus) (hg : genus < 1073741824) (marked : Bool) {package : Nat}
    (hpk : 0 < package) :
    ∃ it boxes Ls, make t genus marked package = .ok it ∧ Terminates (fun n => visits asBlock n it) boxes ∧
      boxes.Pairwise (fun a b => ∀ v, ¬ (InBox a v ∧ InBox b v)) ∧ (∀ b ∈ boxes, ∃ v, InBox b v) ∧
      Terminates (fun n => allPositions n it) Ls ∧
      List.Forall₂ (fun b L => L.Nodup ∧ ∀ v, v ∈ L ↔ InBox b v) boxes Ls ∧
      Ls.flatten.Nodup ∧
      ∀ v, v ∈ Ls.flatten ↔ ∃ a ∈ (degrees genus marked).flatMap (enumeratorArgs t), a.toDescr.Contains v := by
  have hds : ∀ d ∈ degrees genus marked, 3 ≤ d := by
    intro d hd
    rw [mem_degrees hg] at hd
    omega
  have hkind : ∀ a ∈ (degrees genus marked).flatMap (enumeratorArgs t),
      ∃ d A, Kind q t.prime d A ∧ ArgsOk a d A := by
    intro a ha
    obtain ⟨d, hd, ha⟩ := List.mem_flatMap.1 ha
    obtain ⟨A, hA⟩ := enumeratorArgs_kind h (hds d hd) a ha
    exact ⟨d, A, hA⟩
  obtain ⟨es, boxes, h1, h2⟩ := enumerated_of (package := package)
    ((degrees genus marked).flatMap (enumeratorArgs t))
    (fun a ha => by obtain ⟨d, A, _, hA⟩ := hkind a ha; exact hA.valid package hpk)
    (allArgs_disjoint h hq _ (nodup_degrees hg marked) hds)
  obtain ⟨Ls, h3, h4, h5, h6⟩ := h2.positions t.prime (by
    intro a ha v hv
    obtain ⟨d, A, hk, hA⟩ := hkind a ha
    obtain ⟨hl, hv⟩ := (hA.contains v).1 hv
    refine ⟨by rintro rfl; simp at hl, ?_⟩
    intro x hx
    obtain ⟨i, hi⟩ := List.mem_iff_getElem?.1 hx
    have := hk.lt h.ge (i := i) (by have := (List.getElem?_eq_some_iff.1 hi).1; omega) (hv i x hi)
    have := h.le
    omega)
  refine ⟨_, boxes, Ls, ?_, h2.visits t.prime, h2.disjoint, h2.nonempty, h3, h4, h5, h6⟩
  unfold make
  rw [if_neg hp, if_neg (by omega), if_neg hp0, h1]
  rfl

end CurveIterator
end Hycu
