import Mathlib.Data.Fintype.Pi
import Mathlib.Data.Fintype.BigOperators
import Mathlib.Algebra.BigOperators.Fin
import Verif.Spec.Work
import Verif.Lemmas.MassLink

/-!
Numbers of enumerated polynomials.
-/

namespace Hycu
namespace CurveIterator

/-- Lists of length `n` whose entries are in given sets. -/
def listsOf (n : Nat) (S : Nat → Finset Nat) : Finset (List Nat) :=
  (Fintype.piFinset fun i : Fin n => S i).image List.ofFn

theorem mem_listsOf {n : Nat} {S : Nat → Finset Nat} {v : List Nat} :
    v ∈ listsOf n S ↔ v.length = n ∧ ∀ i x, v[i]? = some x → x ∈ S i := by
  unfold listsOf
  simp only [Finset.mem_image, Fintype.mem_piFinset]
  constructor
  · rintro ⟨f, hf, rfl⟩
    refine ⟨List.length_ofFn, fun i x hx => ?_⟩
    obtain ⟨hi, rfl⟩ := List.getElem?_eq_some_iff.1 hx
    rw [List.getElem_ofFn]
    exact hf ⟨i, by simpa using hi⟩
  · rintro ⟨rfl, h⟩
    exact ⟨v.get, fun i => h i _ (List.getElem?_eq_getElem i.2), List.ofFn_get v⟩

theorem card_listsOf (n : Nat) (S : Nat → Finset Nat) : (listsOf n S).card = ∏ i ∈ Finset.range n, (S i).card := by
  unfold listsOf
  rw [Finset.card_image_of_injective _ List.ofFn_injective, Fintype.card_piFinset, Finset.prod_range]

/-- The number of positions of given arguments. -/
def HasCount (a : EnumeratorArgs) (N : Nat) : Prop := ∃ T : Finset (List Nat), (∀ v, v ∈ T ↔ a.toDescr.Contains v) ∧ T.card = N

theorem HasCount.sum {f : EnumeratorArgs → Nat} : ∀ {as : List EnumeratorArgs}, (∀ a ∈ as, HasCount a (f a)) →
    (as.Pairwise fun a b => ∀ v, ¬ (a.toDescr.Contains v ∧ b.toDescr.Contains v)) →
    ∃ T : Finset (List Nat), (∀ v, v ∈ T ↔ ∃ a ∈ as, a.toDescr.Contains v) ∧ T.card = (as.map f).sum := by
  intro as h hd
  induction as with
  | nil => exact ⟨∅, by simp, by simp⟩
  | cons a as ih =>
    rw [List.pairwise_cons] at hd
    obtain ⟨T, h1, h2⟩ := ih (fun b hb => h b (List.mem_cons_of_mem _ hb)) hd.2
    obtain ⟨U, h3, h4⟩ := h a List.mem_cons_self
    have hdis : Disjoint U T := by
      rw [Finset.disjoint_left]
      intro v hv hv'
      obtain ⟨b, hb, hv'⟩ := (h1 v).1 hv'
      exact hd.1 b hb v ⟨(h3 v).1 hv, hv'⟩
    refine ⟨U.disjUnion T hdis, fun v => ?_, ?_⟩
    · rw [Finset.mem_disjUnion, h3, h1]
      simp
    · rw [Finset.card_disjUnion, h2, h4, List.map_cons, List.sum_cons]

theorem ArgsOk.count {a : EnumeratorArgs} {d : Nat} {A : Nat → Nat → Prop} (h : ArgsOk a d A) {S : Nat → Finset Nat}
    (hS : ∀ i x, i < d + 1 → (A i x ↔ x ∈ S i)) : HasCount a (∏ i ∈ Finset.range (d + 1), (S i).card) := by
  refine ⟨listsOf (d + 1) S, fun v => ?_, card_listsOf _ _⟩
  rw [h.contains, mem_listsOf]
  symm
  constructor
  · rintro ⟨h1, h2⟩
    refine ⟨h1, fun i x hx => (hS i x ?_).1 (h2 i x hx)⟩
    rw [← h1]; exact (List.getElem?_eq_some_iff.1 hx).1
  · rintro ⟨h1, h2⟩
    refine ⟨h1, fun i x hx => (hS i x ?_).2 (h2 i x hx)⟩
    rw [← h1]; exact (List.getElem?_eq_some_iff.1 hx).1

section
variable {F : Type} (t : FqElementTable F) {q d : Nat}

theorem card_zero_or {n : Nat} (h : n ≤ q - 1) : (insert (q - 1) (Finset.range n)).card = n + 1 := by
  rw [Finset.card_insert_of_notMem (by simpa using h), Finset.card_range]

theorem squareCase_count (h : TableSize t q) (hq : q % 2 = 1) (hd : 3 ≤ d) :
    HasCount (squareCase t d) (3 * q ^ (d - 2)) := by
  have hge := h.ge
  have h2 : Nat.gcd 2 (q - 1) = 2 := Nat.gcd_eq_left (by omega)
  have := (squareCase_ok t h hd).count (S := fun i => if i = d then {0} else if i = d - 1 then {q - 1}
    else if i = d - 2 then insert (q - 1) (Finset.range 2) else Finset.range q) (by
      intro i x hi
      unfold squareA
      rw [h2]
      split_ifs <;> simp; omega)
  obtain ⟨e, rfl⟩ : ∃ e, d = e + 3 := ⟨d - 3, by omega⟩
  rw [Finset.prod_range_succ, Finset.prod_range_succ, Finset.prod_range_succ] at this
  rw [Finset.prod_congr (g := fun _ => q) rfl (by
    intro i hi
    have := Finset.mem_range.1 hi
    rw [if_neg (by omega), if_neg (by omega), if_neg (by omega), Finset.card_range])] at this
  rw [if_neg (by omega), if_neg (by omega), if_pos (by omega), if_neg (by omega), if_pos (by omega), if_pos rfl,
    card_zero_or (by omega), Finset.prod_const, Finset.card_range, Finset.card_singleton, Finset.card_singleton, mul_one,
    mul_one, mul_comm] at this
  exact this

theorem divCase_count (h : TableSize t q) (hd : 3 ≤ d) :
    HasCount (divCaseNonZero t d) ((q - 1) * (Nat.gcd 3 (q - 1) + 1) * q ^ (d - 3)) := by
  have hge := h.ge
  have h3 : Nat.gcd 3 (q - 1) ≤ q - 1 := Nat.gcd_le_right _ (by omega)
  have := (divCase_ok t h hd).count (S := fun i => if i = d then {0} else if i = d - 1 then Finset.range (q - 1)
    else if i = d - 2 then {q - 1} else if i = d - 3 then insert (q - 1) (Finset.range (Nat.gcd 3 (q - 1)))
    else Finset.range q) (by
      intro i x hi
      unfold divA
      split_ifs <;> simp; omega)
  obtain ⟨e, rfl⟩ : ∃ e, d = e + 3 := ⟨d - 3, by omega⟩
  rw [Finset.prod_range_succ, Finset.prod_range_succ, Finset.prod_range_succ, Finset.prod_range_succ] at this
  rw [Finset.prod_congr (g := fun _ => q) rfl (by
    intro i hi
    have := Finset.mem_range.1 hi
    rw [if_neg (by omega), if_neg (by omega), if_neg (by omega), if_neg (by omega), Finset.card_range])] at this
  rw [if_neg (by omega), if_neg (by omega), if_neg (by omega), if_pos (by omega), if_neg (by omega), if_neg (by omega),
    if_pos (by omega), if_neg (by omega), if_pos (by omega), if_pos rfl,
    card_zero_or h3, Finset.prod_const, Finset.card_range, Finset.card_singleton, Finset.card_singleton, mul_one,
    mul_one, Finset.card_range] at this
  have he : (q - 1) * (Nat.gcd 3 (q - 1) + 1) * q ^ (e + 3 - 3) = q ^ e * (Nat.gcd 3 (q - 1) + 1) * (q - 1) := by
    rw [Nat.add_sub_cancel]; ring
  rw [he]
  exact this

theorem largeMonomial_count (h : TableSize t q) : HasCount (largeMonomial t d) 1 := by
  have := (largeMonomial_ok t h (d := d)).count (S := fun i => if i = d then {0} else {q - 1}) (by
      intro i x hi
      unfold monoA
      simp only [hi, true_imp_iff]
      split_ifs <;> simp)
  rw [Finset.prod_eq_one (by
    intro i _
    split_ifs <;> rfl)] at this
  exact this

/-- The number for `largeCase`. -/
def largeCount (q m l1 : Nat) : Nat := (q - 1) * if l1 = 0 then 1 else Nat.gcd (m - (l1 - 1)) (q - 1) * q ^ (l1 - 1)

theorem largeCase_count (h : TableSize t q) {m l1 : Nat} (hm : m + 1 < d) (hl : l1 ≤ m) :
    HasCount (largeCase t d m l1) (largeCount q m l1) := by
  have hge := h.ge
  have := (largeCase_ok t h hm hl).count (S := fun i => if i = d then Finset.range (q - 1) else if m < i then {q - 1}
    else if i = m then {0} else if l1 ≤ i then {q - 1} else if i + 1 = l1 then Finset.range (Nat.gcd (m - i) (q - 1))
    else Finset.range q) (by
      intro i x hi
      unfold largeA
      split_ifs <;> simp)
  rw [Finset.prod_range_succ, ← Finset.prod_range_mul_prod_Ico _ (show l1 ≤ d by omega)] at this
  rw [Finset.prod_eq_one (s := Finset.Ico l1 d) (by
    intro i hi
    have := Finset.mem_Ico.1 hi
    rw [if_neg (by omega)]
    split_ifs <;> first | rfl | omega), if_pos rfl, Finset.card_range, mul_one, mul_comm] at this
  unfold largeCount
  cases l1 with
  | zero => simpa using this
  | succ l =>
    rw [Finset.prod_range_succ, Finset.prod_congr (g := fun _ => q) rfl (by
      intro i hi
      have := Finset.mem_range.1 hi
      rw [if_neg (by omega), if_neg (by omega), if_neg (by omega), if_neg (by omega), if_neg (by omega),
        Finset.card_range])] at this
    rw [if_neg (by omega), if_neg (by omega), if_neg (by omega), if_neg (by omega), if_pos rfl, Finset.card_range,
      Finset.prod_const, Finset.card_range, mul_comm (q ^ l)] at this
    simpa using this

theorem sum_down (f : Nat → Nat) (n : Nat) : ((down 0 n).map f).sum = ∑ i ∈ Finset.range n, f i := by
  unfold down
  rw [List.map_reverse, List.sum_reverse, Nat.sub_zero, ← List.range_eq_range']
  induction n with
  | zero => rfl
  | succ n ih => rw [List.range_succ, List.map_append, List.sum_append, ih, Finset.sum_range_succ]; simp

/-- The number for given arguments. -/
theorem enumeratorArgs_count (h : TableSize t q) (hq : q % 2 = 1) (hd : 3 ≤ d) :
    ∃ f : EnumeratorArgs → Nat, (∀ a ∈ enumeratorArgs t d, HasCount a (f a)) ∧
      ((enumeratorArgs t d).map f).sum = curvesOfDegree q t.prime d := by
  have hex : ∀ a ∈ enumeratorArgs t d, ∃ N, HasCount a N := by
    intro a ha
    obtain ⟨A, _, hA⟩ := enumeratorArgs_kind h hd a ha
    unfold enumeratorArgs at ha
    by_cases h1 : t.prime > d
    · rw [if_pos h1, List.mem_append] at ha
      rcases ha with ha | ha
      · obtain ⟨m, hm, ha⟩ := List.mem_flatMap.1 ha
        obtain ⟨l1, hl, rfl⟩ := List.mem_map.1 ha
        rw [mem_down] at hm hl
        exact ⟨_, largeCase_count t h (by omega) (by omega)⟩
      · obtain rfl := List.mem_singleton.1 ha
        exact ⟨_, largeMonomial_count t h⟩
    · rw [if_neg h1] at ha
      by_cases h2 : d % t.prime = 0
      · rw [if_pos h2] at ha
        rcases List.mem_cons.1 ha with rfl | ha
        · exact ⟨_, divCase_count t h hd⟩
        · obtain rfl := List.mem_singleton.1 ha
          exact ⟨_, squareCase_count t h hq hd⟩
      · rw [if_neg h2] at ha
        obtain rfl := List.mem_singleton.1 ha
        exact ⟨_, squareCase_count t h hq hd⟩
  have huniq : ∀ a N M, HasCount a N → HasCount a M → N = M := by
    rintro a N M ⟨T, h1, rfl⟩ ⟨U, h2, rfl⟩
    congr 1
    ext v
    rw [h1, h2]
  classical
  choose! f hf using hex
  refine ⟨f, hf, ?_⟩
  unfold enumeratorArgs at hf ⊢
  unfold curvesOfDegree
  by_cases h1 : t.prime > d
  · rw [if_pos h1] at hf ⊢
    rw [if_pos (show d < t.prime from h1), List.map_append, List.sum_append, List.map_singleton, List.sum_singleton,
      huniq _ _ _ (hf _ (List.mem_append_right _ (List.mem_singleton.2 rfl))) (largeMonomial_count t h), add_comm,
      List.map_flatMap, List.flatMap, List.sum_flatten, List.map_map, sum_down]
    congr 1
    refine Finset.sum_congr rfl fun m hm => ?_
    have hm := Finset.mem_range.1 hm
    simp only [Function.comp_apply]
    rw [List.map_map, sum_down, Finset.sum_congr (g := largeCount q m) rfl (by
      intro l hl
      have hl := Finset.mem_range.1 hl
      refine huniq _ _ _ (hf _ (List.mem_append_left _ (List.mem_flatMap.2 ⟨m, mem_down.2 ⟨by omega, by omega⟩,
        List.mem_map.2 ⟨l, mem_down.2 ⟨by omega, hl⟩, rfl⟩⟩))) (largeCase_count t h (by omega) (by omega))),
      Finset.sum_range_succ', add_comm, mul_add, Finset.mul_sum]
    rfl
  · rw [if_neg h1] at hf ⊢
    rw [if_neg (show ¬ d < t.prime from h1)]
    by_cases h2 : d % t.prime = 0
    · rw [if_pos h2] at hf ⊢
      rw [if_pos (Nat.dvd_of_mod_eq_zero h2)]
      simp only [List.map_cons, List.map_nil, List.sum_cons, List.sum_nil, Nat.add_zero]
      rw [huniq _ _ _ (hf _ List.mem_cons_self) (divCase_count t h hd),
        huniq _ _ _ (hf _ (List.mem_cons_of_mem _ List.mem_cons_self)) (squareCase_count t h hq hd)]
    · rw [if_neg h2] at hf ⊢
      rw [if_neg (fun h3 => h2 (Nat.mod_eq_zero_of_dvd h3)), List.map_singleton, List.sum_singleton,
        huniq _ _ _ (hf _ List.mem_cons_self) (squareCase_count t h hq hd)]

/-- The number of positions of all arguments. -/
theorem allArgs_measure (h : TableSize t q) (hq : q % 2 = 1) (ds : List Nat) (hd : ∀ d ∈ ds, 3 ≤ d) :
    ∃ f : EnumeratorArgs → Nat, (∀ a ∈ ds.flatMap (enumeratorArgs t), HasCount a (f a)) ∧
      ((ds.flatMap (enumeratorArgs t)).map f).sum = (ds.map fun d => curvesOfDegree q t.prime d).sum := by
  classical
  have huniq : ∀ a N M, HasCount a N → HasCount a M → N = M := by
    rintro a N M ⟨T, h1, rfl⟩ ⟨U, h2, rfl⟩
    congr 1
    ext v
    rw [h1, h2]
  have hex : ∀ a ∈ ds.flatMap (enumeratorArgs t), ∃ N, HasCount a N := by
    intro a ha
    obtain ⟨d, h1, h2⟩ := List.mem_flatMap.1 ha
    obtain ⟨f, h3, _⟩ := enumeratorArgs_count t h hq (hd d h1)
    exact ⟨_, h3 a h2⟩
  choose! f hf using hex
  refine ⟨f, hf, ?_⟩
  rw [List.map_flatMap, List.flatMap, List.sum_flatten, List.map_map]
  congr 1
  refine List.map_congr_left fun d h1 => ?_
  obtain ⟨f', h3, h4⟩ := enumeratorArgs_count t h hq (hd d h1)
  rw [Function.comp_apply, ← h4]
  congr 1
  exact List.map_congr_left fun a ha => huniq a _ _ (hf a (List.mem_flatMap.2 ⟨d, h1, ha⟩)) (h3 a ha)

/-- The number of positions of all degrees. -/
theorem allArgs_count (h : TableSize t q) (hq : q % 2 = 1) : ∀ ds : List Nat, ds.Nodup → (∀ d ∈ ds, 3 ≤ d) →
    ∀ L : List (List Nat), L.Nodup → (∀ v, v ∈ L ↔ ∃ a ∈ ds.flatMap (enumeratorArgs t), a.toDescr.Contains v) →
    L.length = (ds.map fun d => curvesOfDegree q t.prime d).sum := by
  intro ds hn hd L hL hm
  have hge := h.ge
  obtain ⟨f, h1, h2⟩ := allArgs_measure t h hq ds hd
  obtain ⟨T, h3, h4⟩ := HasCount.sum h1 (allArgs_disjoint h (by omega) ds hn hd)
  rw [← h2, ← h4, ← List.toFinset_card_of_nodup hL]
  congr 1
  ext v
  rw [List.mem_toFinset, hm, h3]

end

end CurveIterator

/-! ### Bounds -/

theorem sum_pow_le {q : Nat} (hq : 3 ≤ q) (m : Nat) : ∑ k ∈ Finset.range (m + 1), q ^ k ≤ 2 * q ^ m := by
  induction m with
  | zero => simp
  | succ m ih =>
    rw [Finset.sum_range_succ, pow_succ]
    have := Nat.mul_le_mul_left (q ^ m) hq
    omega

theorem le_two_pow_mul {q : Nat} (hq : 3 ≤ q) (n : Nat) : n + 2 ≤ 2 * q ^ n := by
  induction n with
  | zero => simp
  | succ n ih =>
    rw [pow_succ]
    have := Nat.mul_le_mul_left (q ^ n) hq
    omega

/-- The sum in `curvesOfDegree` without common divisors. -/
theorem sum_mul_pow {q : Nat} (hq : 3 ≤ q) (m : Nat) :
    (q - 1) * ∑ l ∈ Finset.range m, (m - l) * q ^ l + m = ∑ k ∈ Finset.range m, q ^ (k + 1) := by
  induction m with
  | zero => simp
  | succ m ih =>
    have h1 : ∑ l ∈ Finset.range (m + 1), (m + 1 - l) * q ^ l =
        ∑ l ∈ Finset.range m, (m - l) * q ^ l + ∑ l ∈ Finset.range (m + 1), q ^ l := by
      rw [Finset.sum_range_succ, Finset.sum_range_succ, ← add_assoc, ← Finset.sum_add_distrib]
      congr 1
      · refine Finset.sum_congr rfl fun l hl => ?_
        have := Finset.mem_range.1 hl
        rw [show m + 1 - l = (m - l) + 1 by omega, add_mul, one_mul]
      · rw [Nat.add_sub_cancel_left, one_mul]
    have h2 : (q - 1) * ∑ l ∈ Finset.range (m + 1), q ^ l + 1 = q ^ (m + 1) := by
      have := Nat.geomSum_eq (m := q) (by omega) (m + 1)
      have hd : (q - 1) ∣ q ^ (m + 1) - 1 := by simpa using Nat.sub_dvd_pow_sub_pow q 1 (m + 1)
      rw [this, Nat.mul_div_cancel' hd]
      have : 0 < q ^ (m + 1) := Nat.pow_pos (by omega)
      omega
    rw [h1, mul_add, Finset.sum_range_succ (fun k => q ^ (k + 1)), ← ih, ← h2]
    ring

theorem curvesOfDegree_le {q p d : Nat} (hq : 3 ≤ q) (hd : 3 ≤ d) : curvesOfDegree q p d ≤ 7 * q ^ (d - 2) := by
  obtain ⟨e, rfl⟩ : ∃ e, d = e + 3 := ⟨d - 3, by omega⟩
  have hp : 0 < q ^ e := Nat.pow_pos (by omega)
  unfold curvesOfDegree
  rw [show e + 3 - 2 = e + 1 by omega]
  split_ifs
  · rw [show e + 3 - 1 = e + 2 by omega]
    have h1 : ∀ m ∈ Finset.range (e + 2), (q - 1) * (1 + ∑ l ∈ Finset.range m, Nat.gcd (m - l) (q - 1) * q ^ l) ≤
        q + 2 * q ^ m := by
      intro m _
      have h2 : ∑ l ∈ Finset.range m, Nat.gcd (m - l) (q - 1) * q ^ l ≤ ∑ l ∈ Finset.range m, (m - l) * q ^ l := by
        refine Finset.sum_le_sum fun l hl => ?_
        have := Finset.mem_range.1 hl
        exact Nat.mul_le_mul_right _ (Nat.gcd_le_left _ (by omega))
      have h3 := Nat.mul_le_mul_left (q - 1) h2
      have h4 := sum_mul_pow hq m
      have h5 := sum_pow_le hq m
      have h6 := Finset.sum_range_succ' (fun k => q ^ k) m
      rw [mul_add, mul_one]
      omega
    have h7 := Finset.sum_le_sum h1
    rw [Finset.sum_add_distrib, Finset.sum_const, Finset.card_range,
      ← Finset.mul_sum (Finset.range (e + 2)) (fun m => q ^ m) 2, smul_eq_mul] at h7
    have h8 : ∑ k ∈ Finset.range (e + 2), q ^ k ≤ 2 * q ^ (e + 1) := sum_pow_le hq (e + 1)
    have h9 := Nat.mul_le_mul_right q (le_two_pow_mul hq e)
    have h10 : 2 * q ^ e * q = 2 * q ^ (e + 1) := by rw [pow_succ]; ring
    have h11 : 0 < q ^ (e + 1) := Nat.pow_pos (by omega)
    omega
  · have h1 : Nat.gcd 3 (q - 1) ≤ 3 := Nat.gcd_le_left _ (by omega)
    have h2 : (q - 1) * (Nat.gcd 3 (q - 1) + 1) ≤ q * 4 := Nat.mul_le_mul (by omega) (by omega)
    have h3 := Nat.mul_le_mul_right (q ^ (e + 3 - 3)) h2
    rw [show e + 3 - 3 = e by omega] at h3 ⊢
    have h4 : q * 4 * q ^ e = 4 * q ^ (e + 1) := by rw [pow_succ]; ring
    omega
  · omega

end Hycu
