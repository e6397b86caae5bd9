import Verif.Lemmas.Roots
import Verif.Lemmas.CountAll

/-!
The loop of `ramification_type`.
-/

namespace Hycu

open Polynomial UniqueFactorizationMonoid

set_option linter.unusedSectionVars false

section Points
variable {F K : Type} [Field F] [Fintype F] [Field K] [Fintype K]

theorem branchDegrees_pos {f : F[X]} {m : Nat} (h : m ∈ branchDegrees f) : 0 < m := by
  rcases Multiset.mem_add.1 h with h | h
  · exact factorDegrees_pos h
  · split at h
    · rw [Multiset.mem_singleton.1 h]; omega
    · simp at h

theorem branchDegrees_sum {f : F[X]} (hf : f ≠ 0) : (branchDegrees f).sum = 2 * halfDegree f := by
  rw [branchDegrees, Multiset.sum_add, factorDegrees_sum hf, halfDegree]
  split
  · rw [Multiset.sum_singleton]; omega
  · rw [Multiset.sum_zero]; omega

/-- The number of ramified points over an extension of degree `n`. -/
theorem ramifiedPoints_eq (ι : F →+* K) {n : Nat} (hK : Fintype.card K = Fintype.card F ^ n) {f : F[X]}
    (hf : Squarefree f) : ramifiedPoints (f.map ι) = ((branchDegrees f).filter (· ∣ n)).sum := by
  classical
  have h1 : Nat.card {P : K × K // P.2 ^ 2 = (f.map ι).eval P.1 ∧ P.2 = 0} =
      Nat.card {x : K // (f.map ι).eval x = 0} := by
    refine Nat.card_congr ⟨fun P => ⟨P.1.1, ?_⟩, fun x => ⟨(x.1, 0), ?_⟩, ?_, ?_⟩
    · obtain ⟨P, h1, h2⟩ := P
      rw [← h1, h2]; simp
    · simp [x.2]
    · rintro ⟨⟨x, y⟩, h1, h2⟩
      simp only at h2
      subst h2
      rfl
    · intro x; rfl
  have hc : (f.map ι).coeff (2 * halfDegree (f.map ι)) = 0 ↔ f.natDegree % 2 = 1 := by
    rw [coeff_map, halfDegree, natDegree_map, map_eq_zero]
    constructor
    · intro h
      by_contra h2
      have : 2 * ((f.natDegree + 1) / 2) = f.natDegree := by omega
      rw [this] at h
      exact hf.ne_zero (leadingCoeff_eq_zero.1 h)
    · intro h
      exact coeff_eq_zero_of_natDegree_lt (by omega)
  rw [ramifiedPoints, h1, card_roots_squarefree ι hK hf, numSqrt_zero_root, branchDegrees, Multiset.filter_add,
    Multiset.sum_add]
  congr 1
  by_cases h : f.natDegree % 2 = 1
  · rw [if_pos (hc.2 h), if_pos h, Multiset.filter_singleton, if_pos (one_dvd n)]
    rfl
  · rw [if_neg (fun h' => h (hc.1 h')), if_neg h]
    rfl

end Points

/-! ### The loop -/

section Loop

theorem filter_succ (M : Multiset Nat) (P : Nat → Prop) [DecidablePred P] (fx : Nat) :
    M.filter (fun m => m < fx + 1 ∧ P m) =
      M.filter (fun m => m < fx ∧ P m) + if P fx then Multiset.replicate (M.count fx) fx else 0 := by
  ext a
  rw [Multiset.count_filter, Multiset.count_add, Multiset.count_filter]
  by_cases ha : a = fx
  · subst ha
    by_cases hP : P a
    · simp [hP]
    · simp [hP]
  · have : Multiset.count a (if P fx then Multiset.replicate (M.count fx) fx else 0) = 0 := by
      split
      · rw [Multiset.count_replicate, if_neg (fun h => ha h.symm)]
      · simp
    rw [this, Nat.add_zero]
    refine if_congr ?_ rfl rfl
    constructor
    · rintro ⟨h1, h2⟩; exact ⟨by omega, h2⟩
    · rintro ⟨h1, h2⟩; exact ⟨by omega, h2⟩

theorem multiset_sum_le {S T : Multiset Nat} (h : S ≤ T) : S.sum ≤ T.sum := by
  obtain ⟨u, rfl⟩ := Multiset.le_iff_exists_add.1 h
  rw [Multiset.sum_add]
  omega

theorem filter_sum_le (M : Multiset Nat) (P : Nat → Prop) [DecidablePred P] : (M.filter P).sum ≤ M.sum :=
  multiset_sum_le (Multiset.filter_le P M)

theorem lowerAt_set {m : OMap Nat Nat} (hm : OMap.Sorted m) (k v g : Nat) :
    Curve.lowerAt (m.set k v) g = if g = k then v else Curve.lowerAt m g := by
  unfold Curve.lowerAt
  rw [OMap.find?_set hm]
  by_cases h : g = k
  · rw [if_pos h, if_pos h]
  · rw [if_neg h, if_neg h]

theorem lowerInit_spec (d : Nat) : OMap.Sorted (Curve.lowerInit d) ∧ ∀ g, Curve.lowerAt (Curve.lowerInit d) g = 0 := by
  unfold Curve.lowerInit
  generalize (List.range (d - 1)).map (· + 1) = l
  suffices h : ∀ m : OMap Nat Nat, OMap.Sorted m → (∀ g, Curve.lowerAt m g = 0) →
      OMap.Sorted (l.foldl (fun (m : OMap Nat Nat) fx => m.set fx 0) m) ∧
        ∀ g, Curve.lowerAt (l.foldl (fun (m : OMap Nat Nat) fx => m.set fx 0) m) g = 0 from
    h [] OMap.sorted_nil (fun g => rfl)
  induction l with
  | nil => intro m h1 h2; exact ⟨h1, h2⟩
  | cons a l ih =>
    intro m h1 h2
    refine ih _ (OMap.sorted_set h1 _ _) ?_
    intro g
    rw [lowerAt_set h1, h2]
    simp

theorem addMultiples_spec {d fx new : Nat} (hfx : 0 < fx) {m : OMap Nat Nat} (hm : OMap.Sorted m)
    (hb : ∀ g, 0 < g → g < d → Curve.lowerAt m g + new < 4294967296) :
    OMap.Sorted (Curve.addMultiples d fx new m) ∧ ∀ g, 0 < g → g < d →
      Curve.lowerAt (Curve.addMultiples d fx new m) g = Curve.lowerAt m g + if fx ∣ g then new else 0 := by
  unfold Curve.addMultiples
  have hnd : ((List.range ((d - 1) / fx)).map fun k => (k + 1) * fx).Nodup := by
    refine List.nodup_range.map ?_
    intro a b h
    have := Nat.eq_of_mul_eq_mul_right hfx h
    omega
  have hmem : ∀ g, 0 < g → g < d → (g ∈ ((List.range ((d - 1) / fx)).map fun k => (k + 1) * fx) ↔ fx ∣ g) := by
    intro g h0 hd
    rw [List.mem_map]
    constructor
    · rintro ⟨k, _, rfl⟩; exact Nat.dvd_mul_left _ _
    · rintro ⟨k, rfl⟩
      have hk : 0 < k := Nat.pos_of_mul_pos_left h0
      refine ⟨k - 1, List.mem_range.2 ?_, by rw [Nat.sub_add_cancel hk, Nat.mul_comm]⟩
      have : k ≤ (d - 1) / fx := by
        rw [Nat.le_div_iff_mul_le hfx, Nat.mul_comm]; omega
      omega
  suffices h : ∀ (l : List Nat), l.Nodup → ∀ m : OMap Nat Nat, OMap.Sorted m →
      (∀ g, 0 < g → g < d → g ∈ l → Curve.lowerAt m g + new < 4294967296) →
      OMap.Sorted (l.foldl (fun (m : OMap Nat Nat) gx => m.set gx (u32 (Curve.lowerAt m gx + new))) m) ∧
      ∀ g, 0 < g → g < d →
        Curve.lowerAt (l.foldl (fun (m : OMap Nat Nat) gx => m.set gx (u32 (Curve.lowerAt m gx + new))) m) g =
          Curve.lowerAt m g + if g ∈ l then new else 0 by
    obtain ⟨h1, h2⟩ := h _ hnd m hm (fun g h0 hd _ => hb g h0 hd)
    refine ⟨h1, fun g h0 hd => ?_⟩
    rw [h2 g h0 hd]
    congr 1
    exact if_congr (hmem g h0 hd) rfl rfl
  clear hnd hmem hb hm
  intro l
  induction l with
  | nil => intro _ m h _; exact ⟨h, fun g _ _ => by simp⟩
  | cons a l ih =>
    intro hnd m hm hb
    obtain ⟨hal, hnd⟩ := List.nodup_cons.1 hnd
    obtain ⟨h1, h2⟩ := ih hnd (m.set a (u32 (Curve.lowerAt m a + new))) (OMap.sorted_set hm _ _) (by
      intro g h0 hd hg
      rw [lowerAt_set hm, if_neg (by rintro rfl; exact hal hg)]
      exact hb g h0 hd (List.mem_cons_of_mem _ hg))
    refine ⟨h1, fun g h0 hd => ?_⟩
    rw [List.foldl_cons, h2 g h0 hd, lowerAt_set hm]
    by_cases hga : g = a
    · subst hga
      rw [if_pos rfl, if_neg hal, if_pos List.mem_cons_self, u32_of_lt (hb g h0 hd List.mem_cons_self)]
      rfl
    · rw [if_neg hga]
      congr 1
      refine if_congr ?_ rfl rfl
      simp [hga]

/-- What holds before the iteration for `fx`. -/
structure RamInv (M : Multiset Nat) (d fx sum : Nat) (lower : OMap Nat Nat) (rs : List Nat) : Prop where
  pos : 0 < fx
  sum_eq : sum = (M.filter (· < fx)).sum
  sorted : OMap.Sorted lower
  lower_eq : ∀ g, 0 < g → g < d → Curve.lowerAt lower g = (M.filter fun m => m < fx ∧ m ∣ g).sum
  rs_eq : (rs : Multiset Nat) = M.filter (· < fx)
  rs_sorted : rs.Pairwise (· ≤ ·)

theorem ramificationLoop_spec {F : Type} (c : Curve F) (M : Multiset Nat)
    (hM : M.sum < 4294967296) {d r : Nat} (hd : c.degree = d) (hr : c.table.primeExponent = r)
    (hw : d * r < 4294967296)
    (hpts : ∀ k, 0 < k → k < d → ∀ n, c.nmbPoints.find? (k * r) = some n → n.2 = (M.filter (· ∣ k)).sum) :
    ∀ n fx sum lower rs, fx + n ≤ max d 1 → RamInv M d fx sum lower rs →
      ∃ fx' sum' lower' rs', Curve.ramificationLoop c n fx sum lower rs = (fx', sum', rs') ∧
        fx' ≤ max d 1 ∧ RamInv M d fx' sum' lower' rs' := by
  intro n
  induction n with
  | zero => intro fx sum lower rs hn h; exact ⟨fx, sum, lower, rs, rfl, by omega, h⟩
  | succ n ih =>
    intro fx sum lower rs hn h
    have hp := h.pos
    have hfd : fx < d := by omega
    have hwrap : fx * r < 4294967296 := Nat.lt_of_le_of_lt (Nat.mul_le_mul_right r (by omega)) hw
    unfold Curve.ramificationLoop
    rw [hr, u32_of_lt hwrap]
    cases hf : c.nmbPoints.find? (fx * r) with
    | none => exact ⟨fx, sum, lower, rs, rfl, by omega, h⟩
    | some pts =>
      simp only
      have hN := hpts fx hp hfd pts hf
      have hNs : (M.filter (· ∣ fx)).sum = (M.filter fun m => m < fx ∧ m ∣ fx).sum + M.count fx * fx := by
        have h1 : M.filter (· ∣ fx) = M.filter fun m => m < fx + 1 ∧ m ∣ fx := by
          apply Multiset.filter_congr
          intro m hm
          constructor
          · intro h2; exact ⟨by have := Nat.le_of_dvd hp h2; omega, h2⟩
          · intro h2; exact h2.2
        rw [h1, filter_succ, if_pos (dvd_refl fx), Multiset.sum_add, Multiset.sum_replicate, smul_eq_mul]
      have hnew : u32sub pts.2 (Curve.lowerAt lower fx) = M.count fx * fx := by
        rw [hN, h.lower_eq fx hp hfd, hNs, u32sub_of_le (by omega)]
        omega
      have hsucc : ∀ (P : Nat → Prop) [DecidablePred P],
          (M.filter fun m => m < fx + 1 ∧ P m).sum =
            (M.filter fun m => m < fx ∧ P m).sum + if P fx then M.count fx * fx else 0 := by
        intro P _
        rw [filter_succ, Multiset.sum_add]
        congr 1
        split
        · rw [Multiset.sum_replicate, smul_eq_mul]
        · simp
      have hlt : ∀ k, M.filter (· < k) = M.filter (fun m => m < k ∧ True) := by
        intro k
        apply Multiset.filter_congr
        simp
      have hb : ∀ (P : Nat → Prop) [DecidablePred P], P fx →
          (M.filter fun m => m < fx ∧ P m).sum + M.count fx * fx < 4294967296 := by
        intro P _ hP
        have h1 := hsucc P
        rw [if_pos hP] at h1
        have h2 := filter_sum_le M (fun m => m < fx + 1 ∧ P m)
        omega
      rw [hnew, hd]
      have hbb : ∀ g, 0 < g → g < d → Curve.lowerAt lower g + M.count fx * fx < 4294967296 := by
        intro g h0 hg
        rw [h.lower_eq g h0 hg]
        have h1 := hb (fun _ => True) trivial
        have h2 : (M.filter fun m => m < fx ∧ m ∣ g).sum ≤ (M.filter fun m => m < fx ∧ True).sum := by
          apply multiset_sum_le
          apply Multiset.monotone_filter_right
          intro m hm
          exact ⟨hm.1, trivial⟩
        omega
      obtain ⟨h1, h2⟩ := addMultiples_spec (new := M.count fx * fx) hp h.sorted hbb
      refine ih (fx + 1) _ _ _ (by omega) ⟨by omega, ?_, h1, ?_, ?_, ?_⟩
      · have := hb (fun _ => True) trivial
        rw [h.sum_eq, hlt fx, hlt (fx + 1), hsucc, if_pos trivial, u32_of_lt this]
      · intro g h0 hg
        rw [h2 g h0 hg, h.lower_eq g h0 hg, hsucc (· ∣ g)]
      · have hdiv : (M.count fx * fx + fx - 1) / fx = M.count fx := by
          rw [Nat.div_eq_iff hp]
          constructor
          · omega
          · omega
        rw [hdiv, ← Multiset.coe_add, h.rs_eq, hlt fx, hlt (fx + 1), filter_succ, if_pos trivial]
        rfl
      · rw [List.pairwise_append]
        refine ⟨h.rs_sorted, List.pairwise_replicate.2 (Or.inr (le_refl _)), ?_⟩
        intro a ha b hb
        rw [List.eq_of_mem_replicate hb]
        have : a ∈ M.filter (· < fx) := by rw [← h.rs_eq]; exact ha
        exact Nat.le_of_lt (Multiset.mem_filter.1 this).2

/-- A multiset of numbers at least `k` with sum below `2 k` has at most one element. -/
theorem at_most_one {k : Nat} (S : Multiset Nat) (hS : ∀ m ∈ S, k ≤ m) (_ : 0 < k) (hsum : S.sum < 2 * k) :
    S = if S.sum ≠ 0 then {S.sum} else 0 := by
  induction S using Multiset.induction with
  | empty => simp
  | cons a S _ =>
    have ha := hS a (Multiset.mem_cons_self _ _)
    rw [Multiset.sum_cons] at hsum ⊢
    have h0 : S = 0 := by
      by_contra h
      obtain ⟨b, hb⟩ := Multiset.exists_mem_of_ne_zero h
      have h1 := hS b (Multiset.mem_cons_of_mem hb)
      have h2 : b ≤ S.sum := Multiset.single_le_sum (fun _ _ => Nat.zero_le _) b hb
      omega
    subst h0
    rw [if_pos (by simp; omega)]
    simp

/-- Deriving the branch degrees from the loop. -/
theorem ramInv_final {M : Multiset Nat} {d fx sum : Nat} {lower : OMap Nat Nat} {rs : List Nat}
    (h : RamInv M d fx sum lower rs) (hdiff : M.sum - sum < 2 * fx) :
    ((if M.sum - sum ≠ 0 then rs ++ [M.sum - sum] else rs : List Nat) : Multiset Nat) = M ∧
    (if M.sum - sum ≠ 0 then rs ++ [M.sum - sum] else rs).Pairwise (· ≤ ·) := by
  have hsplit := Multiset.filter_add_not (p := (· < fx)) M
  have hs : (M.filter (¬ · < fx)).sum = M.sum - sum := by
    have := congrArg Multiset.sum hsplit
    rw [Multiset.sum_add] at this
    rw [h.sum_eq]
    omega
  have hone := at_most_one (k := fx) (M.filter (¬ · < fx)) (by
    intro m hm
    have := (Multiset.mem_filter.1 hm).2
    omega) h.pos (by omega)
  rw [hs] at hone
  constructor
  · refine Eq.trans ?_ hsplit
    rw [hone, ← h.rs_eq]
    split
    · rw [← Multiset.coe_add]; rfl
    · simp
  · split
    · rename_i hne
      rw [List.pairwise_append]
      refine ⟨h.rs_sorted, List.pairwise_singleton _ _, ?_⟩
      intro a ha b hb
      rw [List.mem_singleton.1 hb]
      have h1 : a ∈ M.filter (· < fx) := by rw [← h.rs_eq]; exact ha
      have h2 := (Multiset.mem_filter.1 h1).2
      have h3 : M.sum - sum ∈ M.filter (¬ · < fx) := by
        rw [hone, if_pos hne]; exact Multiset.mem_singleton_self _
      have h4 := (Multiset.mem_filter.1 h3).2
      omega
    · exact h.rs_sorted

end Loop
end Hycu
