import Verif.Spec.Extension
import Verif.Lemmas.Setting

/-!
Sequences of counts.
-/

set_option linter.unusedSectionVars false

namespace Hycu

open Polynomial Fintype

section Bound
variable {K : Type} [Field K] [Fintype K]

theorem numSqrt_add_le {g : K} (hg : Primitive g) (hodd : card K % 2 = 1) (a : K) [Decidable (a = 0)] :
    numSqrt a + (if a = 0 then 1 else 0) ≤ 2 := by
  by_cases h : a = 0
  · rw [if_pos h, h, numSqrt_zero]; omega
  · rw [if_neg h]; exact numSqrt_le hg hodd a

/-- The curve has at most `2(q+1)` points. -/
theorem points_le {g : K} (hg : Primitive g) (hodd : card K % 2 = 1) (f : K[X]) :
    unramifiedPoints f + ramifiedPoints f ≤ 2 * (card K + 1) := by
  classical
  unfold unramifiedPoints ramifiedPoints
  rw [card_affine, card_affine_ram, numSqrt_zero_root]
  have h1 : ∑ x : K, numSqrt (f.eval x) + ∑ x : K, (if f.eval x = 0 then 1 else 0) ≤ 2 * card K := by
    rw [← Finset.sum_add_distrib]
    calc _ ≤ ∑ _x : K, 2 := Finset.sum_le_sum fun x _ => numSqrt_add_le hg hodd _
      _ = 2 * card K := by simp [Nat.mul_comm]
  have h2 := numSqrt_add_le hg hodd (f.coeff (2 * halfDegree f))
  unfold numSqrt at h1 h2 ⊢
  omega

end Bound

variable {F : Type}

/-- What `count` adds to the map. -/
def countValue (c : Curve F) (t : ReductionTable) : Res (Nat × Nat) := do
  let cs ← c.convert t
  let n ← Curve.countAffine t cs
  let front ← rd cs 0
  let back ← rd cs (cs.length - 1)
  pure (c.tallyInfinity back (Curve.tally t.primePowerPred front n))

theorem count_eq (c : Curve F) (t : ReductionTable) : c.count t =
    if t.prime ≠ c.table.prime then .abort
    else if c.nmbPoints.contains t.primeExponent then .ok c
    else countValue c t >>= fun n => .ok { c with nmbPoints := c.nmbPoints.set t.primeExponent n } := by
  unfold Curve.count countValue
  split
  · rfl
  · split
    · rfl
    · simp only [bind_assoc, Res.pure_eq, Res.bind_ok]

theorem countValue_congr {c d : Curve F} (h1 : c.table = d.table) (h2 : c.coeffs = d.coeffs)
    (t : ReductionTable) : countValue c t = countValue d t := by
  unfold countValue Curve.convert Curve.tallyInfinity Curve.genus Curve.degree
  rw [h1, h2]

/-- The shape of a successful count. -/
theorem count_ok_cases {c c' : Curve F} {t : ReductionTable} (h : c.count t = .ok c') :
    t.prime = c.table.prime ∧
    ((c.nmbPoints.contains t.primeExponent = true ∧ c' = c) ∨
      (c.nmbPoints.contains t.primeExponent = false ∧ ∃ n, countValue c t = .ok n ∧
        c' = { c with nmbPoints := c.nmbPoints.set t.primeExponent n })) := by
  rw [count_eq] at h
  split at h
  · exact absurd h (by simp)
  · rename_i hp
    refine ⟨by simpa using hp, ?_⟩
    split at h
    · rename_i hc
      exact Or.inl ⟨hc, (Res.ok.inj h).symm⟩
    · rename_i hc
      obtain ⟨n, h1, h2⟩ := Res.bind_eq_ok.1 h
      exact Or.inr ⟨by simpa using hc, n, h1, (Res.ok.inj h2).symm⟩

theorem count_sorted {c c' : Curve F} {t : ReductionTable} (h : c.count t = .ok c')
    (hs : OMap.Sorted c.nmbPoints) : OMap.Sorted c'.nmbPoints := by
  obtain ⟨_, ⟨_, rfl⟩ | ⟨_, n, _, rfl⟩⟩ := count_ok_cases h
  · exact hs
  · exact OMap.sorted_set hs _ _

theorem contains_set {m : OMap Nat (Nat × Nat)} (hm : OMap.Sorted m) (a b : Nat) (v : Nat × Nat) :
    (m.set a v).contains b = (decide (b = a) || m.contains b) := by
  unfold OMap.contains
  rw [OMap.find?_set hm]
  split <;> simp_all

theorem set_comm {m : OMap Nat (Nat × Nat)} (hm : OMap.Sorted m) {a b : Nat} (hab : a ≠ b)
    (v w : Nat × Nat) : (m.set a v).set b w = (m.set b w).set a v := by
  apply OMap.ext_find? (OMap.sorted_set (OMap.sorted_set hm _ _) _ _)
    (OMap.sorted_set (OMap.sorted_set hm _ _) _ _)
  intro k
  rw [OMap.find?_set (OMap.sorted_set hm _ _), OMap.find?_set hm,
    OMap.find?_set (OMap.sorted_set hm _ _), OMap.find?_set hm]
  by_cases h1 : k = a <;> by_cases h2 : k = b <;> simp_all

/-- Counting with two tables commutes. -/
theorem count_comm {c c1 c2 : Curve F} {s t : ReductionTable} (hs : OMap.Sorted c.nmbPoints)
    (hst : s.primeExponent = t.primeExponent → s = t) (h1 : c.count s = .ok c1) (h2 : c1.count t = .ok c2) :
    ∃ d, c.count t = .ok d ∧ d.count s = .ok c2 := by
  by_cases he : s.primeExponent = t.primeExponent
  · obtain rfl := hst he
    exact ⟨c1, h1, h2⟩
  · obtain ⟨hp1, h1'⟩ := count_ok_cases h1
    obtain ⟨hp2, h2'⟩ := count_ok_cases h2
    have hne : t.primeExponent ≠ s.primeExponent := fun h => he h.symm
    rcases h1' with ⟨ha, rfl⟩ | ⟨ha, n, hn, rfl⟩
    · -- `s` was counted already
      rcases h2' with ⟨hb, rfl⟩ | ⟨hb, m, hm, rfl⟩
      · exact ⟨_, h2, h1⟩
      · refine ⟨_, h2, ?_⟩
        rw [count_eq, if_neg (by simpa using hp1), if_pos]
        rw [contains_set hs]; simp [ha]
    · simp only at hp2
      rcases h2' with ⟨hb, rfl⟩ | ⟨hb, m, hm, rfl⟩
      · rw [contains_set hs] at hb
        simp only [hne, decide_false, Bool.false_or] at hb
        refine ⟨c, ?_, h1⟩
        rw [count_eq, if_neg (by simpa using hp2), if_pos hb]
      · rw [contains_set hs] at hb
        simp only [hne, decide_false, Bool.false_or] at hb
        have hm' : countValue c t = .ok m := by
          rw [← hm]; exact countValue_congr rfl rfl t
        refine ⟨{ c with nmbPoints := c.nmbPoints.set t.primeExponent m }, ?_, ?_⟩
        · rw [count_eq, if_neg (by simpa using hp2), if_neg (by simp [hb]), hm']; rfl
        · have hn' : countValue { c with nmbPoints := c.nmbPoints.set t.primeExponent m } s = .ok n := by
            rw [← hn]; exact countValue_congr rfl rfl s
          rw [count_eq, if_neg (by simpa using hp1), if_neg, hn', Res.bind_ok]
          · simp only [set_comm hs hne]
          · rw [contains_set hs]; simp [ha, he]

theorem countAll_perm {ts ts' : List ReductionTable} (hp : ts.Perm ts') :
    ∀ {c c' : Curve F}, OMap.Sorted c.nmbPoints →
    (∀ s ∈ ts, ∀ t ∈ ts, s.primeExponent = t.primeExponent → s = t) →
    countAll c ts = .ok c' → countAll c ts' = .ok c' := by
  unfold countAll
  induction hp with
  | nil => intro c c' _ _ h; exact h
  | cons a _ ih =>
    intro c c' hs hu h
    rw [List.foldlM_cons] at h ⊢
    obtain ⟨d, h1, h2⟩ := Res.bind_eq_ok.1 h
    rw [h1, Res.bind_ok]
    exact ih (count_sorted h1 hs) (fun s hs t ht => hu s (List.mem_cons_of_mem _ hs) t
      (List.mem_cons_of_mem _ ht)) h2
  | swap a b l =>
    intro c c' hs hu h
    rw [List.foldlM_cons] at h ⊢
    obtain ⟨d, h1, h2⟩ := Res.bind_eq_ok.1 h
    rw [List.foldlM_cons] at h2
    obtain ⟨d', h3, h4⟩ := Res.bind_eq_ok.1 h2
    obtain ⟨x, h5, h6⟩ := count_comm hs (hu _ (by simp) _ (by simp)) h1 h3
    rw [h5, Res.bind_ok, List.foldlM_cons, h6, Res.bind_ok, h4]
  | trans h1 _ ih1 ih2 =>
    intro c c' hs hu h
    exact ih2 hs (fun s hs t ht => hu s (h1.mem_iff.2 hs) t (h1.mem_iff.2 ht)) (ih1 hs hu h)

section Ext
variable [Field F] [Fintype F] [DecidableEq F]

/-- The number of points with `y ≠ 0` and with `y = 0` over the extension `E`. -/
noncomputable def extPoints (f : F[X]) (E : Extension F) : Nat × Nat :=
  (unramifiedPoints (f.map E.ι), ramifiedPoints (f.map E.ι))

theorem GoodCurve.of_counted {p r : Nat} {c : Curve F} (hc : GoodCurve p r c) (m : OMap Nat (Nat × Nat)) :
    GoodCurve p r { c with nmbPoints := m } :=
  ⟨hc.prime, hc.expo, hc.pred, hc.valid, hc.ne, hc.lead, hc.len⟩

variable {p r : Nat} {gF : F} {table : FqElementTable F} {E : Nat → Extension F} {g : ∀ k, (E k).K}
  {rt : Nat → ReductionTable}

/-- Facts about one extension. -/
theorem BuiltExtension.facts {k : Nat} (hp2 : p ≠ 2) (hT : BuiltFqTable p r gF table)
    (h : BuiltExtension p r gF E g rt k) :
    Compatible gF (g k) (E k).ι ∧ card (E k).K % 2 = 1 ∧ (rt k).prime = p ∧ (rt k).primeExponent = k * r ∧
      card (E k).K = p ^ (k * r) ∧ GoodReduction (g k) (rt k) := by
  obtain ⟨hp, hpos, hcard⟩ := h.built.prime
  obtain ⟨hodd, h2⟩ := odd_card_of (K := (E k).K) hp hp2 hcard hpos
  obtain ⟨_, _, _, h3, h4, h5, _⟩ := h.built.facts h2
  obtain ⟨_, _, _, h6, _⟩ := hT.facts
  exact ⟨⟨h6, h5.tables.prim, h.gens⟩, hodd, h3, h4, hcard, h5⟩

theorem count_ext {k : Nat} (hp2 : p ≠ 2) (hT : BuiltFqTable p r gF table)
    (h : BuiltExtension p r gF E g rt k) {c : Curve F} (hc : GoodCurve p r c)
    (hnew : c.nmbPoints.contains (k * r) = false) :
    c.count (rt k) = .ok { c with nmbPoints := (c.nmbPoints.set (k * r) (extPoints (rhsPoly gF c) (E k))) } := by
  obtain ⟨h1, h2, h3, h4, h5, h6⟩ := h.facts hp2 hT
  obtain ⟨_, h7, h8, _⟩ := hT.facts
  have := count_ok h1 h2 h.small hc h7 h3 (by rw [h4]; exact Nat.dvd_mul_left _ _) h8 (by rw [h5, h4]) h6
    h.openclSmall (by rw [h4]; exact hnew)
  rw [this, h4]
  rfl

/-- Counting with distinct tables records exactly their counts. -/
theorem countAll_ok (hp2 : p ≠ 2) (hT : BuiltFqTable p r gF table) : ∀ (ks : List Nat), ks.Nodup →
    (∀ k ∈ ks, BuiltExtension p r gF E g rt k) → ∀ {c : Curve F}, GoodCurve p r c →
    OMap.Sorted c.nmbPoints → (∀ k ∈ ks, c.nmbPoints.contains (k * r) = false) →
    ∃ m, countAll c (ks.map rt) = .ok { c with nmbPoints := m } ∧ OMap.Sorted m ∧
      (∀ k ∈ ks, m.find? (k * r) = some (extPoints (rhsPoly gF c) (E k))) ∧
      (∀ e, (∀ k ∈ ks, e ≠ k * r) → m.find? e = c.nmbPoints.find? e)
  | [], _, _, c, _, hs, _ => ⟨c.nmbPoints, rfl, hs, by simp, fun _ _ => rfl⟩
  | k :: ks, hnd, hE, c, hc, hs, hnew => by
    obtain ⟨_, hr, _⟩ := hT.facts
    have hinj : ∀ j ∈ ks, j * r ≠ k * r := by
      intro j hj h
      have := Nat.eq_of_mul_eq_mul_right hr h
      exact (List.nodup_cons.1 hnd).1 (this ▸ hj)
    have h1 := count_ext hp2 hT (hE k List.mem_cons_self) hc (hnew k List.mem_cons_self)
    obtain ⟨m, h2, h3, h4, h5⟩ := countAll_ok hp2 hT ks (List.nodup_cons.1 hnd).2
      (fun j hj => hE j (List.mem_cons_of_mem _ hj))
      (hc.of_counted (c.nmbPoints.set (k * r) (extPoints (rhsPoly gF c) (E k))))
      (OMap.sorted_set hs _ _)
      (by
        intro j hj
        simp only
        rw [contains_set hs, hnew j (List.mem_cons_of_mem _ hj)]
        simp [hinj j hj])
    refine ⟨m, ?_, h3, ?_, ?_⟩
    · unfold countAll at h2 ⊢
      rw [List.map_cons, List.foldlM_cons, h1, Res.bind_ok, h2]
    · intro j hj
      rcases List.mem_cons.1 hj with rfl | hj
      · rw [h5 _ (fun i hi => (hinj i hi).symm)]
        exact OMap.find?_set_self hs _ _
      · exact h4 j hj
    · intro e he
      rw [h5 e (fun i hi => he i (List.mem_cons_of_mem _ hi))]
      exact OMap.find?_set_of_ne hs (he k List.mem_cons_self) _

/-- The offsets of a counted curve. -/
theorem offsets_ok (hp2 : p ≠ 2) (hT : BuiltFqTable p r gF table) {c : Curve F} (hc : GoodCurve p r c)
    (hs : OMap.Sorted c.nmbPoints) {m : Nat} (hE : ∀ k, 0 < k → k ≤ m → BuiltExtension p r gF E g rt k)
    (hcount : ∀ k, 0 < k → k ≤ m → c.nmbPoints.find? (k * r) = some (extPoints (rhsPoly gF c) (E k)))
    (hother : ∀ e n, c.nmbPoints.find? e = some n → ∃ k, 0 < k ∧ k ≤ m ∧ e = k * r) :
    c.hasseWeilOffsets (m * r) = .ok ((List.range m).map fun k =>
      (((card F ^ (k + 1) : Nat) : Int) + 1 - (unramifiedPoints ((rhsPoly gF c).map (E (k + 1)).ι) +
        ramifiedPoints ((rhsPoly gF c).map (E (k + 1)).ι) : Nat))) := by
  obtain ⟨_, hr, hF, hg, _⟩ := hT.facts
  have hbound : ∀ k, 0 < k → k ≤ m → card (E k).K = p ^ (k * r) ∧ p ^ (k * r) < 2147483647 ∧
      unramifiedPoints ((rhsPoly gF c).map (E k).ι) + ramifiedPoints ((rhsPoly gF c).map (E k).ι) ≤
        2 * (p ^ (k * r) + 1) := by
    intro k hk hkm
    obtain ⟨h1, h2, _, _, h5, _⟩ := (hE k hk hkm).facts hp2 hT
    have h3 := points_le h1.primK h2 ((rhsPoly gF c).map (E k).ι)
    have h4 := (hE k hk hkm).small
    rw [h5] at h3 h4
    exact ⟨h5, h4, h3⟩
  have hent : ∀ en ∈ c.nmbPoints, ∃ k, 0 < k ∧ k ≤ m ∧ en = (k * r, extPoints (rhsPoly gF c) (E k)) := by
    intro en hen
    have h1 := OMap.find?_of_mem hs (k := en.1) (v := en.2) hen
    obtain ⟨k, hk1, hk2, hk3⟩ := hother _ _ h1
    refine ⟨k, hk1, hk2, ?_⟩
    rw [hk3, hcount k hk1 hk2] at h1
    rw [Prod.ext_iff]
    exact ⟨hk3, (Option.some.inj h1).symm⟩
  obtain ⟨M, h1, _, _, h4⟩ := hasseWeil_fold p c.nmbPoints [] OMap.sorted_nil
    (hs.imp (fun h1 h2 => by
      rw [h2] at h1
      exact absurd h1 (by simp [LawfulLess.irrefl])))
    (by
      intro en hen
      obtain ⟨k, hk1, hk2, rfl⟩ := hent en hen
      obtain ⟨_, h2, h3⟩ := hbound k hk1 hk2
      simp only [extPoints]
      rw [u32_of_lt (by omega)]
      exact ⟨_, by unfold Curve.toInt; rw [if_pos (by constructor <;> omega)]⟩)
  unfold Curve.hasseWeilOffsets
  rw [hc.expo, if_neg (by omega)]
  unfold Curve.hasseWeilMap
  rw [hc.prime, h1, Res.bind_ok, Nat.mul_div_cancel _ hr, Res.pure_eq]
  congr 1
  apply List.map_congr_left
  intro k hk
  have hk' := List.mem_range.1 hk
  have h2 := h4 _ (OMap.mem_of_find? (hcount (k + 1) (by omega) (by omega)))
  simp only [extPoints] at h2
  obtain ⟨_, h5, h6⟩ := hbound (k + 1) (by omega) (by omega)
  rw [h2, u32_of_lt (by omega)]
  simp only
  rw [hF, ← pow_mul, Nat.mul_comm r]

end Ext
end Hycu
