import Verif.Lemmas.CountMain

/-!
Construction of curves, naive counting, Hasse-Weil offsets, sequences of counts.
-/

namespace Hycu

open Polynomial Fintype

variable {F K : Type} [Field F] [Fintype F] [Field K] [Fintype K]

/-! ### Constructor -/

theorem strip_ok (z : Nat) : ∀ (l : List Nat), (∃ e ∈ l, e ≠ z) →
    ∃ k c cs, Curve.strip z l = .ok (c :: cs) ∧ l = List.replicate k z ++ c :: cs ∧ c ≠ z
  | [], ⟨e, h, _⟩ => by simp at h
  | a :: l, h => by
    by_cases ha : a = z
    · obtain ⟨k, c, cs, h1, h2, h3⟩ := strip_ok z l (by
        obtain ⟨e, h1, h2⟩ := h
        rcases List.mem_cons.1 h1 with rfl | h1
        · exact absurd ha h2
        · exact ⟨e, h1, h2⟩)
      refine ⟨k + 1, c, cs, by rw [Curve.strip, if_pos ha, h1], ?_, h3⟩
      rw [h2, ha, List.replicate_succ, List.cons_append]
    · exact ⟨0, a, l, by rw [Curve.strip, if_neg ha], by simp, ha⟩

theorem strip_ub (z : Nat) : ∀ (l : List Nat), (∀ e ∈ l, e = z) → Curve.strip z l = .ub
  | [], _ => rfl
  | a :: l, h => by
    rw [Curve.strip, if_pos (h a List.mem_cons_self)]
    exact strip_ub z l (fun e he => h e (List.mem_cons_of_mem _ he))

omit [Field F] [Fintype F] in
theorem make_curve (t : FqElementTable F) {cs : List Nat} (h : ∃ e ∈ cs, e ≠ t.zeroIndex) :
    ∃ k cs', Curve.make t cs = .ok { table := t, coeffs := cs', nmbPoints := [] } ∧
      cs = cs' ++ List.replicate k t.zeroIndex ∧ cs' ≠ [] ∧ cs'.getLast? ≠ some t.zeroIndex := by
  obtain ⟨k, c, l, h1, h2, h3⟩ := strip_ok t.zeroIndex cs.reverse (by simpa using h)
  refine ⟨k, (c :: l).reverse, ?_, ?_, by simp, by simpa using h3⟩
  · rw [Curve.make, h1]; rfl
  · rw [← List.reverse_reverse cs, h2]
    simp

omit [Fintype K] in
theorem polyOfList_append_zeros (l : List K) : ∀ k, polyOfList (l ++ List.replicate k 0) = polyOfList l := by
  intro k
  ext i
  rw [coeff_polyOfList, coeff_polyOfList]
  simp only [List.getD, List.getElem?_append, List.getElem?_replicate]
  split
  · rfl
  · rename_i h
    rw [List.getElem?_eq_none (l := l) (by omega)]
    split <;> rfl

theorem goodCurve_of_make {p r : Nat} {t : FqElementTable F} (hp : t.prime = p) (hr : t.primeExponent = r)
    (hpred : t.primePowerPred = card F - 1) {cs : List Nat} (hv : ∀ e ∈ cs, e < card F)
    (hlen : cs.length < 4294967296) {c : Curve F} (h : Curve.make t cs = .ok c) (g : F) :
    GoodCurve p r c ∧ c.table = t ∧ c.nmbPoints = [] ∧
      rhsPoly g c = polyOfList (cs.map (eltOf g (card F))) := by
  by_cases hne : ∃ e ∈ cs, e ≠ t.zeroIndex
  · obtain ⟨k, cs', h1, h2, h3, h4⟩ := make_curve t hne
    rw [h1] at h
    obtain rfl := Res.ok.inj h
    refine ⟨⟨hp, hr, hpred, ?_, h3, ?_, ?_⟩, rfl, rfl, ?_⟩
    · intro e he
      exact hv e (by rw [h2]; exact List.mem_append_left _ he)
    · simpa [FqElementTable.zeroIndex, hpred] using h4
    · rw [h2] at hlen; simp at hlen; simp; omega
    · rw [h2, List.map_append, List.map_replicate, FqElementTable.zeroIndex, hpred, eltOf_zero_index,
        polyOfList_append_zeros]
      rfl
  · have : Curve.make t cs = .ub := by
      rw [Curve.make, strip_ub _ _ (by
        intro e he
        by_contra hc
        exact hne ⟨e, by simpa using he, hc⟩)]
      rfl
    rw [this] at h
    exact absurd h (by simp)

/-! ### Naive counting -/

omit [Fintype K] in
theorem naiveEval_eq (x : K) : ∀ (cs : List K) (xpw rhs : K),
    Curve.naiveEval x cs xpw rhs = rhs + xpw * (polyOfList cs).eval x
  | [], xpw, rhs => by simp [Curve.naiveEval, polyOfList]
  | c :: cs, xpw, rhs => by
    rw [Curve.naiveEval, naiveEval_eq x cs]
    simp only [polyOfList, eval_add, eval_C, eval_mul, eval_X]
    ring

theorem euler_index {g : K} (hg : Primitive g) (hodd : card K % 2 = 1) (e : Nat) :
    (g ^ e) ^ ((card K - 1) / 2) = 1 ↔ e % 2 = 0 := by
  have hq := two_le_card (F := K)
  obtain ⟨h, hh⟩ : ∃ h, card K - 1 = 2 * h := ⟨(card K - 1) / 2, by omega⟩
  have hpos : 0 < h := by omega
  rw [← pow_mul, ← pow_zero g, hg.pow_eq_iff, hh, Nat.mul_div_cancel_left _ (by omega), Nat.zero_mod]
  constructor
  · intro h1
    obtain ⟨k, hk⟩ := Nat.dvd_of_mod_eq_zero h1
    have : h * e = h * (2 * k) := by rw [Nat.mul_comm h e, hk]; ring
    have := Nat.eq_of_mul_eq_mul_left hpos this
    omega
  · intro h1
    obtain ⟨k, rfl⟩ : ∃ k, e = 2 * k := ⟨e / 2, by omega⟩
    apply Nat.mod_eq_zero_of_dvd
    exact ⟨k, by ring⟩

theorem numSqrt_euler [DecidableEq K] {g : K} (hg : Primitive g) (hodd : card K % 2 = 1) {a : K} (ha : a ≠ 0) :
    numSqrt a = if a ^ ((card K - 1) / 2) = 1 then 2 else 0 := by
  obtain ⟨e, rfl⟩ := hg.2 a ha
  rw [numSqrt_pow hg hodd]
  simp only [euler_index hg hodd]

theorem naiveUpdate_eq [DecidableEq K] {g : K} (hg : Primitive g) (hodd : card K % 2 = 1) (cs : List K) (x : K)
    {n : Nat × Nat} (h1 : n.1 + 2 < 4294967296) (h2 : n.2 + 1 < 4294967296) :
    Curve.naiveUpdate (card K - 1) cs x n = (n.1 + numSqrt ((polyOfList cs).eval x),
      n.2 + if (polyOfList cs).eval x = 0 then 1 else 0) := by
  unfold Curve.naiveUpdate
  simp only [naiveEval_eq, zero_add, one_mul]
  by_cases h0 : (polyOfList cs).eval x = 0
  · rw [if_pos h0, if_pos h0, h0, numSqrt_zero, u32_of_lt h2]; rfl
  · rw [if_neg h0, if_neg h0, numSqrt_euler hg hodd h0]
    split
    · rw [u32_of_lt h1]; rfl
    · rfl

theorem numSqrt_le {g : K} (hg : Primitive g) (hodd : card K % 2 = 1) (a : K) : numSqrt a ≤ 2 := by
  obtain ⟨e, _, rfl⟩ := hg.eltOf_surj a
  rw [← unr_eq hg hodd]
  exact unr_le _ _

theorem naiveLoop_eq [DecidableEq K] {g : K} (hg : Primitive g) (hodd : card K % 2 = 1) (cs : List K) :
    ∀ (k m : Nat) (n : Nat × Nat), n.1 + 2 * k < 4294967296 → n.2 + k < 4294967296 →
    Curve.naiveLoop (card K - 1) cs g k (g ^ m) n =
      (n.1 + ((List.range' m k).map fun i => numSqrt ((polyOfList cs).eval (g ^ i))).sum,
       n.2 + ((List.range' m k).map fun i => if (polyOfList cs).eval (g ^ i) = 0 then 1 else 0).sum)
  | 0, m, n, _, _ => by simp [Curve.naiveLoop]
  | k + 1, m, n, h1, h2 => by
    have hle := numSqrt_le hg hodd ((polyOfList cs).eval (g ^ m))
    have hle2 : (if (polyOfList cs).eval (g ^ m) = 0 then 1 else 0) ≤ 1 := by split <;> omega
    rw [Curve.naiveLoop, ← pow_succ, naiveUpdate_eq hg hodd cs _ (by omega) (by omega),
      naiveLoop_eq hg hodd cs k (m + 1) _ (by simp only; omega) (by simp only; omega)]
    simp [List.range'_succ, Nat.add_assoc]

theorem countNaive_ok [DecidableEq K] {gF : F} {gK : K} {ι : F →+* K} (h : Compatible gF gK ι)
    (hodd : card K % 2 = 1) (hQ : card K < 2147483647)
    {p r : Nat} {c : Curve F} (hc : GoodCurve p r c) {e : Nat} (hr : 0 < r) (he : 0 < e) (hre : r ∣ e)
    (hK : card K = p ^ e) (hnew : c.nmbPoints.contains e = false) :
    c.countNaive gK e = .ok { c with nmbPoints := (c.nmbPoints.set e
        (unramifiedPoints ((rhsPoly gF c).map ι), ramifiedPoints ((rhsPoly gF c).map ι))) } := by
  have hq := two_le_card (F := F)
  set f := (rhsPoly gF c).map ι with hf
  have hg := h.primK
  have hpos := List.length_pos_iff.2 hc.ne
  set cs := c.coeffs.map (fun e => if e = card F - 1 then 0
    else (gK ^ ((card K - 1) / (card F - 1))) ^ e) with hcs
  have hcs' : cs = c.coeffs.map (fun e => ι (eltOf gF (card F) e)) := by
    rw [hcs]
    apply List.map_congr_left
    intro e _
    unfold eltOf
    split
    · simp
    · rw [map_pow, h.gens]
  have hpoly : polyOfList cs = f := by
    rw [hcs', hf, rhsPoly, polyOfList_map, List.map_map]; rfl
  have hlen : cs.length = c.coeffs.length := by rw [hcs]; simp
  obtain ⟨bk, hbk⟩ : ∃ bk, cs[cs.length - 1]? = some bk :=
    ⟨cs[cs.length - 1]'(by omega), List.getElem?_eq_getElem _⟩
  have hcoef : f.coeff (cs.length - 1) = bk := by
    rw [← hpoly, coeff_polyOfList, List.getD, hbk]; rfl
  have hU := affUnr_le hg hodd f
  have hR := affRam_le gK f
  have hUbound := numSqrt_le hg hodd (f.eval 0)
  have hRbound : (if f.eval 0 = 0 then 1 else 0) ≤ 1 := by split <;> omega
  have hloop : Curve.naiveLoop (card K - 1) cs gK (card K - 1) 1
      (Curve.naiveUpdate (card K - 1) cs 0 (0, 0)) =
      (affUnr gK f + numSqrt (f.eval 0), affRam gK f + if f.eval 0 = 0 then 1 else 0) := by
    have hq := two_le_card (F := K)
    rw [naiveUpdate_eq hg hodd _ _ (by simp) (by simp), ← pow_zero gK, hpoly,
      naiveLoop_eq hg hodd _ _ _ _ (by simp only; omega) (by simp only; omega), hpoly]
    simp only [Nat.zero_add, ← List.range_eq_range']
    unfold affUnr affRam
    rw [Nat.add_comm (numSqrt _), Nat.add_comm (if f.eval 0 = 0 then 1 else 0)]
    congr!
  have hinf : (if c.degree < u32 (2 * c.genus + 2) then
        (affUnr gK f + numSqrt (f.eval 0), u32 ((affRam gK f + if f.eval 0 = 0 then 1 else 0) + 1))
      else if bk ^ ((card K - 1) / 2) = 1 then
        (u32 (affUnr gK f + numSqrt (f.eval 0) + 2), affRam gK f + if f.eval 0 = 0 then 1 else 0)
      else (affUnr gK f + numSqrt (f.eval 0), affRam gK f + if f.eval 0 = 0 then 1 else 0)) =
      (unramifiedPoints f, ramifiedPoints f) := by
    have hram := ramified_split hg f
    rw [unramified_split hg]
    rcases Nat.mod_two_eq_zero_or_one (c.coeffs.length - 1) with hpar | hpar
    · rw [if_neg (by rw [infinity_cond hc.ne hc.len]; omega), (coeff_infinity h.primF hc ι).2 hpar,
        ← hlen, hcoef]
      rw [(coeff_infinity h.primF hc ι).2 hpar, ← hlen, hcoef] at hram
      have hbk0 : bk ≠ 0 := by
        intro h0
        have hd : f.natDegree = cs.length - 1 := by rw [hf, natDegree_map_rhs h.primF hc ι, hlen]
        have hz : f.coeff f.natDegree = 0 := by rw [hd, hcoef, h0]
        have hf0 : f = 0 := leadingCoeff_eq_zero.1 hz
        have h00 : rhsPoly gF c = 0 := (Polynomial.map_eq_zero ι).1 hf0
        obtain ⟨l, e, hl⟩ := List.eq_nil_or_concat' c.coeffs |>.resolve_left hc.ne
        have hlead := hc.lead
        rw [hl] at hlead
        simp at hlead
        have hce : (rhsPoly gF c).coeff (c.coeffs.length - 1) = eltOf gF (card F) e := by
          rw [rhsPoly, coeff_polyOfList, hl]
          simp [List.getD]
        rw [h00, coeff_zero] at hce
        exact hlead (h.primF.eltOf_eq_zero.1 hce.symm)
      rw [if_neg (c := bk = 0) hbk0, Nat.add_zero] at hram
      rw [numSqrt_euler hg hodd hbk0, hram]
      split
      · rw [u32_of_lt (by omega)]; congr!
      · simp only [Nat.add_zero]; congr!
    · rw [if_pos (by rw [infinity_cond hc.ne hc.len]; omega), (coeff_infinity h.primF hc ι).1 hpar,
        numSqrt_zero, hram, (coeff_infinity h.primF hc ι).1 hpar, if_pos (c := (0 : K) = 0) rfl,
        u32_of_lt (by omega)]
      simp only [Nat.add_zero]
      congr!
  unfold Curve.countNaive
  rw [if_neg (by omega), hc.expo, if_neg (by omega), if_neg (by simpa using Nat.mod_eq_zero_of_dvd hre),
    if_neg (by simp [hnew]), hc.pred, if_neg (by omega), hc.prime, ← hK, if_neg (by omega)]
  simp only
  rw [← hcs, rd_eq_ok.2 hbk, Res.bind_ok, hloop]
  simp only
  rw [hinf, Res.pure_eq]

/-! ### Hasse-Weil offsets -/

omit [Field F] [Fintype F] in
theorem hasseWeil_fold (p : Nat) : ∀ (l : OMap Nat (Nat × Nat)) (m : OMap Nat Int), OMap.Sorted m →
    (l : List _).Pairwise (fun a b => a.1 ≠ b.1) →
    (∀ en ∈ l, ∃ v, Curve.toInt ((p ^ en.1 : Nat) + 1 - (u32 (en.2.1 + en.2.2) : Nat)) = .ok v) →
    ∃ m', l.foldlM (fun (m : OMap Nat Int) en => do
        let v ← Curve.toInt ((p ^ en.1 : Nat) + 1 - (u32 (en.2.1 + en.2.2) : Nat))
        pure (m.set en.1 v)) m = .ok m' ∧ OMap.Sorted m' ∧
      (∀ k, (∀ en ∈ l, en.1 ≠ k) → m'.find? k = m.find? k) ∧
      (∀ en ∈ l, m'.find? en.1 = some (((p ^ en.1 : Nat) : Int) + 1 - ((u32 (en.2.1 + en.2.2) : Nat) : Int)))
  | [], m, hm, _, _ => ⟨m, rfl, hm, fun _ _ => rfl, by simp⟩
  | en :: l, m, hm, hp, hv => by
    obtain ⟨v, hv1⟩ := hv en List.mem_cons_self
    obtain ⟨m', h1, h2, h3, h4⟩ := hasseWeil_fold p l (m.set en.1 v) (OMap.sorted_set hm _ _)
      (List.pairwise_cons.1 hp).2 (fun e he => hv e (List.mem_cons_of_mem _ he))
    have hval : v = (p ^ en.1 : Nat) + 1 - (u32 (en.2.1 + en.2.2) : Nat) := by
      unfold Curve.toInt at hv1
      split at hv1
      · exact (Res.ok.inj hv1).symm
      · exact absurd hv1 (by simp)
    refine ⟨m', ?_, h2, ?_, ?_⟩
    · rw [List.foldlM_cons, hv1]; exact h1
    · intro k hk
      rw [h3 k (fun e he => hk e (List.mem_cons_of_mem _ he)),
        OMap.find?_set_of_ne hm (hk en List.mem_cons_self).symm]
    · intro e he
      rcases List.mem_cons.1 he with rfl | he
      · rw [h3 _ (fun e' he' => ((List.pairwise_cons.1 hp).1 e' he').symm), OMap.find?_set_self hm, hval]
      · exact h4 e he

end Hycu
