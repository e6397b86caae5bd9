import Verif.Lemmas.Count

/-!
`Curve.count` and `Curve.countNaive` compute the specified numbers of points.
-/

namespace Hycu

open Polynomial Fintype

variable {F K : Type} [Field F] [Fintype F] [Field K] [Fintype K]

/-- The right hand side of a curve as a polynomial over its base field with generator `g`. -/
noncomputable def rhsPoly (g : F) (c : Curve F) : F[X] := polyOfList (c.coeffs.map (eltOf g (card F)))

/-- A curve as constructed from a field table: valid indices, non-zero leading coefficient. -/
structure GoodCurve (p r : Nat) (c : Curve F) : Prop where
  prime : c.table.prime = p
  expo : c.table.primeExponent = r
  pred : c.table.primePowerPred = card F - 1
  valid : ∀ e ∈ c.coeffs, e < card F
  ne : c.coeffs ≠ []
  lead : c.coeffs.getLast? ≠ some (card F - 1)
  len : c.coeffs.length < 4294967296

/-- The extension `K` of `F`, with generators related as the code assumes ("fixme" in
src/curve.cc l.338-339). -/
structure Compatible (gF : F) (gK : K) (ι : F →+* K) : Prop where
  primF : Primitive gF
  primK : Primitive gK
  gens : ι gF = gK ^ ((card K - 1) / (card F - 1))

section
variable {gF : F} {gK : K} {ι : F →+* K}

omit [Fintype F] [Fintype K] in
theorem card_le_of_hom [Fintype F] [Fintype K] (ι : F →+* K) : card F ≤ card K :=
  Fintype.card_le_of_injective ι ι.injective

/-- Conversion of one index. -/
theorem convert_index (h : Compatible gF gK ι) {e : Nat} (he : e < card F) :
    (if e ≠ card F - 1 then (card K - 1) / (card F - 1) * e else card K - 1) < card K ∧
    eltOf gK (card K) (if e ≠ card F - 1 then (card K - 1) / (card F - 1) * e else card K - 1) =
      ι (eltOf gF (card F) e) := by
  have hq := two_le_card (F := F)
  have hQ := two_le_card (F := K)
  have hle := card_le_of_hom ι
  by_cases h0 : e = card F - 1
  · rw [if_neg (by simpa using h0), h0, eltOf_zero_index, eltOf_zero_index]
    exact ⟨by omega, by simp⟩
  · rw [if_pos h0]
    have h1 : 1 ≤ (card K - 1) / (card F - 1) := Nat.div_pos (by omega) (by omega)
    have h2 : (card K - 1) / (card F - 1) * (card F - 1) ≤ card K - 1 := Nat.div_mul_le_self _ _
    have h3 : (card K - 1) / (card F - 1) * (e + 1) ≤ (card K - 1) / (card F - 1) * (card F - 1) :=
      Nat.mul_le_mul_left _ (by omega)
    rw [Nat.mul_add, Nat.mul_one] at h3
    refine ⟨by omega, ?_⟩
    rw [eltOf_of_ne (by omega), eltOf_of_ne h0, map_pow, h.gens, ← pow_mul]

theorem convert_ok (h : Compatible gF gK ι) {p r : Nat} {c : Curve F} (hc : GoodCurve p r c)
    {t : ReductionTable} (hr : 0 < r) (htp : t.prime = p) (hte : r ∣ t.primeExponent)
    (hF : card F = p ^ r) (hK : card K = p ^ t.primeExponent)
    (htpred : t.primePowerPred = card K - 1) (hQ : card K ≤ 4294967296) :
    ∃ cs, c.convert t = .ok cs ∧ cs.length = c.coeffs.length ∧ (∀ e ∈ cs, e < card K) ∧
      cs.map (eltOf gK (card K)) = c.coeffs.map (fun e => ι (eltOf gF (card F) e)) ∧
      (∀ e, e < card F → ∀ i : Nat, c.coeffs[i]? = some e → ∃ e', cs[i]? = some e' ∧
        eltOf gK (card K) e' = ι (eltOf gF (card F) e)) := by
  have hq := two_le_card (F := F)
  have hcs : ∃ cs, c.convert t = .ok cs ∧ cs = c.coeffs.map (fun e =>
      if e ≠ card F - 1 then (card K - 1) / (card F - 1) * e else card K - 1) := by
    unfold Curve.convert
    rw [hc.prime, htp, if_neg (by simp), hc.expo, if_neg (by omega),
      if_neg (by simpa using Nat.mod_eq_zero_of_dvd hte)]
    by_cases he : r = t.primeExponent
    · rw [if_pos he]
      refine ⟨_, rfl, ?_⟩
      have hFK : card K = card F := by rw [hF, hK, he]
      rw [hFK, Nat.div_self (by omega)]
      conv_lhs => rw [← List.map_id c.coeffs]
      apply List.map_congr_left
      intro e _
      by_cases h0 : e = card F - 1 <;> simp [h0]
    · rw [if_neg he, hc.pred, if_neg (by omega), htpred]
      refine ⟨_, rfl, ?_⟩
      apply List.map_congr_left
      intro e hemem
      by_cases h0 : e = card F - 1
      · simp [h0]
      · have := (convert_index h (hc.valid e hemem)).1
        rw [if_pos h0] at this ⊢
        rw [if_pos h0, u32_of_lt (by omega)]
  obtain ⟨cs, h1, rfl⟩ := hcs
  refine ⟨_, h1, by simp, ?_, ?_, ?_⟩
  · intro e he
    obtain ⟨e0, h2, rfl⟩ := List.mem_map.1 he
    exact (convert_index h (hc.valid e0 h2)).1
  · rw [List.map_map]
    apply List.map_congr_left
    intro e he
    exact (convert_index h (hc.valid e he)).2
  · intro e he i hi
    exact ⟨_, by rw [List.getElem?_map, hi]; rfl, (convert_index h he).2⟩

theorem natDegree_rhs (hg : Primitive gF) {p r : Nat} {c : Curve F} (hc : GoodCurve p r c) :
    (rhsPoly gF c).natDegree = c.coeffs.length - 1 := by
  obtain ⟨l, e, hl⟩ := List.eq_nil_or_concat'  c.coeffs |>.resolve_left hc.ne
  have hlead := hc.lead
  rw [rhsPoly, natDegree_polyOfList (a := eltOf gF (card F) e)]
  · simp
  · simp [hl]
  · rw [hl] at hlead
    simp at hlead
    rw [ne_eq, hg.eltOf_eq_zero]
    exact hlead

omit [Fintype K] in
theorem natDegree_map_rhs (hg : Primitive gF) {p r : Nat} {c : Curve F} (hc : GoodCurve p r c)
    (ι : F →+* K) : ((rhsPoly gF c).map ι).natDegree = c.coeffs.length - 1 := by
  rw [natDegree_map, natDegree_rhs hg hc]

omit [Fintype K] in
/-- The coefficient that decides about infinity. -/
theorem coeff_infinity (hg : Primitive gF) {p r : Nat} {c : Curve F} (hc : GoodCurve p r c)
    (ι : F →+* K) :
    ((c.coeffs.length - 1) % 2 = 1 →
      ((rhsPoly gF c).map ι).coeff (2 * halfDegree ((rhsPoly gF c).map ι)) = 0) ∧
    ((c.coeffs.length - 1) % 2 = 0 →
      2 * halfDegree ((rhsPoly gF c).map ι) = c.coeffs.length - 1) := by
  unfold halfDegree
  rw [natDegree_map_rhs hg hc ι]
  constructor
  · intro h
    apply coeff_eq_zero_of_natDegree_lt
    rw [natDegree_map_rhs hg hc ι]
    omega
  · intro h; omega

open Classical in
theorem count_ok (h : Compatible gF gK ι) (hodd : card K % 2 = 1) (hQ : card K < 2147483647)
    {p r : Nat} {c : Curve F} (hc : GoodCurve p r c) {t : ReductionTable} (hr : 0 < r)
    (htp : t.prime = p) (hte : r ∣ t.primeExponent)
    (hF : card F = p ^ r) (hK : card K = p ^ t.primeExponent) (ht : GoodReduction gK t)
    (hocl : t.opencl = true → card K ≤ 1073741824)
    (hnew : c.nmbPoints.contains t.primeExponent = false) :
    c.count t = .ok { c with nmbPoints := (c.nmbPoints.set t.primeExponent
        (unramifiedPoints ((rhsPoly gF c).map ι), ramifiedPoints ((rhsPoly gF c).map ι))) } := by
  obtain ⟨cs, h1, hlen, hval, hmap, hidx⟩ := convert_ok h hc hr htp hte hF hK ht.pred (by omega)
  set f := (rhsPoly gF c).map ι with hf
  have hpoly : polyOfList (cs.map (eltOf gK (card K))) = f := by
    rw [hmap, hf, rhsPoly, polyOfList_map, List.map_map]; rfl
  have hq := two_le_card (F := K)
  have hpos := List.length_pos_iff.2 hc.ne
  have hne : cs ≠ [] := by
    rw [← List.length_pos_iff, hlen]; exact hpos
  have hg := h.primK
  have haff : Curve.countAffine t cs = .ok (affUnr gK f, affRam gK f) := by
    unfold Curve.countAffine
    cases ho : t.opencl
    · rw [if_neg (by simp), countCpu_spec ht hodd (by omega) hne hval, hpoly]
    · rw [if_pos rfl, countOpencl_spec ht hodd (hocl ho) hne hval, hpoly]
  have hU := affUnr_le hg hodd f
  have hR := affRam_le gK f
  -- the coefficients of `f`
  have hcoef : ∀ i e', cs[i]? = some e' → f.coeff i = eltOf gK (card K) e' := by
    intro i e' hi
    rw [← hpoly, coeff_polyOfList, List.getD, List.getElem?_map, hi]; rfl
  obtain ⟨fr, hfr⟩ : ∃ fr, cs[0]? = some fr := 
    ⟨cs[0]'(by omega), List.getElem?_eq_getElem _⟩
  obtain ⟨bk, hbk⟩ : ∃ bk, cs[cs.length - 1]? = some bk :=
    ⟨cs[cs.length - 1]'(by omega), List.getElem?_eq_getElem _⟩
  have hfront : f.eval 0 = eltOf gK (card K) fr := by
    rw [← coeff_zero_eq_eval_zero, hcoef 0 fr hfr]
  have htal : Curve.tally (card K - 1) fr (affUnr gK f, affRam gK f) =
      (affUnr gK f + numSqrt (f.eval 0), affRam gK f + if f.eval 0 = 0 then 1 else 0) := by
    have e1 := unr_eq hg hodd fr
    have e2 := ram_eq hg fr
    have l1 := unr_le (card K - 1) fr
    have l2 := ram_le (card K - 1) fr
    rw [tally_eq (by simp only; omega) (by simp only; omega), e1, e2, hfront]
  have hUbound : numSqrt (f.eval 0) ≤ 2 := by
    rw [hfront, ← unr_eq hg hodd]; exact unr_le _ _
  have hRbound : (if f.eval 0 = 0 then 1 else 0) ≤ 1 := by split <;> omega
  have hinf : c.tallyInfinity bk (affUnr gK f + numSqrt (f.eval 0),
      affRam gK f + if f.eval 0 = 0 then 1 else 0) = (unramifiedPoints f, ramifiedPoints f) := by
    rw [unramified_split hg, ramified_split hg]
    unfold Curve.tallyInfinity
    rcases Nat.mod_two_eq_zero_or_one (c.coeffs.length - 1) with hpar | hpar
    · rw [if_neg (by rw [infinity_cond hc.ne hc.len]; omega), (coeff_infinity h.primF hc ι).2 hpar,
        ← hlen, hcoef _ bk hbk]
      have hbk0 : bk ≠ card K - 1 := by
        intro h0
        have hz : f.coeff (cs.length - 1) = 0 := by rw [hcoef _ bk hbk, h0, eltOf_zero_index]
        have hd : f.natDegree = cs.length - 1 := by rw [hf, natDegree_map_rhs h.primF hc ι, hlen]
        rw [← hd] at hz
        have hf0 : f = 0 := leadingCoeff_eq_zero.1 hz
        have h00 : rhsPoly gF c = 0 := (Polynomial.map_eq_zero ι).1 hf0
        -- the leading coefficient of the curve is not zero
        obtain ⟨l, e, hl⟩ := List.eq_nil_or_concat' c.coeffs |>.resolve_left hc.ne
        have hlead := hc.lead
        rw [hl] at hlead
        simp at hlead
        have hce : (rhsPoly gF c).coeff (c.coeffs.length - 1) = eltOf gF (card F) e := by
          rw [rhsPoly, coeff_polyOfList, hl]
          simp [List.getD]
        rw [h00, coeff_zero] at hce
        exact hlead (h.primF.eltOf_eq_zero.1 hce.symm)
      rw [numSqrt_index hg hodd hbk0, if_neg (c := eltOf gK (card K) bk = 0)
        (by rw [hg.eltOf_eq_zero]; exact hbk0), Nat.add_zero]
      split
      · rw [u32_of_lt (by simp only; omega)]; simp
      · simp
    · rw [if_pos (by rw [infinity_cond hc.ne hc.len]; omega), (coeff_infinity h.primF hc ι).1 hpar,
        numSqrt_zero, if_pos (c := (0 : K) = 0) rfl]
      simp only [Nat.add_zero]
      rw [u32_of_lt (by omega)]
  unfold Curve.count
  rw [if_neg (by rw [htp, hc.prime]; simp), if_neg (by simp [hnew]), h1, Res.bind_ok, haff, Res.bind_ok,
    rd_eq_ok.2 hfr, Res.bind_ok, rd_eq_ok.2 hbk, Res.bind_ok, ht.pred, htal, hinf, Res.pure_eq]

end
end Hycu
