import Verif.Lemmas.CountAll

/-!
The counts for all fields of at most `2^31 - 1` elements: the number of points with `y ≠ 0` is stored modulo `2^32`.
-/

namespace Hycu

open Polynomial Fintype

variable {F K : Type} [Field F] [Fintype F] [Field K] [Fintype K]

section
variable {gF : F} {gK : K} {ι : F →+* K}

open Classical in
theorem count_wraps (h : Compatible gF gK ι) (hodd : card K % 2 = 1) (hQ : card K ≤ 2147483647)
    {p r : Nat} {c : Curve F} (hc : GoodCurve p r c) {t : ReductionTable} (hr : 0 < r)
    (htp : t.prime = p) (hte : r ∣ t.primeExponent)
    (hF : card F = p ^ r) (hK : card K = p ^ t.primeExponent) (ht : GoodReduction gK t)
    (hocl : t.opencl = true → card K ≤ 1073741824)
    (hnew : c.nmbPoints.contains t.primeExponent = false) :
    c.count t = .ok { c with nmbPoints := (c.nmbPoints.set t.primeExponent
        (u32 (unramifiedPoints ((rhsPoly gF c).map ι)), ramifiedPoints ((rhsPoly gF c).map ι))) } := by
  obtain ⟨cs, h1, hlen, hval, hmap, hidx⟩ := convert_ok h hc hr htp hte hF hK ht.pred (by omega)
  set f := (rhsPoly gF c).map ι with hf
  have hpoly : polyOfList (cs.map (eltOf gK (card K))) = f := by
    rw [hmap, hf, rhsPoly, polyOfList_map, List.map_map]; rfl
  have hq := two_le_card (F := K)
  have hpos := List.length_pos_iff.2 hc.ne
  have hne : cs ≠ [] := by
    rw [← List.length_pos_iff, hlen]; exact hpos
  have hg := h.primK
  have haff : Curve.countAffine t cs = .ok (affUnr gK f, affRam gK f) := by
    unfold Curve.countAffine
    cases ho : t.opencl
    · rw [if_neg (by simp), countCpu_spec ht hodd (by omega) hne hval, hpoly]
    · rw [if_pos rfl, countOpencl_spec ht hodd (hocl ho) hne hval, hpoly]
  have hU := affUnr_le hg hodd f
  have hR := affRam_le gK f
  -- the coefficients of `f`
  have hcoef : ∀ i e', cs[i]? = some e' → f.coeff i = eltOf gK (card K) e' := by
    intro i e' hi
    rw [← hpoly, coeff_polyOfList, List.getD, List.getElem?_map, hi]; rfl
  obtain ⟨fr, hfr⟩ : ∃ fr, cs[0]? = some fr := 
    ⟨cs[0]'(by omega), List.getElem?_eq_getElem _⟩
  obtain ⟨bk, hbk⟩ : ∃ bk, cs[cs.length - 1]? = some bk :=
    ⟨cs[cs.length - 1]'(by omega), List.getElem?_eq_getElem _⟩
  have hfront : f.eval 0 = eltOf gK (card K) fr := by
    rw [← coeff_zero_eq_eval_zero, hcoef 0 fr hfr]
  have htal : Curve.tally (card K - 1) fr (affUnr gK f, affRam gK f) =
      (affUnr gK f + numSqrt (f.eval 0), affRam gK f + if f.eval 0 = 0 then 1 else 0) := by
    have e1 := unr_eq hg hodd fr
    have e2 := ram_eq hg fr
    have l1 := unr_le (card K - 1) fr
    have l2 := ram_le (card K - 1) fr
    rw [tally_eq (by simp only; omega) (by simp only; omega), e1, e2, hfront]
  have hUbound : numSqrt (f.eval 0) ≤ 2 := by
    rw [hfront, ← unr_eq hg hodd]; exact unr_le _ _
  have hRbound : (if f.eval 0 = 0 then 1 else 0) ≤ 1 := by split <;> omega
  have hinf : c.tallyInfinity bk (affUnr gK f + numSqrt (f.eval 0),
      affRam gK f + if f.eval 0 = 0 then 1 else 0) = (u32 (unramifiedPoints f), ramifiedPoints f) := by
    rw [unramified_split hg, ramified_split hg]
    unfold Curve.tallyInfinity
    rcases Nat.mod_two_eq_zero_or_one (c.coeffs.length - 1) with hpar | hpar
    · rw [if_neg (by rw [infinity_cond hc.ne hc.len]; omega), (coeff_infinity h.primF hc ι).2 hpar,
        ← hlen, hcoef _ bk hbk]
      have hbk0 : bk ≠ card K - 1 := by
        intro h0
        have hz : f.coeff (cs.length - 1) = 0 := by rw [hcoef _ bk hbk, h0, eltOf_zero_index]
        have hd : f.natDegree = cs.length - 1 := by rw [hf, natDegree_map_rhs h.primF hc ι, hlen]
        rw [← hd] at hz
        have hf0 : f = 0 := leadingCoeff_eq_zero.1 hz
        have h00 : rhsPoly gF c = 0 := (Polynomial.map_eq_zero ι).1 hf0
        -- the leading coefficient of the curve is not zero
        obtain ⟨l, e, hl⟩ := List.eq_nil_or_concat' c.coeffs |>.resolve_left hc.ne
        have hlead := hc.lead
        rw [hl] at hlead
        simp at hlead
        have hce : (rhsPoly gF c).coeff (c.coeffs.length - 1) = eltOf gF (card F) e := by
          rw [rhsPoly, coeff_polyOfList, hl]
          simp [List.getD]
        rw [h00, coeff_zero] at hce
        exact hlead (h.primF.eltOf_eq_zero.1 hce.symm)
      rw [numSqrt_index hg hodd hbk0, if_neg (c := eltOf gK (card K) bk = 0)
        (by rw [hg.eltOf_eq_zero]; exact hbk0), Nat.add_zero]
      split
      · simp
      · rw [u32_of_lt (n := _ + 0) (by omega)]; simp
    · rw [if_pos (by rw [infinity_cond hc.ne hc.len]; omega), (coeff_infinity h.primF hc ι).1 hpar,
        numSqrt_zero, if_pos (c := (0 : K) = 0) rfl]
      simp only [Nat.add_zero]
      rw [u32_of_lt (by omega), u32_of_lt (by omega)]
  unfold Curve.count
  rw [if_neg (by rw [htp, hc.prime]; simp), if_neg (by simp [hnew]), h1, Res.bind_ok, haff, Res.bind_ok,
    rd_eq_ok.2 hfr, Res.bind_ok, rd_eq_ok.2 hbk, Res.bind_ok, ht.pred, htal, hinf, Res.pure_eq]


end

theorem countNaive_wraps [DecidableEq K] {gF : F} {gK : K} {ι : F →+* K} (h : Compatible gF gK ι)
    (hodd : card K % 2 = 1) (hQ : card K ≤ 2147483647)
    {p r : Nat} {c : Curve F} (hc : GoodCurve p r c) {e : Nat} (hr : 0 < r) (he : 0 < e) (hre : r ∣ e)
    (hK : card K = p ^ e) (hnew : c.nmbPoints.contains e = false) :
    c.countNaive gK e = .ok { c with nmbPoints := (c.nmbPoints.set e
        (u32 (unramifiedPoints ((rhsPoly gF c).map ι)), ramifiedPoints ((rhsPoly gF c).map ι))) } := by
  have hq := two_le_card (F := F)
  set f := (rhsPoly gF c).map ι with hf
  have hg := h.primK
  have hpos := List.length_pos_iff.2 hc.ne
  set cs := c.coeffs.map (fun e => if e = card F - 1 then 0
    else (gK ^ ((card K - 1) / (card F - 1))) ^ e) with hcs
  have hcs' : cs = c.coeffs.map (fun e => ι (eltOf gF (card F) e)) := by
    rw [hcs]
    apply List.map_congr_left
    intro e _
    unfold eltOf
    split
    · simp
    · rw [map_pow, h.gens]
  have hpoly : polyOfList cs = f := by
    rw [hcs', hf, rhsPoly, polyOfList_map, List.map_map]; rfl
  have hlen : cs.length = c.coeffs.length := by rw [hcs]; simp
  obtain ⟨bk, hbk⟩ : ∃ bk, cs[cs.length - 1]? = some bk :=
    ⟨cs[cs.length - 1]'(by omega), List.getElem?_eq_getElem _⟩
  have hcoef : f.coeff (cs.length - 1) = bk := by
    rw [← hpoly, coeff_polyOfList, List.getD, hbk]; rfl
  have hU := affUnr_le hg hodd f
  have hR := affRam_le gK f
  have hUbound := numSqrt_le hg hodd (f.eval 0)
  have hRbound : (if f.eval 0 = 0 then 1 else 0) ≤ 1 := by split <;> omega
  have hloop : Curve.naiveLoop (card K - 1) cs gK (card K - 1) 1
      (Curve.naiveUpdate (card K - 1) cs 0 (0, 0)) =
      (affUnr gK f + numSqrt (f.eval 0), affRam gK f + if f.eval 0 = 0 then 1 else 0) := by
    have hq := two_le_card (F := K)
    rw [naiveUpdate_eq hg hodd _ _ (by simp) (by simp), ← pow_zero gK, hpoly,
      naiveLoop_eq hg hodd _ _ _ _ (by simp only; omega) (by simp only; omega), hpoly]
    simp only [Nat.zero_add, ← List.range_eq_range']
    unfold affUnr affRam
    rw [Nat.add_comm (numSqrt _), Nat.add_comm (if f.eval 0 = 0 then 1 else 0)]
    congr!
  have hinf : (if c.degree < u32 (2 * c.genus + 2) then
        (affUnr gK f + numSqrt (f.eval 0), u32 ((affRam gK f + if f.eval 0 = 0 then 1 else 0) + 1))
      else if bk ^ ((card K - 1) / 2) = 1 then
        (u32 (affUnr gK f + numSqrt (f.eval 0) + 2), affRam gK f + if f.eval 0 = 0 then 1 else 0)
      else (affUnr gK f + numSqrt (f.eval 0), affRam gK f + if f.eval 0 = 0 then 1 else 0)) =
      (u32 (unramifiedPoints f), ramifiedPoints f) := by
    have hram := ramified_split hg f
    rw [unramified_split hg]
    rcases Nat.mod_two_eq_zero_or_one (c.coeffs.length - 1) with hpar | hpar
    · rw [if_neg (by rw [infinity_cond hc.ne hc.len]; omega), (coeff_infinity h.primF hc ι).2 hpar,
        ← hlen, hcoef]
      rw [(coeff_infinity h.primF hc ι).2 hpar, ← hlen, hcoef] at hram
      have hbk0 : bk ≠ 0 := by
        intro h0
        have hd : f.natDegree = cs.length - 1 := by rw [hf, natDegree_map_rhs h.primF hc ι, hlen]
        have hz : f.coeff f.natDegree = 0 := by rw [hd, hcoef, h0]
        have hf0 : f = 0 := leadingCoeff_eq_zero.1 hz
        have h00 : rhsPoly gF c = 0 := (Polynomial.map_eq_zero ι).1 hf0
        obtain ⟨l, e, hl⟩ := List.eq_nil_or_concat' c.coeffs |>.resolve_left hc.ne
        have hlead := hc.lead
        rw [hl] at hlead
        simp at hlead
        have hce : (rhsPoly gF c).coeff (c.coeffs.length - 1) = eltOf gF (card F) e := by
          rw [rhsPoly, coeff_polyOfList, hl]
          simp [List.getD]
        rw [h00, coeff_zero] at hce
        exact hlead (h.primF.eltOf_eq_zero.1 hce.symm)
      rw [if_neg (c := bk = 0) hbk0, Nat.add_zero] at hram
      rw [numSqrt_euler hg hodd hbk0, hram]
      split
      · congr!
      · rw [u32_of_lt (n := _ + 0) (by omega)]; simp only [Nat.add_zero]; congr!
    · rw [if_pos (by rw [infinity_cond hc.ne hc.len]; omega), (coeff_infinity h.primF hc ι).1 hpar,
        numSqrt_zero, hram, (coeff_infinity h.primF hc ι).1 hpar, if_pos (c := (0 : K) = 0) rfl,
        u32_of_lt (by omega), u32_of_lt (n := _ + 0) (by omega)]
      simp only [Nat.add_zero]
      congr!
  unfold Curve.countNaive
  rw [if_neg (by omega), hc.expo, if_neg (by omega), if_neg (by simpa using Nat.mod_eq_zero_of_dvd hre),
    if_neg (by simp [hnew]), hc.pred, if_neg (by omega), hc.prime, ← hK, if_neg (by omega)]
  simp only
  rw [← hcs, rd_eq_ok.2 hbk, Res.bind_ok, hloop]
  simp only
  rw [hinf, Res.pure_eq]

end Hycu
