import Verif.Lemmas.CountAll
import Verif.Lemmas.Embedding

/-!
Properties C16–C21 and C24: curves and their point counts.
-/

set_option linter.unusedSectionVars false

namespace Hycu

open Polynomial Fintype

variable {F K : Type} [Field F] [Fintype F] [DecidableEq F] [Field K] [Fintype K] [DecidableEq K]

/-! ### C24 -/

/-- C24: the constructor is undefined exactly if all coefficients are zero; otherwise it removes the leading
zeros, so that the degree is the degree of the polynomial given, and `genus` is `⌊(d-1)/2⌋` for degree
`d ≥ 1` and wraps to `2^31 - 1` for degree 0. -/
theorem C24_degree_genus {p r : Nat} {g : F} {table : FqElementTable F} (ht : BuiltFqTable p r g table)
    (coeffs : List Nat) (hv : ∀ e ∈ coeffs, e < card F) (hlen : coeffs.length < 4294967296) :
    let f := polyOfList (coeffs.map (eltOf g (card F)))
    (f = 0 → Curve.make table coeffs = .ub) ∧
    (f ≠ 0 → ∃ c, Curve.make table coeffs = .ok c ∧
      polyOfList (c.coeffs.map (eltOf g (card F))) = f ∧
      c.coeffs.length = f.natDegree + 1 ∧
      c.degree = f.natDegree ∧
      (1 ≤ f.natDegree → c.genus = (f.natDegree - 1) / 2) ∧
      (f.natDegree = 0 → c.genus = 2147483647)) := by
  intro f
  obtain ⟨_, _, _, hg, h1, h2, _, h3, _⟩ := ht.facts
  have hz : table.zeroIndex = card F - 1 := h3
  by_cases hne : ∃ e ∈ coeffs, e ≠ table.zeroIndex
  · obtain ⟨k, cs', h4, h5, h6, h7⟩ := make_curve table hne
    obtain ⟨hc, _, _, hpoly⟩ := goodCurve_of_make h1 h2 h3 hv hlen h4 g
    have hf : rhsPoly g { table := table, coeffs := cs', nmbPoints := [] } = f := hpoly
    have hdeg := natDegree_rhs hg hc
    rw [hf] at hdeg
    simp only at hdeg
    have hpos := List.length_pos_iff.2 h6
    have hd := degree_eq hc.ne hc.len
    simp only at hd
    refine ⟨fun h0 => ?_, fun _ => ⟨_, h4, hf, by simp only; omega, by rw [hd, hdeg], ?_, ?_⟩⟩
    · exfalso
      obtain ⟨l, e, hl⟩ := List.eq_nil_or_concat' cs' |>.resolve_left h6
      have hce : f.coeff (cs'.length - 1) = eltOf g (card F) e := by
        rw [← hf, rhsPoly, coeff_polyOfList, hl]
        simp [List.getD]
      rw [h0, coeff_zero] at hce
      rw [hl, hz] at h7
      simp at h7
      exact h7 (hg.eltOf_eq_zero.1 hce.symm)
    · intro hpos'
      unfold Curve.genus
      rw [hd, ← hdeg]
      have := hc.len
      simp only at this
      split
      · rw [u32sub_of_le (by omega)]; omega
      · rw [u32sub_of_le (by omega)]
    · intro h0
      unfold Curve.genus
      rw [hd, ← hdeg, h0]
      decide
  · have hall : ∀ e ∈ coeffs, e = table.zeroIndex := by
      intro e he
      by_contra hc
      exact hne ⟨e, he, hc⟩
    refine ⟨fun _ => ?_, fun h => absurd ?_ h⟩
    · rw [Curve.make, strip_ub _ _ (by simpa using hall)]
      rfl
    · have hrep : coeffs = List.replicate coeffs.length (card F - 1) :=
        List.eq_replicate_iff.2 ⟨rfl, fun b hb => by rw [hall b hb, hz]⟩
      show polyOfList (coeffs.map _) = 0
      rw [hrep, List.map_replicate, eltOf_zero_index]
      have := polyOfList_append_zeros ([] : List F) coeffs.length
      simpa [polyOfList] using this

/-! ### C16 -/

/-- Addition of `unsigned int` where a result outside the range counts as an error. -/
def addChecked (a b : Nat) : Res Nat := if a + b < 4294967296 then .ok (a + b) else .ub

/-- The converted indices are valid even if the generators do not match. -/
theorem convert_valid {p r : Nat} {c : Curve F} (hc : GoodCurve p r c)
    {t : ReductionTable} (hr : 0 < r) (htp : t.prime = p) (hte : r ∣ t.primeExponent)
    (hF : card F = p ^ r) (hK : card K = p ^ t.primeExponent) (hle : card F ≤ card K)
    (htpred : t.primePowerPred = card K - 1) (hQ : card K ≤ 4294967296) :
    ∃ cs, c.convert t = .ok cs ∧ cs.length = c.coeffs.length ∧ (∀ e ∈ cs, e < card K) := by
  have hq := two_le_card (F := F)
  unfold Curve.convert
  rw [hc.prime, htp, if_neg (by simp), hc.expo, if_neg (by omega),
    if_neg (by simpa using Nat.mod_eq_zero_of_dvd hte)]
  by_cases he : r = t.primeExponent
  · rw [if_pos he]
    exact ⟨_, rfl, rfl, fun e he => lt_of_lt_of_le (hc.valid e he) hle⟩
  · rw [if_neg he, hc.pred, if_neg (by omega), htpred]
    refine ⟨_, rfl, by simp, ?_⟩
    intro e he
    obtain ⟨a, ha, rfl⟩ := List.mem_map.1 he
    have hav := hc.valid a ha
    by_cases h0 : a = card F - 1
    · rw [if_neg (by simpa using h0)]; omega
    · rw [if_pos h0]
      have h1 : 1 ≤ (card K - 1) / (card F - 1) := Nat.div_pos (by omega) (by omega)
      have h2 : (card K - 1) / (card F - 1) * (card F - 1) ≤ card K - 1 := Nat.div_mul_le_self _ _
      have h3 : (card K - 1) / (card F - 1) * (a + 1) ≤ (card K - 1) / (card F - 1) * (card F - 1) :=
        Nat.mul_le_mul_left _ (by omega)
      rw [Nat.mul_add, Nat.mul_one] at h3
      rw [u32_of_lt (by omega)]
      omega

/-- C16: for every curve with valid coefficient indices and every reduction table of an extension, whether
or not the generators match, `count` has no undefined behaviour (in particular all table and vector reads
are in range) and returns; on the CPU no addition of indices leaves the range of `unsigned int`. -/
theorem C16_count_memory_safe {p r e : Nat} {gF : F} {gK : K} {table : FqElementTable F} {rt : ReductionTable}
    (hp2 : p ≠ 2) (hT : BuiltFqTable p r gF table) (hR : BuiltReductionTable p e gK rt) (hre : r ∣ e)
    (hocl : rt.opencl = true → card K ≤ 1073741824)
    {coeffs : List Nat} (hv : ∀ e ∈ coeffs, e < card F) (hlen : coeffs.length < 4294967296)
    {c : Curve F} (hc : Curve.make table coeffs = .ok c) :
    (∃ c', c.count rt = .ok c') ∧
    ∃ cs, c.convert rt = .ok cs ∧ ∀ x, x ≤ card K - 1 → ∃ v,
      Curve.evalCpu addChecked rt.exponentReductionTable rt.incrementationTable rt.primePowerPred cs x
        = .ok v ∧
      Curve.evalCpu Curve.addU32 rt.exponentReductionTable rt.incrementationTable rt.primePowerPred cs x
        = .ok v := by
  have hQ := hR.card_le
  obtain ⟨hp, hr, hF, hg, h1, h2, _, h3, _⟩ := hT.facts
  obtain ⟨_, hpos, hcard⟩ := hR.prime
  obtain ⟨hodd, hq2⟩ := odd_card_of hp hp2 hcard hpos
  obtain ⟨_, _, _, h4, h5, h6, _⟩ := hR.facts hq2
  obtain ⟨hgc, _, hnew, _⟩ := goodCurve_of_make h1 h2 h3 hv hlen hc gF
  have hle : card F ≤ card K := by
    rw [hF, hcard]
    exact Nat.pow_le_pow_right hp.pos (Nat.le_of_dvd hpos hre)
  obtain ⟨cs, h7, h8, h9⟩ := convert_valid (K := K) hgc hr h4 (by rw [h5]; exact hre) hF (by rw [h5]; exact hcard)
    hle h6.pred (by omega)
  have hposl := List.length_pos_iff.2 hgc.ne
  have hne : cs ≠ [] := by
    rw [← List.length_pos_iff, h8]; exact hposl
  constructor
  · have haff : ∃ n, Curve.countAffine rt cs = .ok n := by
      unfold Curve.countAffine
      cases ho : rt.opencl
      · rw [if_neg (by simp), countCpu_spec h6 hodd hQ hne h9]; exact ⟨_, rfl⟩
      · rw [if_pos rfl, countOpencl_spec h6 hodd (hocl ho) hne h9]; exact ⟨_, rfl⟩
    obtain ⟨n, hn⟩ := haff
    unfold Curve.count
    rw [if_neg (by rw [h4, hgc.prime]; simp), if_neg (by rw [hnew]; simp [OMap.contains, OMap.find?]), h7,
      Res.bind_ok, hn, Res.bind_ok, rd_of_lt (by omega), Res.bind_ok, rd_of_lt (by omega), Res.bind_ok]
    exact ⟨_, rfl⟩
  · refine ⟨cs, h7, fun x hx => ?_⟩
    obtain ⟨v, hv1, hv2, hv3⟩ := evalCpu_spec h6.tables (add := addChecked)
      (fun a b h => by rw [addChecked, if_pos (by omega)]) hx hne h9
    obtain ⟨w, hw1, hw2, hw3⟩ := evalCpu_spec h6.tables (add := Curve.addU32) (addU32_ok hQ) hx hne h9
    have : v = w := h6.tables.prim.eltOf_inj hv1 hw1 (hv3.trans hw3.symm)
    rw [h6.pred]
    exact ⟨v, hv2, this ▸ hw2⟩

/-! ### C17–C19 -/

/-- C17: counting stores the number of points with `y ≠ 0` and with `y = 0` of the smooth projective model
over the extension, whatever embedding is used to see the polynomial over the extension. -/
theorem C17_count_points {p r e : Nat} {gF : F} {gK : K} {ι : F →+* K} {table : FqElementTable F}
    {rt : ReductionTable} (hp2 : p ≠ 2) (hT : BuiltFqTable p r gF table)
    (hR : BuiltReductionTable p e gK rt) (hre : r ∣ e) (hG : GeneratorsMatch gF gK ι)
    (hQ : card K < 2147483647) (hocl : rt.opencl = true → card K ≤ 1073741824)
    {coeffs : List Nat} (hv : ∀ e ∈ coeffs, e < card F) (hlen : coeffs.length < 4294967296)
    {c : Curve F} (hc : Curve.make table coeffs = .ok c) (ι' : F →+* K) :
    let f := (polyOfList (coeffs.map (eltOf gF (card F)))).map ι'
    ∃ c', c.count rt = .ok c' ∧ c'.coeffs = c.coeffs ∧ c'.table = c.table ∧
      c'.nmbPoints = [(e, (unramifiedPoints f, ramifiedPoints f))] := by
  intro f
  obtain ⟨hp, hr, hF, hg, h1, h2, _, h3, _⟩ := hT.facts
  obtain ⟨_, hpos, hcard⟩ := hR.prime
  obtain ⟨hodd, hq2⟩ := odd_card_of hp hp2 hcard hpos
  obtain ⟨_, _, _, h4, h5, h6, _⟩ := hR.facts hq2
  obtain ⟨hgc, _, hnew, hpoly⟩ := goodCurve_of_make h1 h2 h3 hv hlen hc gF
  have hcnt := count_ok (ι := ι) ⟨hg, h6.tables.prim, hG⟩ hodd hQ hgc hr h4 (by rw [h5]; exact hre) hF
    (by rw [h5]; exact hcard) h6 hocl (by rw [hnew]; simp [OMap.contains, OMap.find?])
  refine ⟨_, hcnt, rfl, rfl, ?_⟩
  simp only [hnew, h5, hpoly]
  obtain ⟨e1, e2⟩ := points_embedding ι ι' (polyOfList (coeffs.map (eltOf gF (card F))))
  rw [e1, e2]
  rfl

/-- C18: the count on the CPU, the count with OpenCL and the naive counts (which are the same code for both
FLINT field implementations; their generator `gK'` need not be the one of the table) give the same curve. -/
theorem C18_implementations_agree {p r e : Nat} {gF : F} {gK gK' : K} {ι ι' : F →+* K}
    {table : FqElementTable F} {rt : ReductionTable} (hp2 : p ≠ 2) (hT : BuiltFqTable p r gF table)
    (hR : BuiltReductionTable p e gK rt) (hre : r ∣ e) (hG : GeneratorsMatch gF gK ι)
    (hprim : Primitive gK') (hG' : GeneratorsMatch gF gK' ι') (hQ : card K ≤ 1073741824)
    {coeffs : List Nat} (hv : ∀ e ∈ coeffs, e < card F) (hlen : coeffs.length < 4294967296)
    {c : Curve F} (hc : Curve.make table coeffs = .ok c) :
    ∃ c', c.count { rt with opencl := false } = .ok c' ∧ c.count { rt with opencl := true } = .ok c' ∧
      c.countNaive gK' e = .ok c' := by
  obtain ⟨hp, hr, hF, hg, h1, h2, _, h3, _⟩ := hT.facts
  obtain ⟨_, hpos, hcard⟩ := hR.prime
  obtain ⟨hodd, hq2⟩ := odd_card_of hp hp2 hcard hpos
  obtain ⟨_, _, _, h4, h5, h6, _⟩ := hR.facts hq2
  obtain ⟨hgc, _, hnew, hpoly⟩ := goodCurve_of_make h1 h2 h3 hv hlen hc gF
  have hcnt := fun b => count_ok (ι := ι) (t := { rt with opencl := b }) ⟨hg, h6.tables.prim, hG⟩ hodd
    (by omega) hgc hr h4 (by simp only; rw [h5]; exact hre) hF
    (by simp only; rw [h5]; exact hcard) ⟨h6.pred, h6.tables⟩ (fun _ => hQ)
    (by rw [hnew]; simp [OMap.contains, OMap.find?])
  refine ⟨_, hcnt false, hcnt true, ?_⟩
  have := countNaive_ok (ι := ι') (e := e) ⟨hg, hprim, hG'⟩ hodd (by omega) hgc hr hpos hre hcard
    (by rw [hnew]; simp [OMap.contains, OMap.find?])
  rw [this]
  obtain ⟨e1, e2⟩ := points_embedding ι ι' (rhsPoly gF c)
  simp only [h5]
  rw [e1, e2]

/-- C19: each converted index is the index of the image of the same field element (zero goes to zero). -/
theorem C19_convert {p r e : Nat} {gF : F} {gK : K} {ι : F →+* K} {table : FqElementTable F}
    {rt : ReductionTable} (hp2 : p ≠ 2) (hT : BuiltFqTable p r gF table)
    (hR : BuiltReductionTable p e gK rt) (hre : r ∣ e) (hG : GeneratorsMatch gF gK ι)
    {coeffs : List Nat} (hv : ∀ e ∈ coeffs, e < card F) (hlen : coeffs.length < 4294967296)
    {c : Curve F} (hc : Curve.make table coeffs = .ok c) :
    ∃ cs, c.convert rt = .ok cs ∧ cs.length = c.coeffs.length ∧
      ∀ (i e : Nat), c.coeffs[i]? = some e → ∃ e', cs[i]? = some e' ∧ e' < card K ∧
        eltOf gK (card K) e' = ι (eltOf gF (card F) e) ∧ (e = card F - 1 ↔ e' = card K - 1) := by
  have hQ := hR.card_le
  obtain ⟨hp, hr, hF, hg, h1, h2, _, h3, _⟩ := hT.facts
  obtain ⟨_, hpos, hcard⟩ := hR.prime
  obtain ⟨hodd, hq2⟩ := odd_card_of hp hp2 hcard hpos
  obtain ⟨_, _, _, h4, h5, h6, _⟩ := hR.facts hq2
  obtain ⟨hgc, _, hnew, hpoly⟩ := goodCurve_of_make h1 h2 h3 hv hlen hc gF
  obtain ⟨cs, h7, h8, h9, _, h10⟩ := convert_ok (ι := ι) ⟨hg, h6.tables.prim, hG⟩ hgc hr h4
    (by rw [h5]; exact hre) hF (by rw [h5]; exact hcard) h6.pred (by omega)
  refine ⟨cs, h7, h8, fun i e he => ?_⟩
  obtain ⟨e', h11, h12⟩ := h10 e (hgc.valid e (List.mem_of_getElem? he)) i he
  refine ⟨e', h11, h9 e' (List.mem_of_getElem? h11), h12, ?_⟩
  rw [← h6.tables.prim.eltOf_eq_zero (e := e'), h12, ← hg.eltOf_eq_zero (e := e)]
  simp

/-- C19: tables for another prime, or whose exponent is not a multiple, abort the conversion. -/
theorem C19_convert_aborts (c : Curve F) (rt : ReductionTable) (hpos : 0 < c.table.primeExponent)
    (h : c.table.prime ≠ rt.prime ∨ ¬ c.table.primeExponent ∣ rt.primeExponent) :
    c.convert rt = .abort := by
  unfold Curve.convert
  split
  · rfl
  · rename_i h1
    rcases h with h | h
    · exact absurd h h1
    · rw [if_neg (by omega), if_pos]
      exact fun h2 => h (Nat.dvd_of_mod_eq_zero h2)

/-! ### C20 -/

/-- C20: counting again with a table of the same exponent (and prime) changes nothing. -/
theorem C20_count_again {c c' : Curve F} {rt rt' : ReductionTable} (hs : OMap.Sorted c.nmbPoints)
    (h : c.count rt = .ok c') (hp : rt'.prime = rt.prime) (he : rt'.primeExponent = rt.primeExponent) :
    c'.count rt' = .ok c' := by
  obtain ⟨h1, h2⟩ := count_ok_cases h
  rw [count_eq, if_neg, if_pos]
  · rw [he]
    rcases h2 with ⟨h2, rfl⟩ | ⟨_, n, _, rfl⟩
    · exact h2
    · simp only [contains_set hs, decide_true, Bool.true_or]
  · rw [hp, h1]
    rcases h2 with ⟨_, rfl⟩ | ⟨_, n, _, rfl⟩ <;> simp

/-- C20: counting with several tables in any order gives the same curve. -/
theorem C20_count_order {c c' : Curve F} {ts ts' : List ReductionTable} (hs : OMap.Sorted c.nmbPoints)
    (hp : ts.Perm ts') (hu : ∀ s ∈ ts, ∀ t ∈ ts, s.primeExponent = t.primeExponent → s = t)
    (h : countAll c ts = .ok c') : countAll c ts' = .ok c' := countAll_perm hp hs hu h

/-- C20: other counts are kept. -/
theorem C20_count_keeps {c c' : Curve F} {rt : ReductionTable} (hs : OMap.Sorted c.nmbPoints)
    (h : c.count rt = .ok c') {e : Nat} {n : Nat × Nat} (he : c.nmbPoints.find? e = some n) :
    c'.nmbPoints.find? e = some n := by
  obtain ⟨h1, ⟨h2, rfl⟩ | ⟨h2, m, _, rfl⟩⟩ := count_ok_cases h
  · exact he
  · rw [← he]
    apply OMap.find?_set_of_ne hs
    rintro rfl
    simp [OMap.contains, he] at h2

/-! ### C21 -/

theorem maxPrimeExponentLoop_ok (c : Curve F) {r m : Nat} (hr : c.table.primeExponent = r)
    (h1 : ∀ k, 0 < k → k ≤ m → c.nmbPoints.contains (k * r) = true)
    (h2 : c.nmbPoints.contains ((m + 1) * r) = false) :
    ∀ (fuel k : Nat), k ≤ m → m + 1 ≤ fuel + k →
    Curve.maxPrimeExponentLoop c fuel ((k + 1) * r) = .ok (m * r)
  | 0, k, h3, h4 => by omega
  | fuel + 1, k, h3, h4 => by
    unfold Curve.maxPrimeExponentLoop
    by_cases hk : k = m
    · subst hk
      rw [h2, hr, Nat.add_mul, Nat.one_mul, Nat.add_sub_cancel]
      rfl
    · rw [if_pos (h1 (k + 1) (by omega) (by omega)), hr]
      have := maxPrimeExponentLoop_ok c hr h1 h2 fuel (k + 1) (by omega) (by omega)
      rw [Nat.add_mul (k + 1) 1, Nat.one_mul] at this
      exact this

/-- C21: after counting with the tables of the extensions of degree `1..m`, in any order,
`max_prime_exponent` is `m r`, `number_of_points` lists the counts, and `hasse_weil_offsets` lists
`q^k + 1 - N_k`. -/
theorem C21_offsets {p r : Nat} {gF : F} {table : FqElementTable F} {E : Nat → Extension F}
    {g : ∀ k, (E k).K} {rt : Nat → ReductionTable} {m : Nat} (hp2 : p ≠ 2) (hT : BuiltFqTable p r gF table)
    (hE : ∀ k, 0 < k → k ≤ m → BuiltExtension p r gF E g rt k)
    {coeffs : List Nat} (hv : ∀ e ∈ coeffs, e < card F) (hlen : coeffs.length < 4294967296)
    {c : Curve F} (hc : Curve.make table coeffs = .ok c)
    {ts : List ReductionTable} (hts : ts.Perm ((List.range m).map fun k => rt (k + 1))) :
    let f := polyOfList (coeffs.map (eltOf gF (card F)))
    ∃ c', countAll c ts = .ok c' ∧ c'.coeffs = c.coeffs ∧ c'.maxPrimeExponent = .ok (m * r) ∧
      c'.numberOfPoints (m * r) = .ok ((List.range m).map fun k =>
        (unramifiedPoints (f.map (E (k + 1)).ι), ramifiedPoints (f.map (E (k + 1)).ι))) ∧
      c'.hasseWeilOffsets (m * r) = .ok ((List.range m).map fun k =>
        ((card F ^ (k + 1) : Nat) : Int) + 1 -
          ((unramifiedPoints (f.map (E (k + 1)).ι) + ramifiedPoints (f.map (E (k + 1)).ι) : Nat) : Int)) := by
  intro f
  obtain ⟨hp, hr, hF, hg, h1, h2, _, h3, _⟩ := hT.facts
  obtain ⟨hgc, htab, hnew, hpoly⟩ := goodCurve_of_make h1 h2 h3 hv hlen hc gF
  have hks : ∀ k ∈ (List.range m).map (· + 1), 0 < k ∧ k ≤ m := by
    intro k hk
    obtain ⟨j, hj, rfl⟩ := List.mem_map.1 hk
    have := List.mem_range.1 hj
    omega
  have hmem : ∀ k, 0 < k → k ≤ m → k ∈ (List.range m).map (· + 1) := fun k h1 h2 =>
    List.mem_map.2 ⟨k - 1, List.mem_range.2 (by omega), by omega⟩
  obtain ⟨M, h4, h5, h6, h7⟩ := countAll_ok hp2 hT ((List.range m).map (· + 1))
    (List.nodup_range.map (fun a b h => by simpa using h))
    (fun k hk => hE k (hks k hk).1 (hks k hk).2) hgc (by rw [hnew]; exact OMap.sorted_nil)
    (by rw [hnew]; intro k _; simp [OMap.contains, OMap.find?])
  rw [List.map_map] at h4
  have hexp : ∀ k, 0 < k → k ≤ m → (rt k).primeExponent = k * r := fun k hk hkm =>
    ((hE k hk hkm).facts hp2 hT).2.2.2.1
  have h8 := countAll_perm hts.symm (by rw [hnew]; exact OMap.sorted_nil) (by
    intro s hs t ht hst
    obtain ⟨a, ha, rfl⟩ := List.mem_map.1 hs
    obtain ⟨b, hb, rfl⟩ := List.mem_map.1 ht
    have ha' := List.mem_range.1 ha
    have hb' := List.mem_range.1 hb
    rw [hexp _ (by omega) (by omega), hexp _ (by omega) (by omega)] at hst
    rw [Nat.eq_of_mul_eq_mul_right hr hst]) h4
  have hget : ∀ k, 0 < k → k ≤ m → M.find? (k * r) = some (extPoints f (E k)) := by
    intro k hk hkm
    rw [h6 k (hmem k hk hkm), hpoly]
  have hnone : ∀ e, (∀ k, 0 < k → k ≤ m → e ≠ k * r) → M.find? e = none := by
    intro e he
    rw [h7 e (fun k hk => he k (hks k hk).1 (hks k hk).2), hnew]
    rfl
  refine ⟨_, h8, rfl, ?_, ?_, ?_⟩
  · unfold Curve.maxPrimeExponent
    rw [show ({ c with nmbPoints := M } : Curve F).table.primeExponent = (0 + 1) * r by
      simp only; rw [hgc.expo]; omega]
    refine maxPrimeExponentLoop_ok { c with nmbPoints := M } hgc.expo (m := m) (fun k hk hkm => ?_) ?_ _ 0 (by omega) ?_
    · simp only [OMap.contains, hget k hk hkm, Option.isSome_some]
    · simp only [OMap.contains]
      rw [hnone]
      · rfl
      · intro k hk hkm h
        have := Nat.eq_of_mul_eq_mul_right hr h
        omega
    · -- the map has `m` keys
      have hsub : ((List.range m).map fun k => (k + 1) * r) ⊆ (M : List _).map Prod.fst := by
        intro e he
        obtain ⟨k, hk, rfl⟩ := List.mem_map.1 he
        have := List.mem_range.1 hk
        exact List.mem_map.2 ⟨_, OMap.mem_of_find? (hget (k + 1) (by omega) (by omega)), rfl⟩
      have hnd : ((List.range m).map fun k => (k + 1) * r).Nodup :=
        List.nodup_range.map (fun a b h => by
          have := Nat.eq_of_mul_eq_mul_right hr h
          omega)
      have := (hnd.subperm hsub).length_le
      simp only [List.length_map, List.length_range] at this
      simp only
      omega
  · unfold Curve.numberOfPoints
    simp only
    rw [hgc.expo, if_neg (by omega), Nat.mul_div_cancel _ hr]
    apply mapM_ok
    intro k hk
    have := List.mem_range.1 hk
    rw [hget (k + 1) (by omega) (by omega)]
    rfl
  · have := offsets_ok hp2 hT (c := { c with nmbPoints := M }) (hgc.of_counted M) h5 hE
      (by
        intro k hk hkm
        simp only
        rw [hget k hk hkm]
        exact congrArg (fun f => some (extPoints f (E k))) hpoly.symm)
      (by
        intro e n hn
        by_contra hcon
        simp only at hn
        rw [hnone e (fun k hk hkm h => hcon ⟨k, hk, hkm, h⟩)] at hn
        exact absurd hn (by simp))
    rw [this]
    have hrhs : rhsPoly gF { c with nmbPoints := M } = f := hpoly
    rw [hrhs]

/-! ### Non-trivial instances -/

/-- Every presented finite field of odd order has its tables. -/
theorem exists_built {p r : Nat} (hp : p.Prime) (hr : 0 < r) (h : card F = p ^ r) (hfit : card F < 4294967296) {g : F}
    (hg : Primitive g) : ∃ table, BuiltFqTable p r g table := by
  have hk : FirstPrimitive (fun _ => g) 0 := ⟨hg, by intro j hj; omega⟩
  obtain ⟨t, ⟨N, hN⟩, _⟩ := C12_element_table h hfit (fun _ => g) 0 hk (by intro j hj; omega)
  exact ⟨t, exists_fqRep hp hr h, _, 0, N, hk, by intro j hj; omega, rfl, hN N le_rfl⟩

theorem exists_built' {p e : Nat} (hp : p.Prime) (he : 0 < e) (h : card K = p ^ e) {g : K}
    (hg : Primitive g) (h2 : 2 < card K) (hq : card K ≤ 2147483648) :
    ∃ rt, BuiltReductionTable p e g rt ∧ rt.opencl = false := by
  have hk : FirstPrimitive (fun _ => g) 0 := ⟨hg, by intro j hj; omega⟩
  obtain ⟨rep⟩ := exists_fqRep hp he h
  obtain ⟨t, ⟨N, hN⟩, _, _, _, _, h5, _⟩ := C14_zech rep h2 hq (fun _ => g) 0 hk false
  exact ⟨t, ⟨rep, _, 0, N, false, hk, rfl, hN N le_rfl⟩, h5⟩

/-- The hypotheses of C16–C19 are met for every extension of finite fields of odd characteristic. -/
theorem setting_exists {p r e : Nat} (hp : p.Prime) (hp2 : p ≠ 2) (hr : 0 < r) (hre : r ∣ e) (he : 0 < e)
    (hF : card F = p ^ r) (hK : card K = p ^ e) (hq : card K ≤ 2147483648) (ι : F →+* K) :
    ∃ (gF : F) (gK : K) (table : FqElementTable F) (rt : ReductionTable), BuiltFqTable p r gF table ∧
      BuiltReductionTable p e gK rt ∧ rt.opencl = false ∧ GeneratorsMatch gF gK ι := by
  obtain ⟨gK, hgK⟩ := exists_primitive (F := K)
  obtain ⟨_, h2⟩ := odd_card_of hp hp2 hK he
  obtain ⟨gF, hgF, hm⟩ := exists_matching ι (by
    rw [hF, hK]
    obtain ⟨k, rfl⟩ := hre
    rw [pow_mul]
    simpa using Nat.sub_dvd_pow_sub_pow (p ^ r) 1 k) hgK
  obtain ⟨table, ht⟩ := exists_built hp hr hF
    (lt_of_le_of_lt ((Fintype.card_le_of_injective ι ι.injective).trans hq) (by decide)) hgF
  obtain ⟨rt, hrt, ho⟩ := exists_built' hp he hK hgK h2 hq
  exact ⟨gF, gK, table, rt, ht, hrt, ho, hm⟩

instance : Fact (Nat.Prime 3) := ⟨by decide⟩

noncomputable instance : Fintype (GaloisField 3 2) := Fintype.ofFinite _
noncomputable instance : DecidableEq (GaloisField 3 2) := Classical.decEq _

theorem card_nine : card (GaloisField 3 2) = 3 ^ 2 := by
  rw [← Nat.card_eq_fintype_card]; exact GaloisField.card 3 2 (by decide)

/-- C16–C19 for the quadratic extension of the field of 3 elements. -/
example : ∃ (gF : ZMod 3) (gK : GaloisField 3 2) (table : FqElementTable (ZMod 3)) (rt : ReductionTable)
    (ι : ZMod 3 →+* GaloisField 3 2), BuiltFqTable 3 1 gF table ∧
      BuiltReductionTable 3 2 gK rt ∧ rt.opencl = false ∧ GeneratorsMatch gF gK ι := by
  obtain ⟨a, b, c, d, h⟩ := setting_exists (F := ZMod 3) (K := GaloisField 3 2) (p := 3) (r := 1) (e := 2)
    (by decide) (by decide) (by decide) (by decide) (by decide) (by decide) card_nine
    (by rw [card_nine]; decide) (algebraMap _ _)
  exact ⟨a, b, c, d, _, h⟩

/-- The field of 3 elements and its quadratic extension. -/
noncomputable def extThree : Nat → Extension (ZMod 3)
  | 0 => ⟨GaloisField 3 2, inferInstance, inferInstance, inferInstance, algebraMap _ _⟩
  | 1 => ⟨ZMod 3, inferInstance, inferInstance, inferInstance, RingHom.id _⟩
  | _ + 2 => ⟨GaloisField 3 2, inferInstance, inferInstance, inferInstance, algebraMap _ _⟩

/-- C21 with two extensions: the field of 3 elements itself and its quadratic extension. -/
theorem extensions_three : ∃ (gF : ZMod 3) (table : FqElementTable (ZMod 3)) (E : Nat → Extension (ZMod 3))
    (g : ∀ k, (E k).K) (rt : Nat → ReductionTable), BuiltFqTable 3 1 gF table ∧
      ∀ k, 0 < k → k ≤ 2 → BuiltExtension 3 1 gF E g rt k := by
  obtain ⟨gF, gK, table, rt2, h1, h2, h3, h4⟩ := setting_exists (F := ZMod 3) (K := GaloisField 3 2)
    (p := 3) (r := 1) (e := 2)
    (by decide) (by decide) (by decide) (by decide) (by decide) (by decide) card_nine
    (by rw [card_nine]; decide) (algebraMap _ _)
  obtain ⟨_, _, _, hg, _⟩ := h1.facts
  obtain ⟨rt1, h5, h6⟩ := exists_built' (K := ZMod 3) (p := 3) (e := 1) (by decide) (by decide) (by decide) hg
    (by decide) (by decide)
  refine ⟨gF, table, extThree, fun k => match k with
    | 0 => gK
    | 1 => gF
    | _ + 2 => gK, fun k => if k = 1 then rt1 else rt2, h1, ?_⟩
  intro k hk hk2
  obtain rfl | rfl : k = 1 ∨ k = 2 := by omega
  · refine ⟨by decide, h5, ?_, ?_, ?_⟩
    · show gF = gF ^ ((card (ZMod 3) - 1) / (card (ZMod 3) - 1))
      rw [show (card (ZMod 3) - 1) / (card (ZMod 3) - 1) = 1 by decide, pow_one]
    · show card (ZMod 3) < _
      decide
    · show rt1.opencl = true → _
      rw [h6]; intro h; exact absurd h (by simp)
  · refine ⟨by decide, h2, h4, ?_, ?_⟩
    · show card (GaloisField 3 2) < _
      rw [card_nine]; decide
    · show rt2.opencl = true → _
      rw [h3]; intro h; exact absurd h (by simp)

/-- A concrete count: `y^2 = x^3 + x` over the field of 7 elements has 6 points with `y ≠ 0` and the two
points `(0,0)` and infinity with `y = 0`; the two zero leading coefficients given are dropped. -/
example : (do
    let t ← FqElementTable.make (fun _ => (3 : ZMod 7)) 7 1 1
    let rt ← ReductionTable.make rep7.coeff (fun _ => (3 : ZMod 7)) 7 1 false 1
    let c ← Curve.make t [6, 0, 6, 0, 6, 6]
    let c ← c.count rt
    pure (c.degree, c.genus, c.nmbPoints)) = .ok (3, 1, [(1, (6, 2))]) := by decide

end Hycu
