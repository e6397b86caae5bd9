import Mathlib.NumberTheory.LucasLehmer
import Verif.Lemmas.Largest
import Verif.Props.Count

/-!
Property C82: the largest field for which there are tables has `2^31 - 1` elements.  There the numbers of points may be
`2^32`, which does not fit into `unsigned int`, and the Hasse-Weil offset may be `2^31`, which does not fit into `int`.
-/

set_option linter.unusedSectionVars false

namespace Hycu

open Polynomial Fintype

variable {F K : Type} [Field F] [Fintype F] [DecidableEq F] [Field K] [Fintype K] [DecidableEq K]

theorem numSqrt_eq_two (hodd : card K % 2 = 1) (a : K) : numSqrt a = 2 ↔ a ≠ 0 ∧ IsSquare a := by
  obtain ⟨g, hg⟩ := exists_primitive (F := K)
  constructor
  · intro h
    have h0 : a ≠ 0 := by rintro rfl; rw [numSqrt_zero] at h; omega
    obtain ⟨e, rfl⟩ := hg.2 a h0
    rw [numSqrt_pow hg hodd] at h
    have he : e % 2 = 0 := by by_contra hne; rw [if_neg hne] at h; omega
    exact ⟨h0, g ^ (e / 2), by rw [← pow_add]; congr 1; omega⟩
  · rintro ⟨h0, b, rfl⟩
    obtain ⟨e, rfl⟩ := hg.2 b (left_ne_zero_of_mul h0)
    rw [← pow_add, numSqrt_pow hg hodd, if_pos (by omega)]

/-- C82: the number of points with `y ≠ 0` is at most `2q + 2`, and it is `2q + 2` if and only if all values of the
polynomial, the one at infinity included, are squares and not zero. -/
theorem C82_all_squares (hodd : card K % 2 = 1) (f : K[X]) :
    unramifiedPoints f ≤ 2 * card K + 2 ∧
    (unramifiedPoints f = 2 * card K + 2 ↔
      (∀ x, f.eval x ≠ 0 ∧ IsSquare (f.eval x)) ∧ f.natDegree % 2 = 0 ∧ IsSquare f.leadingCoeff) := by
  obtain ⟨g, hg⟩ := exists_primitive (F := K)
  have e : unramifiedPoints f = ∑ x : K, numSqrt (f.eval x) + numSqrt (f.coeff (2 * halfDegree f)) := by
    unfold unramifiedPoints
    rw [card_affine]
    rfl
  have hs : ∑ x : K, numSqrt (f.eval x) ≤ 2 * card K := by
    calc _ ≤ ∑ _x : K, 2 := Finset.sum_le_sum fun x _ => numSqrt_le hg hodd _
      _ = 2 * card K := by simp [Nat.mul_comm]
  have hi := numSqrt_le hg hodd (f.coeff (2 * halfDegree f))
  have hsum : ∑ x : K, numSqrt (f.eval x) = 2 * card K ↔ ∀ x, f.eval x ≠ 0 ∧ IsSquare (f.eval x) := by
    have := Finset.sum_eq_sum_iff_of_le (s := Finset.univ) (f := fun x : K => numSqrt (f.eval x)) (g := fun _ => 2)
      fun x _ => numSqrt_le hg hodd _
    simp only [Finset.sum_const, Finset.card_univ, smul_eq_mul, Finset.mem_univ, true_imp_iff] at this
    rw [Nat.mul_comm, this]
    exact forall_congr' fun x => numSqrt_eq_two hodd _
  have hinf : (∀ x, f.eval x ≠ 0 ∧ IsSquare (f.eval x)) →
      (numSqrt (f.coeff (2 * halfDegree f)) = 2 ↔ f.natDegree % 2 = 0 ∧ IsSquare f.leadingCoeff) := by
    intro hx
    have hf : f ≠ 0 := by rintro rfl; exact (hx 0).1 (by simp)
    rw [numSqrt_eq_two hodd]
    unfold halfDegree
    rcases Nat.mod_two_eq_zero_or_one f.natDegree with h | h
    · rw [show 2 * ((f.natDegree + 1) / 2) = f.natDegree by omega]
      exact ⟨fun h1 => ⟨h, h1.2⟩, fun h1 => ⟨leadingCoeff_ne_zero.2 hf, h1.2⟩⟩
    · rw [coeff_eq_zero_of_natDegree_lt (by omega : f.natDegree < 2 * ((f.natDegree + 1) / 2))]
      exact ⟨fun h1 => absurd rfl h1.1, fun h1 => by omega⟩
  refine ⟨by omega, ?_⟩
  rw [e]
  constructor
  · intro h
    have h1 := hsum.1 (by omega)
    exact ⟨h1, (hinf h1).1 (by omega)⟩
  · rintro ⟨h1, h2⟩
    have := hsum.2 h1
    have := (hinf h1).2 h2
    omega

/-- C82: for every table that can be made, with a bound for OpenCL only, the stored numbers are the numbers of points
modulo `2^32`; this makes a difference only if the field has `2^31 - 1` elements and there are `2^32` points with
`y ≠ 0`, and then the stored numbers are both 0. -/
theorem C82_count {p r e : Nat} {gF : F} {gK : K} {ι : F →+* K} {table : FqElementTable F}
    {rt : ReductionTable} (hp2 : p ≠ 2) (hT : BuiltFqTable p r gF table)
    (hR : BuiltReductionTable p e gK rt) (hre : r ∣ e) (hG : GeneratorsMatch gF gK ι)
    (hocl : rt.opencl = true → card K ≤ 1073741824)
    {coeffs : List Nat} (hv : ∀ e ∈ coeffs, e < card F) (hlen : coeffs.length < 4294967296)
    {c : Curve F} (hc : Curve.make table coeffs = .ok c) (ι' : F →+* K) :
    let f := (polyOfList (coeffs.map (eltOf gF (card F)))).map ι'
    ∃ c', c.count rt = .ok c' ∧ c'.coeffs = c.coeffs ∧ c'.table = c.table ∧
      (unramifiedPoints f < 4294967296 → c'.nmbPoints = [(e, (unramifiedPoints f, ramifiedPoints f))]) ∧
      (4294967296 ≤ unramifiedPoints f → card K = 2147483647 ∧ unramifiedPoints f = 4294967296 ∧
        ramifiedPoints f = 0 ∧ c'.nmbPoints = [(e, (0, 0))]) := by
  intro f
  have hle := hR.card_le
  obtain ⟨hp, hr, hF, hg, h1, h2, _, h3, _⟩ := hT.facts
  obtain ⟨_, hpos, hcard⟩ := hR.prime
  obtain ⟨hodd, hq2⟩ := odd_card_of hp hp2 hcard hpos
  obtain ⟨_, _, _, h4, h5, h6, _⟩ := hR.facts hq2
  obtain ⟨hgc, _, hnew, hpoly⟩ := goodCurve_of_make h1 h2 h3 hv hlen hc gF
  have hcnt := count_wraps (ι := ι) ⟨hg, h6.tables.prim, hG⟩ hodd (by omega) hgc hr h4 (by rw [h5]; exact hre) hF
    (by rw [h5]; exact hcard) h6 hocl (by rw [hnew]; simp [OMap.contains, OMap.find?])
  obtain ⟨e1, e2⟩ := points_embedding ι ι' (polyOfList (coeffs.map (eltOf gF (card F))))
  have e1 : unramifiedPoints ((polyOfList (coeffs.map (eltOf gF (card F)))).map ι) = unramifiedPoints f := e1
  have e2 : ramifiedPoints ((polyOfList (coeffs.map (eltOf gF (card F)))).map ι) = ramifiedPoints f := e2
  have hb := points_le h6.tables.prim hodd f
  refine ⟨_, hcnt, rfl, rfl, fun h => ?_, fun h => ?_⟩
  · simp only [hnew, h5, hpoly]
    rw [e1, e2, u32_of_lt h]
    rfl
  · have hK : card K = 2147483647 := by omega
    have hU : unramifiedPoints f = 4294967296 := by omega
    have hR0 : ramifiedPoints f = 0 := by omega
    refine ⟨hK, hU, hR0, ?_⟩
    simp only [hnew, h5, hpoly]
    rw [e1, e2, hU, hR0]
    rfl

/-- C82: the naive counts give the same as the table based count also for the largest field. -/
theorem C82_naive {p r e : Nat} {gF : F} {gK gK' : K} {ι ι' : F →+* K} {table : FqElementTable F}
    {rt : ReductionTable} (hp2 : p ≠ 2) (hT : BuiltFqTable p r gF table)
    (hR : BuiltReductionTable p e gK rt) (hre : r ∣ e) (hG : GeneratorsMatch gF gK ι)
    (hprim : Primitive gK') (hG' : GeneratorsMatch gF gK' ι') (hocl : rt.opencl = true → card K ≤ 1073741824)
    {coeffs : List Nat} (hv : ∀ e ∈ coeffs, e < card F) (hlen : coeffs.length < 4294967296)
    {c : Curve F} (hc : Curve.make table coeffs = .ok c) :
    c.countNaive gK' e = c.count rt := by
  have hle := hR.card_le
  obtain ⟨hp, hr, hF, hg, h1, h2, _, h3, _⟩ := hT.facts
  obtain ⟨_, hpos, hcard⟩ := hR.prime
  obtain ⟨hodd, hq2⟩ := odd_card_of hp hp2 hcard hpos
  obtain ⟨_, _, _, h4, h5, h6, _⟩ := hR.facts hq2
  obtain ⟨hgc, _, hnew, hpoly⟩ := goodCurve_of_make h1 h2 h3 hv hlen hc gF
  rw [count_wraps (ι := ι) ⟨hg, h6.tables.prim, hG⟩ hodd (by omega) hgc hr h4 (by rw [h5]; exact hre) hF
    (by rw [h5]; exact hcard) h6 hocl (by rw [hnew]; simp [OMap.contains, OMap.find?]),
    countNaive_wraps (ι := ι') (e := e) ⟨hg, hprim, hG'⟩ hodd (by omega) hgc hr hpos hre hcard
      (by rw [hnew]; simp [OMap.contains, OMap.find?])]
  obtain ⟨e1, e2⟩ := points_embedding ι ι' (rhsPoly gF c)
  rw [h5, e1, e2]

/-- C82: for the field of `2^31 - 1` elements the Hasse-Weil offset `q + 1 - N` of a counted curve with `N` points is
computed unless there are no points or `2^32` points; then the behaviour is undefined. -/
theorem C82_offsets {p r e : Nat} {gF : F} {gK : K} {ι : F →+* K} {table : FqElementTable F}
    {rt : ReductionTable} (hT : BuiltFqTable p r gF table)
    (hR : BuiltReductionTable p e gK rt) (hre : r ∣ e) (hG : GeneratorsMatch gF gK ι)
    (hK : card K = 2147483647) (hocl : rt.opencl = false)
    {coeffs : List Nat} (hv : ∀ e ∈ coeffs, e < card F) (hlen : coeffs.length < 4294967296)
    {c : Curve F} (hc : Curve.make table coeffs = .ok c) {c' : Curve F} (hcount : c.count rt = .ok c') :
    let f := (polyOfList (coeffs.map (eltOf gF (card F)))).map ι
    let N := unramifiedPoints f + ramifiedPoints f
    (N = 0 ∨ N = 4294967296 → c'.hasseWeilMap = .ub ∧ ∀ m, c'.hasseWeilOffsets m = .ub) ∧
    (N ≠ 0 → N ≠ 4294967296 → c'.hasseWeilMap = .ok [(e, 2147483648 - (N : Int))]) := by
  intro f N
  obtain ⟨hp, hr, hF, hg, h1, h2, _, h3, _⟩ := hT.facts
  obtain ⟨_, hpos, hcard⟩ := hR.prime
  have hp2 : p ≠ 2 := by
    rintro rfl
    have : 2 ∣ card K := hcard ▸ dvd_pow_self 2 (by omega)
    rw [hK] at this
    omega
  obtain ⟨hodd, hq2⟩ := odd_card_of hp hp2 hcard hpos
  obtain ⟨_, _, _, h4, h5, h6, _⟩ := hR.facts hq2
  obtain ⟨hgc, _, hnew, hpoly⟩ := goodCurve_of_make h1 h2 h3 hv hlen hc gF
  have hb : N ≤ 2 * (card K + 1) := points_le h6.tables.prim hodd f
  obtain ⟨c'', hc'', _, htab, hsmall, hbig⟩ := C82_count hp2 hT hR hre hG (by simp [hocl]) hv hlen hc ι
  obtain rfl := Res.ok.inj (hcount.symm.trans hc'')
  have hprime : c'.table.prime = p := by rw [htab]; exact hgc.prime
  have hexp : c'.table.primeExponent = r := by rw [htab]; exact hgc.expo
  have hmap : c'.hasseWeilMap = (Curve.toInt (2147483648 - (u32 N : Nat)) >>= fun v => .ok [(e, v)]) := by
    unfold Curve.hasseWeilMap
    by_cases hs : unramifiedPoints f < 4294967296
    · rw [hsmall hs, hprime]
      simp only [List.foldlM_cons, List.foldlM_nil]
      rw [← hcard, hK, show ((2147483647 : Nat) : Int) + 1 = 2147483648 from rfl]
      show (Curve.toInt (2147483648 - (u32 N : Nat)) >>= fun v => pure (OMap.set [] e v)) >>= pure = _
      cases Curve.toInt (2147483648 - (u32 N : Nat)) <;> rfl
    · obtain ⟨_, hU, hR0, hn⟩ := hbig (not_lt.1 hs)
      have hN : u32 N = 0 := by
        show u32 (unramifiedPoints f + ramifiedPoints f) = 0
        rw [hU, hR0]; rfl
      rw [hn, hprime, hN]
      simp only [List.foldlM_cons, List.foldlM_nil]
      rw [← hcard, hK]
      rfl
  constructor
  · intro h
    have h0 : u32 N = 0 := by
      rcases h with h | h <;> rw [h] <;> rfl
    have hub : c'.hasseWeilMap = .ub := by
      rw [hmap, h0]; rfl
    refine ⟨hub, fun m => ?_⟩
    unfold Curve.hasseWeilOffsets
    rw [hexp, if_neg (by omega), hub]
    rfl
  · intro ha hb'
    rw [hmap, u32_of_lt (by omega)]
    unfold Curve.toInt
    rw [if_pos (by constructor <;> omega)]
    rfl

/-! ### Both exceptions occur -/

theorem prime_largest : Nat.Prime 2147483647 := by
  have h := lucas_lehmer_sufficiency 31 (by norm_num) (by norm_num)
  have e : mersenne 31 = 2147483647 := by norm_num [mersenne]
  rwa [e] at h

instance fact_prime_largest : Fact (Nat.Prime 2147483647) := ⟨prime_largest⟩

theorem polyOfList_ends (a b : F) : ∀ n : Nat,
    polyOfList (a :: (List.replicate n 0 ++ [b])) = C b * X ^ (n + 1) + C a := by
  have h : ∀ n : Nat, polyOfList (List.replicate n (0 : F) ++ [b]) = C b * X ^ n := by
    intro n
    induction n with
    | zero => simp [polyOfList]
    | succ n ih => rw [List.replicate_succ, List.cons_append, polyOfList, ih, C_0]; ring
  intro n
  rw [polyOfList, h]
  ring

/-- The polynomial `16 X^(q-1) + 9`: its values are 9, 25 and, at infinity, 16. -/
theorem squares_only {q : Nat} [Fact q.Prime] (hq : q = 2147483647) :
    let f : (ZMod q)[X] := C 16 * X ^ (q - 1) + C 9
    (∀ x, f.eval x ≠ 0 ∧ IsSquare (f.eval x)) ∧ f.natDegree = q - 1 ∧ IsSquare f.leadingCoeff ∧ Squarefree f := by
  intro f
  have hnz : ∀ n : Nat, 0 < n → n < q → (n : ZMod q) ≠ 0 := by
    intro n h1 h2 h
    exact absurd (Nat.le_of_dvd h1 ((ZMod.natCast_eq_zero_iff n q).1 h)) (by omega)
  have h16 : (16 : ZMod q) ≠ 0 := by exact_mod_cast hnz 16 (by omega) (by omega)
  have h9 : (9 : ZMod q) ≠ 0 := by exact_mod_cast hnz 9 (by omega) (by omega)
  have h25 : (25 : ZMod q) ≠ 0 := by exact_mod_cast hnz 25 (by omega) (by omega)
  have hd : f.natDegree = q - 1 := by
    rw [show f = C 16 * X ^ (q - 1) + C 9 from rfl, natDegree_add_C, natDegree_C_mul_X_pow _ _ h16]
  refine ⟨fun x => ?_, hd, ?_, ?_⟩
  · by_cases hx : x = 0
    · have e : f.eval x = 9 := by simp [f, hx, show q - 1 ≠ 0 by omega]
      rw [e]
      exact ⟨h9, 3, by norm_num⟩
    · have e : f.eval x = 25 := by
        simp only [f, eval_add, eval_mul, eval_C, eval_pow, eval_X, ZMod.pow_card_sub_one_eq_one hx]
        norm_num
      rw [e]
      exact ⟨h25, 5, by norm_num⟩
  · have e : f.leadingCoeff = 16 := by
      rw [leadingCoeff, hd]
      simp [f, coeff_C, show q - 1 ≠ 0 by omega]
    rw [e]
    exact ⟨4, by norm_num⟩
  · have hs : (X ^ (q - 1) - C (-9 / 16) : (ZMod q)[X]).Separable :=
      separable_X_pow_sub_C _ (hnz (q - 1) (by omega) (by omega)) (div_ne_zero (neg_ne_zero.2 h9) h16)
    have e : f = C 16 * (X ^ (q - 1) - C (-9 / 16)) := by
      rw [mul_sub, ← C_mul, mul_div_cancel₀ _ h16, C_neg, sub_neg_eq_add]
    rw [e]
    have hu : IsUnit (C 16 : (ZMod q)[X]) := isUnit_C.2 (isUnit_iff_ne_zero.2 h16)
    exact (Associated.symm (associated_unit_mul_left _ _ hu)).squarefree_iff.1 hs.squarefree

/-- The tables of the largest field, and the curve `Y^2 = b X^(q-1) + a` given by the indices of its coefficients. -/
theorem exists_setting {q : Nat} [Fact q.Prime] (hq : q = 2147483647) (a : ZMod q) {b : ZMod q} (hb : b ≠ 0) :
    ∃ (gF gK : ZMod q) (table : FqElementTable (ZMod q)) (rt : ReductionTable) (coeffs : List Nat) (c : Curve (ZMod q)),
      BuiltFqTable q 1 gF table ∧ BuiltReductionTable q 1 gK rt ∧ rt.opencl = false ∧
      GeneratorsMatch gF gK (RingHom.id _) ∧ (∀ e ∈ coeffs, e < card (ZMod q)) ∧ coeffs.length < 4294967296 ∧
      Curve.make table coeffs = .ok c ∧
      polyOfList (coeffs.map (eltOf gF (card (ZMod q)))) = C b * X ^ (q - 1) + C a := by
  have hcard : card (ZMod q) = q := ZMod.card q
  obtain ⟨gF, gK, table, rt, h1, h2, h3, h4⟩ := setting_exists (F := ZMod q) (K := ZMod q) (p := q) (r := 1) (e := 1)
    Fact.out (by omega) (by omega) dvd_rfl (by omega) (by rw [hcard, pow_one]) (by rw [hcard, pow_one])
    (by rw [hcard]; omega) (RingHom.id _)
  obtain ⟨_, _, _, hg, _⟩ := h1.facts
  obtain ⟨ea, ha1, ha2⟩ := hg.eltOf_surj a
  obtain ⟨eb, hb1, hb2⟩ := hg.eltOf_surj b
  have hpoly : polyOfList ((ea :: (List.replicate (q - 2) (q - 1) ++ [eb])).map (eltOf gF (card (ZMod q)))) =
      C b * X ^ (q - 1) + C a := by
    rw [List.map_cons, List.map_append, List.map_replicate, List.map_singleton, ha2, hb2, hcard, eltOf_zero_index,
      polyOfList_ends]
    rw [show q - 2 + 1 = q - 1 by omega]
  have hv : ∀ e ∈ ea :: (List.replicate (q - 2) (q - 1) ++ [eb]), e < card (ZMod q) := by
    intro e he
    rcases List.mem_cons.1 he with rfl | he
    · exact ha1
    · rcases List.mem_append.1 he with he | he
      · rw [List.eq_of_mem_replicate he, hcard]; omega
      · rw [List.mem_singleton.1 he]; exact hb1
  have hlen : (ea :: (List.replicate (q - 2) (q - 1) ++ [eb])).length < 4294967296 := by
    rw [List.length_cons, List.length_append, List.length_replicate, List.length_singleton]
    omega
  obtain ⟨c, hc, _⟩ := (C24_degree_genus h1 _ hv hlen).2 (by
    rw [hpoly]
    intro h0
    have := congrArg (fun g => coeff g (q - 1)) h0
    simp [coeff_C, show q - 1 ≠ 0 by omega, hb] at this)
  exact ⟨gF, gK, table, rt, _, c, h1, h2, h3, h4, hv, hlen, hc, hpoly⟩

theorem exceptions {q : Nat} [Fact q.Prime] (hq : q = 2147483647) : ∃ (f : (ZMod q)[X]), Squarefree f ∧ Squarefree (-f) ∧
    unramifiedPoints f = 4294967296 ∧ unramifiedPoints (-f) = 0 ∧ ramifiedPoints (-f) = 0 ∧
    ∀ h ∈ [f, -f], ∃ (gF gK : ZMod q) (table : FqElementTable (ZMod q)) (rt : ReductionTable)
      (coeffs : List Nat) (c c' : Curve (ZMod q)),
      BuiltFqTable q 1 gF table ∧ BuiltReductionTable q 1 gK rt ∧
      polyOfList (coeffs.map (eltOf gF q)) = h ∧ Curve.make table coeffs = .ok c ∧
      c.count rt = .ok c' ∧ c'.nmbPoints = [(1, (0, 0))] ∧ c'.hasseWeilOffsets 1 = .ub := by
  have hcard : card (ZMod q) = q := ZMod.card q
  have hodd : card (ZMod q) % 2 = 1 := by rw [hcard]; omega
  obtain ⟨hsq, hd, hl, hsf⟩ := squares_only hq
  obtain ⟨f, hf⟩ : ∃ f : (ZMod q)[X], f = C 16 * X ^ (q - 1) + C 9 := ⟨_, rfl⟩
  rw [← hf] at hsq hd hl hsf
  have h16 : (16 : ZMod q) ≠ 0 := by
    intro h
    have h' : ((16 : Nat) : ZMod q) = 0 := by exact_mod_cast h
    exact absurd (Nat.le_of_dvd (by omega) ((ZMod.natCast_eq_zero_iff 16 q).1 h')) (by omega)
  have hU : unramifiedPoints f = 4294967296 := by
    rw [(C82_all_squares hodd f).2.2 ⟨hsq, by rw [hd]; omega, hl⟩, hcard]
    omega
  have hm1 : ¬ IsSquare (-1 : ZMod q) := by
    rw [ZMod.exists_sq_eq_neg_one_iff]
    omega
  have hneg : ∀ a : ZMod q, a ≠ 0 → IsSquare a → numSqrt (-a) = 0 := by
    intro a h0 h1
    by_contra h
    obtain ⟨g, hg⟩ := exists_primitive (F := ZMod q)
    obtain ⟨e, he⟩ := hg.2 (-a) (neg_ne_zero.2 h0)
    have h2 : numSqrt (-a) = 2 := by
      rw [he, numSqrt_pow hg hodd] at h ⊢
      by_contra hne
      rcases Nat.mod_two_eq_zero_or_one e with h3 | h3
      · rw [if_pos h3] at hne; exact hne rfl
      · rw [if_neg (by omega)] at h; exact h rfl
    refine hm1 ?_
    have h3 := ((numSqrt_eq_two hodd _).1 h2).2.div h1
    rwa [neg_div, div_self h0] at h3
  have hd' : (-f).natDegree = q - 1 := by rw [natDegree_neg, hd]
  have hinf : (-f).coeff (2 * halfDegree (-f)) = -f.leadingCoeff := by
    unfold halfDegree
    rw [hd', show 2 * ((q - 1 + 1) / 2) = q - 1 by omega, coeff_neg, leadingCoeff, hd]
  have hl0 : f.leadingCoeff ≠ 0 := leadingCoeff_ne_zero.2 hsf.ne_zero
  have hU' : unramifiedPoints (-f) = 0 := by
    have e : unramifiedPoints (-f) = ∑ x : ZMod q, numSqrt ((-f).eval x) + numSqrt ((-f).coeff (2 * halfDegree (-f))) := by
      unfold unramifiedPoints
      rw [card_affine]
      rfl
    rw [e, hinf, hneg _ hl0 hl, Nat.add_zero]
    exact Finset.sum_eq_zero fun x _ => by rw [eval_neg]; exact hneg _ (hsq x).1 (hsq x).2
  have hR' : ramifiedPoints (-f) = 0 := by
    classical
    unfold ramifiedPoints
    rw [card_affine_ram, numSqrt_zero_root, hinf, if_neg (neg_ne_zero.2 hl0), Nat.add_zero]
    exact Finset.sum_eq_zero fun x _ => by rw [eval_neg, if_neg (neg_ne_zero.2 (hsq x).1)]
  have key : ∀ (a b : ZMod q), b ≠ 0 → (unramifiedPoints (C b * X ^ (q - 1) + C a) = 4294967296 ∨
      unramifiedPoints (C b * X ^ (q - 1) + C a) = 0 ∧ ramifiedPoints (C b * X ^ (q - 1) + C a) = 0) →
      ∃ (gF gK : ZMod q) (table : FqElementTable (ZMod q)) (rt : ReductionTable)
      (coeffs : List Nat) (c c' : Curve (ZMod q)),
      BuiltFqTable q 1 gF table ∧ BuiltReductionTable q 1 gK rt ∧
      polyOfList (coeffs.map (eltOf gF q)) = C b * X ^ (q - 1) + C a ∧ Curve.make table coeffs = .ok c ∧
      c.count rt = .ok c' ∧ c'.nmbPoints = [(1, (0, 0))] ∧ c'.hasseWeilOffsets 1 = .ub := by
    intro a b hb hN
    obtain ⟨gF, gK, table, rt, coeffs, c, h1, h2, h3, h4, hv, hlen, hc, hpoly⟩ := exists_setting hq a hb
    obtain ⟨c', hc', _, _, hsmall, hbig⟩ := C82_count (by omega) h1 h2 dvd_rfl h4 (by simp [h3]) hv hlen hc (RingHom.id _)
    have hoff := (C82_offsets h1 h2 dvd_rfl h4 (by rw [hcard, hq]) h3 hv hlen hc hc').1
    rw [hpoly, Polynomial.map_id] at hsmall hbig hoff
    rw [hcard] at hpoly
    refine ⟨gF, gK, table, rt, coeffs, c, c', h1, h2, hpoly, hc, hc', ?_, ?_⟩
    · rcases hN with hN | ⟨hN, hN'⟩
      · exact (hbig hN.ge).2.2.2
      · rw [hsmall (by omega), hN, hN']
    · refine (hoff ?_).2 1
      rcases hN with hN | ⟨hN, hN'⟩
      · right; rw [hN, (hbig hN.ge).2.2.1]
      · left; rw [hN, hN']
  refine ⟨f, hsf, ?_, hU, hU', hR', fun h hh => ?_⟩
  · exact (Associated.neg_left (Associated.refl f)).symm.squarefree_iff.1 hsf
  · rcases List.mem_cons.1 hh with rfl | hh
    · rw [hf]
      exact key _ _ h16 (.inl (hf ▸ hU))
    · have e : h = C (-16) * X ^ (q - 1) + C (-9) := by
        rw [List.mem_singleton.1 hh, hf, C_neg, C_neg]; ring
      have e' : -f = C (-16) * X ^ (q - 1) + C (-9) := by rw [hf, C_neg, C_neg]; ring
      rw [e]
      exact key _ _ (neg_ne_zero.2 h16) (.inr ⟨e' ▸ hU', e' ▸ hR'⟩)

/-- C82: both exceptions occur, for the curves `Y^2 = ±(16 X^(q-1) + 9)`.  The first has `2^32` points with `y ≠ 0`, and
no points are stored; the second has no points.  For both the offsets are undefined. -/
theorem C82_exists : ∃ (f : (ZMod 2147483647)[X]), Squarefree f ∧ Squarefree (-f) ∧
    unramifiedPoints f = 4294967296 ∧ unramifiedPoints (-f) = 0 ∧ ramifiedPoints (-f) = 0 ∧
    ∀ h ∈ [f, -f], ∃ (gF gK : ZMod 2147483647) (table : FqElementTable (ZMod 2147483647)) (rt : ReductionTable)
      (coeffs : List Nat) (c c' : Curve (ZMod 2147483647)),
      BuiltFqTable 2147483647 1 gF table ∧ BuiltReductionTable 2147483647 1 gK rt ∧
      polyOfList (coeffs.map (eltOf gF 2147483647)) = h ∧ Curve.make table coeffs = .ok c ∧
      c.count rt = .ok c' ∧ c'.nmbPoints = [(1, (0, 0))] ∧ c'.hasseWeilOffsets 1 = .ub :=
  exceptions rfl

/-- The hypotheses of C82 are met in the largest field. -/
example : ∃ (gF gK : ZMod 2147483647) (table : FqElementTable (ZMod 2147483647)) (rt : ReductionTable),
    BuiltFqTable 2147483647 1 gF table ∧ BuiltReductionTable 2147483647 1 gK rt ∧ rt.opencl = false ∧
      GeneratorsMatch gF gK (RingHom.id _) :=
  let ⟨a, b, c, d, _, _, h1, h2, h3, h4, _⟩ := exists_setting (q := 2147483647) rfl 0 one_ne_zero
  ⟨a, b, c, d, h1, h2, h3, h4⟩

end Hycu
