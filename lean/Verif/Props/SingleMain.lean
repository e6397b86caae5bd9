import Verif.Spec.SingleMain
import Verif.Props.Single
import Verif.Props.Ramification

/-!
C55: the main function of `hycu-single`.
-/

set_option linter.unusedSectionVars false

namespace Hycu

open Fintype Polynomial

/-- Isomorphic fields give the same numbers of points. -/
theorem points_equiv {K L : Type} [Field K] [Field L] (τ : K ≃+* L) (f : K[X]) :
    unramifiedPoints (f.map (τ : K →+* L)) = unramifiedPoints f ∧
      ramifiedPoints (f.map (τ : K →+* L)) = ramifiedPoints f := by
  have hev : ∀ x, (f.map (τ : K →+* L)).eval (τ x) = τ (f.eval x) := by
    intro x
    have := eval_map_apply (p := f) (f := (τ : K →+* L)) x
    simpa using this
  have e1 : ∀ (P : K → Prop) (Q : L → Prop), (∀ y, Q (τ y) ↔ P y) →
      Nat.card {p : K × K // p.2 ^ 2 = f.eval p.1 ∧ P p.2} =
      Nat.card {p : L × L // p.2 ^ 2 = (f.map (τ : K →+* L)).eval p.1 ∧ Q p.2} := by
    intro P Q hPQ
    apply Nat.card_congr
    refine Equiv.subtypeEquiv (Equiv.prodCongr τ.toEquiv τ.toEquiv) ?_
    rintro ⟨x, y⟩
    simp only [Equiv.prodCongr_apply, Prod.map_apply, RingEquiv.toEquiv_eq_coe, EquivLike.coe_coe]
    rw [hev, ← map_pow, τ.injective.eq_iff, hPQ]
  have e2 : ∀ (P : K → Prop) (Q : L → Prop), (∀ y, Q (τ y) ↔ P y) →
      Nat.card {w : K // w ^ 2 = f.coeff (2 * halfDegree f) ∧ P w} =
      Nat.card {w : L // w ^ 2 = (f.map (τ : K →+* L)).coeff (2 * halfDegree (f.map (τ : K →+* L))) ∧ Q w} := by
    intro P Q hPQ
    apply Nat.card_congr
    refine Equiv.subtypeEquiv τ.toEquiv ?_
    intro y
    simp only [RingEquiv.toEquiv_eq_coe, EquivLike.coe_coe]
    rw [halfDegree_map, coeff_map, RingEquiv.coe_toRingHom, ← map_pow, τ.injective.eq_iff, hPQ]
  unfold unramifiedPoints ramifiedPoints
  rw [e1 (· ≠ 0) (· ≠ 0) (by simp), e2 (· ≠ 0) (· ≠ 0) (by simp), e1 (· = 0) (· = 0) (by simp),
    e2 (· = 0) (· = 0) (by simp)]
  exact ⟨rfl, rfl⟩

namespace Single

variable {F : Type} [Field F] [Fintype F] [DecidableEq F]

/-- The numbers of points are the same over all fields with as many elements. -/
theorem points_same {K L : Type} [Field K] [Fintype K] [Field L] [Fintype L] (h : card K = card L) (ι : F →+* K)
    (ι' : F →+* L) (f : F[X]) : unramifiedPoints (f.map ι) = unramifiedPoints (f.map ι') ∧
      ramifiedPoints (f.map ι) = ramifiedPoints (f.map ι') := by
  let τ : K ≃+* L := FiniteField.ringEquivOfCardEq h
  obtain ⟨h1, h2⟩ := points_equiv τ (f.map ι)
  obtain ⟨h3, h4⟩ := points_embedding ((τ : K →+* L).comp ι) ι' f
  rw [Polynomial.map_map] at h1 h2
  exact ⟨h1.symm.trans h3, h2.symm.trans h4⟩

variable {p : Nat} {rep : FqRep F p 1} {g : F} {w : World F} {E : Nat → Extension F} {m : Nat}

/-- Every implementation enters the numbers of points. -/
theorem countWith_ok (hp2 : p ≠ 2) (hw : w.Ok p rep g E m) {k : Nat} (hk : 0 < k) (hkm : k ≤ m) {c : Curve F}
    (hc : GoodCurve p 1 c) (hnew : c.nmbPoints.contains k = false) (imp : Implementation) :
    countWith w imp c k =
      .ok { c with nmbPoints := c.nmbPoints.set k (extPoints (rhsPoly g c) (E k)) } := by
  obtain ⟨hp, _, _, hg, _⟩ := hw.table.facts
  have htab : ∀ b, c.count (w.reduction b k) =
      .ok { c with nmbPoints := c.nmbPoints.set k (extPoints (rhsPoly g c) (E k)) } := by
    intro b
    obtain ⟨gK, hE⟩ := hw.reduction b
    have := count_ext hp2 hw.table (hE k hk hkm) hc (by rwa [mul_one])
    rwa [mul_one] at this
  have hnaive : ∀ nf : NaiveField, NaiveOk p g nf k → c.countNaive nf.gen k =
      .ok { c with nmbPoints := c.nmbPoints.set k (extPoints (rhsPoly g c) (E k)) } := by
    rintro nf ⟨_, ι, hcard, hprim, hG⟩
    obtain ⟨gK, hE⟩ := hw.reduction false
    obtain ⟨_, _, _, _, hcard', _⟩ := (hE k hk hkm).facts hp2 hw.table
    rw [mul_one] at hcard'
    obtain ⟨hodd, hq2⟩ := odd_card_of hp hp2 hcard hk
    rw [countNaive_ok (ι := ι) ⟨hg, hprim, hG⟩ hodd (by
      have := (hE k hk hkm).small
      rw [hcard'] at this
      rw [hcard]
      exact this) hc one_pos hk (one_dvd _) hcard hnew]
    obtain ⟨e1, e2⟩ := points_same (hcard.trans hcard'.symm) ι (E k).ι (rhsPoly g c)
    rw [e1, e2]
    rfl
  cases imp
  · exact htab false
  · exact htab true
  · exact hnaive _ (hw.nmod k hk hkm)
  · exact hnaive _ (hw.zech k hk hkm)

/-- All implementations give the same result of the loop. -/
theorem loop_same (hp2 : p ≠ 2) (hw : w.Ok p rep g E m) (imp imp' : Implementation) : ∀ (ks : List Nat), ks.Nodup →
    (∀ k ∈ ks, 0 < k ∧ k ≤ m) → ∀ {c : Curve F}, GoodCurve p 1 c → OMap.Sorted c.nmbPoints →
    (∀ k ∈ ks, c.nmbPoints.contains k = false) →
    ks.foldlM (countWith w imp) c = ks.foldlM (countWith w imp') c
  | [], _, _, c, _, _, _ => rfl
  | k :: ks, hnd, hks, c, hc, hs, hnew => by
    obtain ⟨h1, h2⟩ := hks k List.mem_cons_self
    rw [List.foldlM_cons, List.foldlM_cons, countWith_ok hp2 hw h1 h2 hc (hnew k List.mem_cons_self) imp,
      countWith_ok hp2 hw h1 h2 hc (hnew k List.mem_cons_self) imp', Res.bind_ok, Res.bind_ok]
    obtain ⟨h3, h4⟩ := List.nodup_cons.1 hnd
    refine loop_same hp2 hw imp imp' ks h4 (fun j hj => hks j (List.mem_cons_of_mem _ hj)) (hc.of_counted _)
      (OMap.sorted_set hs _ _) fun j hj => ?_
    simp only
    rw [contains_set hs, hnew j (List.mem_cons_of_mem _ hj)]
    have : j ≠ k := fun h => h3 (h ▸ hj)
    simp [this]

/-- The curve without its counts: what the coefficients are turned into. -/
theorem make_ok (hw : w.Ok p rep g E m) {cs : List Nat} (hcs : ∀ c ∈ cs, c < p) (hlen : cs.length < 4294967296)
    (h0 : polyOfList (cs.map fun c : Nat => (c : F)) ≠ 0) :
    ∃ es c, exponents w.flint.coeff w.table p cs = .ok es ∧ Curve.make w.table es = .ok c ∧ (∀ e ∈ es, e < card F) ∧
      es.length = cs.length ∧ es.map (eltOf g (card F)) = cs.map (fun c : Nat => (c : F)) := by
  obtain ⟨hp, _, hcard, hg, _, _, _, _, hat⟩ := hw.table.facts
  rw [pow_one] at hcard
  obtain ⟨es, h1, h2⟩ := C46_exponents rep hw.table hw.small cs
  have hlt : ∀ e ∈ es, e < card F := by
    intro e he
    obtain ⟨i, hi, rfl⟩ := List.getElem_of_mem he
    have := (List.forall₂_iff_get.1 h2).2 i (by rw [h2.length_eq]; exact hi) hi
    rw [hcard]
    exact this.1
  have hmap : es.map (eltOf g (card F)) = cs.map fun c : Nat => (c : F) := by
    clear h1 hlen h0
    induction h2 with
    | nil => rfl
    | cons h _ ih =>
      rw [List.map_cons, List.map_cons, ih (fun c hc => hcs c (List.mem_cons_of_mem _ hc))
        fun e he => hlt e (List.mem_cons_of_mem _ he)]
      obtain ⟨h3, h4⟩ := h
      rw [hat _ (by omega), if_pos (hcs _ List.mem_cons_self)] at h4
      rw [Res.ok.inj h4]
  have hlen' : es.length < 4294967296 := by rw [← h2.length_eq]; exact hlen
  obtain ⟨_, h3⟩ := C24_degree_genus hw.table es hlt hlen'
  rw [hmap] at h3
  obtain ⟨c, h4, _⟩ := h3 h0
  exact ⟨es, c, by rw [hw.flint.coeff_eq]; exact h1, h4, hlt, h2.length_eq.symm, hmap⟩

/-! ### The text -/

/-- The loop that prints the terms, if the coefficients have the residues `vs`. -/
theorem termsLoop_ok {fl : FlintPoly F} {c : Curve F} {vs : List Nat}
    (h : ∀ i v, vs[i]? = some v → ∃ e a, rd c.coeffs i = .ok e ∧ c.table.at' e = .ok a ∧ fl.coeff a 0 = v) :
    ∀ n, n ≤ vs.length → termsLoop fl c n = .ok (" + ".toList.intercalate
      ((vs.take n).zipIdx.map fun c => "(".toList ++ showNat c.1 ++ ")*X^".toList ++ showNat c.2).reverse)
  | 0, _ => rfl
  | n + 1, hn => by
    have hv := List.getElem?_eq_getElem (l := vs) (i := n) (by omega)
    obtain ⟨e, a, h1, h2, h3⟩ := h n _ hv
    unfold termsLoop
    rw [h1, Res.bind_ok, h2, Res.bind_ok, termsLoop_ok h n (by omega), Res.bind_ok, h3, List.take_add_one, hv,
      Option.toList_some, List.zipIdx_append, List.map_append, List.reverse_append]
    have hlen : (vs.take n).length = n := by rw [List.length_take]; omega
    rw [hlen]
    simp only [List.zipIdx_singleton, List.map_cons, List.map_nil, List.reverse_cons, List.reverse_nil,
      List.nil_append, List.cons_append, Nat.zero_add]
    show Res.ok _ = Res.ok _
    congr 1
    by_cases hz : n = 0
    · subst hz
      simp [List.intercalate]
    · rw [if_pos hz]
      have hne : ((vs.take n).zipIdx.map fun c : Nat × Nat =>
          "(".toList ++ showNat c.1 ++ ")*X^".toList ++ showNat c.2).reverse ≠ [] := by
        intro h0
        have := congrArg List.length h0
        rw [List.length_reverse, List.length_map, List.length_zipIdx, hlen] at this
        exact hz this
      generalize ((vs.take n).zipIdx.map fun c : Nat × Nat =>
          "(".toList ++ showNat c.1 ++ ")*X^".toList ++ showNat c.2).reverse = L at hne ⊢
      obtain ⟨x, L, rfl⟩ := List.exists_cons_of_ne_nil hne
      simp [List.intercalate, List.intersperse]

/-- What is printed for a curve over the prime field. -/
theorem output_ok (hT : BuiltFqTable p 1 g w.table) (hone : (w.reduction false 1).prime = p ∧
    (w.reduction false 1).primeExponent = 1) {c : Curve F} (hc : GoodCurve p 1 c) (ht : c.table = w.table)
    {vs : List Nat} (hvs : c.coeffs.map (fun e => w.flint.coeff (eltOf g (card F) e) 0) = vs)
    {points : List (Nat × Nat)} {offsets : List Int} {ramification : List Nat}
    (h1 : c.numberOfPoints c.genus = .ok points) (h2 : c.hasseWeilOffsets c.genus = .ok offsets)
    (h3 : c.ramificationType w.flint = .ok ramification) :
    output w c = .ok (report p vs c.coeffs points offsets ramification) := by
  obtain ⟨hp, _, hcard, hg, _, _, hpow, _, hat⟩ := hT.facts
  rw [pow_one] at hcard
  have hlen : vs.length = c.coeffs.length := by rw [← hvs, List.length_map]
  have hterms := termsLoop_ok (fl := w.flint) (c := c) (vs := vs) (by
    intro i v hv
    rw [← hvs, List.getElem?_map] at hv
    obtain ⟨e, he, rfl⟩ := Option.map_eq_some_iff.1 hv
    refine ⟨e, _, by unfold rd; rw [he], ?_, rfl⟩
    rw [ht]
    exact hat e (hc.valid e (List.mem_of_getElem? he))) vs.length le_rfl
  have hconv : c.convert (w.reduction false 1) = .ok c.coeffs := by
    unfold Curve.convert
    rw [hc.prime, hc.expo, hone.1, hone.2]
    simp
  have e1 : " ".toList = [' '] := by decide
  have e2 : ",".toList = [','] := by decide
  have e3 : "  /  F_".toList = "  /  ".toList ++ "F_".toList := by decide
  have hshow : showCurve w.flint c = .ok ("Y^2 = ".toList ++ (" + ".toList.intercalate
      (vs.zipIdx.map fun c => "(".toList ++ showNat c.1 ++ ")*X^".toList ++ showNat c.2).reverse ++
      ("  /  ".toList ++ ("F_".toList ++ showNat p)))) := by
    unfold showCurve
    rw [← hlen, hterms, Res.bind_ok, ht, hpow, hcard, List.take_length]
    rfl
  unfold output
  rw [hshow, Res.bind_ok, hconv, Res.bind_ok, h1, Res.bind_ok, h2, Res.bind_ok, h3, Res.bind_ok]
  unfold report
  simp only [e1, e2, e3]
  generalize "Y^2 = ".toList = t1
  generalize "  /  ".toList = t2
  generalize "F_".toList = t3
  generalize "coefficient exponents: ".toList = t4
  generalize "number of points: ".toList = t5
  generalize "hasse-weil offsets: ".toList = t6
  generalize "ramification type: ".toList = t7
  generalize ";  ".toList = t8
  rw [Res.pure_eq]
  refine congrArg Res.ok ?_
  simp only [List.flatMap_def, List.flatten_cons, List.flatten_nil, List.append_assoc, List.cons_append,
    List.nil_append, List.append_nil]

/-- `ramification_type` does not fail, squarefree or not. -/
theorem ramificationType_total (hT : BuiltFqTable p 1 g w.table) {fl : FlintPoly F} (hfl : FlintOk rep fl)
    {c : Curve F} (hc : GoodCurve p 1 c) (ht : c.table = w.table) : ∃ l, c.ramificationType fl = .ok l := by
  unfold Curve.ramificationType
  simp only
  split
  · exact ⟨_, rfl⟩
  · unfold Curve.rhsFactorDegrees
    obtain ⟨l, h1, h2⟩ := rhsNmodPolynomial_ok hT hfl hc ht rfl
    rw [hc.expo, if_pos rfl, h1]
    exact ⟨_, rfl⟩

/-! ### The theorems -/

/-- C55: with `--help` nothing is counted or written to the standard output. -/
theorem C55_help (w : World F) {o : Options} (h : o.help = true) : main w o = .ok (0, []) := by
  unfold main
  rw [if_pos h]

/-- C55: the exit code is 1 exactly if help is not asked for and the field size is missing or not a prime, fewer than
two coefficients are given, or more than one implementation is chosen; nothing is written to the standard output
then, whatever tables there are. -/
theorem C55_rejects (w : World F) (o : Options) :
    ((∃ text, main w o = .ok (1, text)) ↔ o.help = false ∧
      ((¬ ∃ p, o.fieldSize = some p ∧ p.Prime) ∨ (¬ ∃ cs, o.coefficients = some cs ∧ 2 ≤ cs.length) ∨
        (o.naiveNmod && o.naiveZech || o.naiveNmod && o.opencl || o.naiveZech && o.opencl) = true)) ∧
    ∀ text, main w o = .ok (1, text) → text = [] := by
  have himp : 1 < o.implementations ↔
      (o.naiveNmod && o.naiveZech || o.naiveNmod && o.opencl || o.naiveZech && o.opencl) = true := by
    unfold Options.implementations
    cases o.naiveNmod <;> cases o.naiveZech <;> cases o.opencl <;> simp
  rw [← himp]
  have key : ∀ r : Res (Curve F), ∀ text, (do
      let c ← r
      let text ← output w c
      pure (0, text) : Res (Nat × List Char)) ≠ .ok (1, text) := by
    intro r text h
    obtain ⟨c, _, h⟩ := Res.bind_eq_ok.1 h
    obtain ⟨t, _, h⟩ := Res.bind_eq_ok.1 h
    cases Res.ok.inj h
  unfold main
  cases o.help
  · rw [if_neg (by decide)]
    rcases o.fieldSize with _ | p
    · simp
    · rcases o.coefficients with _ | cs
      · simp
      · by_cases h1 : cs.length < 2
        · simp [h1]
        · by_cases h2 : p.Prime
          · by_cases h3 : 1 < o.implementations
            · simp [h1, h2, h3]
            · simp only [h1, h2, h3, if_false, not_true_eq_false]
              refine ⟨⟨fun ⟨t, h⟩ => absurd h (key _ _), ?_⟩, fun t h => absurd h (key _ _)⟩
              rintro ⟨_, h | h | h⟩
              · exact absurd ⟨p, rfl, h2⟩ h
              · exact absurd ⟨cs, rfl, by omega⟩ h
              · exact absurd h (by simp)
          · simp [h1, h2]
  · simp

theorem natDegree_lt {l : List F} (h : 1 ≤ (polyOfList l).natDegree) : (polyOfList l).natDegree < l.length := by
  by_contra hlt
  have h0 : polyOfList l ≠ 0 := by
    intro h0
    rw [h0, natDegree_zero] at h
    omega
  apply leadingCoeff_ne_zero.2 h0
  rw [leadingCoeff, coeff_polyOfList, List.getD_eq_getElem?_getD, List.getElem?_eq_none (by omega)]
  rfl

/-- What `main` does after its checks. -/
theorem main_eq (w : World F) {o : Options} {p : Nat} {cs : List Nat} (hh : o.help = false)
    (hf : o.fieldSize = some p) (hc : o.coefficients = some cs) (hp : p.Prime) (hlen : 2 ≤ cs.length)
    (hi : o.implementations ≤ 1) : main w o = (do
      let c ← curve w o.implementation p cs
      let text ← output w c
      pure (0, text)) := by
  unfold main
  rw [if_neg (by rw [hh]; decide), hf, hc]
  simp only
  rw [if_neg (by omega), if_neg (by rwa [not_not]), if_neg (by omega)]

/-- The curve does not depend on the implementation. -/
theorem curve_same (hp2 : p ≠ 2) {cs : List Nat} (hcs : ∀ c ∈ cs, c < p) (hlen : cs.length < 4294967296)
    (hw : w.Ok p rep g E (((polyOfList (cs.map fun c : Nat => (c : F))).natDegree - 1) / 2))
    (hdeg : 1 ≤ (polyOfList (cs.map fun c : Nat => (c : F))).natDegree) (imp imp' : Implementation) :
    curve w imp p cs = curve w imp' p cs := by
  obtain ⟨hp, _, hcard, hg, h1, h2, _, h3, _⟩ := hw.table.facts
  have h0 : polyOfList (cs.map fun c : Nat => (c : F)) ≠ 0 := by
    intro h
    rw [h, natDegree_zero] at hdeg
    omega
  obtain ⟨es, c, h4, h5, h6, h7, h8⟩ := make_ok hw hcs hlen h0
  obtain ⟨hgc, htab, hnew, hpoly⟩ := goodCurve_of_make h1 h2 h3 h6 (by omega) h5 g
  obtain ⟨_, h9⟩ := C24_degree_genus hw.table es h6 (by omega)
  rw [h8] at h9
  obtain ⟨c', h10, _, _, _, h11, _⟩ := h9 h0
  obtain rfl : c' = c := by rw [h5] at h10; exact (Res.ok.inj h10).symm
  unfold curve
  rw [h4, Res.bind_ok, Res.bind_ok, h5, Res.bind_ok, Res.bind_ok, h11 hdeg]
  refine loop_same hp2 hw imp imp' _ ?_ ?_ hgc (by rw [hnew]; exact OMap.sorted_nil)
    (by rw [hnew]; intro k _; simp [OMap.contains, OMap.find?])
  · rw [List.nodup_map_iff (fun a b h => by simpa using h), List.nodup_reverse]
    exact List.nodup_range
  · intro k hk
    obtain ⟨j, hj, rfl⟩ := List.mem_map.1 hk
    have := List.mem_range.1 (List.mem_reverse.1 hj)
    omega

/-- C55: all four implementations print the same text. -/
theorem C55_implementations (hp2 : p ≠ 2) {cs : List Nat} (hcs : ∀ c ∈ cs, c < p) (hlen : cs.length < 4294967296)
    (hw : w.Ok p rep g E (((polyOfList (cs.map fun c : Nat => (c : F))).natDegree - 1) / 2))
    (hdeg : 1 ≤ (polyOfList (cs.map fun c : Nat => (c : F))).natDegree)
    {o o' : Options} (hh : o.help = false ∧ o'.help = false)
    (hf : o.fieldSize = some p ∧ o'.fieldSize = some p) (hc : o.coefficients = some cs ∧ o'.coefficients = some cs)
    (hi : o.implementations ≤ 1 ∧ o'.implementations ≤ 1) : main w o = main w o' := by
  obtain ⟨hp, _⟩ := hw.table.facts
  have hlen2 : 2 ≤ cs.length := by
    have := natDegree_lt (l := cs.map fun c : Nat => (c : F)) hdeg
    rw [List.length_map] at this
    omega
  rw [main_eq w hh.1 hf.1 hc.1 hp hlen2 hi.1, main_eq w hh.2 hf.2 hc.2 hp hlen2 hi.2,
    curve_same hp2 hcs hlen hw hdeg o.implementation o'.implementation]

/-- C55: for an odd prime `p` and the coefficients `cs` below `p` of a polynomial `f` of degree at least 1 over the
field of `p` elements, with at most one implementation chosen, the exit code is 0 and the text reports, in this
order: `f`; the exponents of its coefficients to the base of the generator; the numbers of points of `y² = f` over
the extensions of degree up to the genus; the offsets of their sums from `p^k + 1`; and, if `f` is squarefree, the
ascending list of the degrees of the branch points. -/
theorem C55_prints (hp2 : p ≠ 2) {cs : List Nat} (hcs : ∀ c ∈ cs, c < p) (hlen : cs.length ≤ 2147483648) :
    let f : F[X] := polyOfList (cs.map fun c : Nat => (c : F))
    1 ≤ f.natDegree → w.Ok p rep g E ((f.natDegree - 1) / 2) → ∀ {o : Options}, o.help = false →
    o.fieldSize = some p → o.coefficients = some cs → o.implementations ≤ 1 →
    let points (k : Nat) := (unramifiedPoints (f.map (E k).ι), ramifiedPoints (f.map (E k).ι))
    let degrees := (List.range ((f.natDegree - 1) / 2)).map (· + 1)
    ∃ es ramification, main w o = .ok (0, report p (cs.take (f.natDegree + 1)) es (degrees.map points)
        (degrees.map fun k => (p : Int) ^ k + 1 - (((points k).1 : Int) + (points k).2)) ramification) ∧
      es.length = f.natDegree + 1 ∧
      (∀ i e, es[i]? = some e → e < p ∧ if e = p - 1 then f.coeff i = 0 else f.coeff i = g ^ e) ∧
      (Squarefree f → ramification.Pairwise (· ≤ ·) ∧ (ramification : Multiset Nat) = branchDegrees f) := by
  intro f hdeg hw o hh hfs hcf hi points degrees
  obtain ⟨hp, _, hcard, hg, h1, h2, _, h3, _⟩ := hw.table.facts
  rw [pow_one] at hcard
  have h0 : f ≠ 0 := by
    intro h
    rw [h, natDegree_zero] at hdeg
    omega
  have hlt := natDegree_lt (l := cs.map fun c : Nat => (c : F)) hdeg
  rw [List.length_map] at hlt
  replace hlt : f.natDegree < cs.length := hlt
  obtain ⟨es, c, h4, h5, h6, h7, h8⟩ := make_ok hw hcs (by omega) h0
  obtain ⟨hgc, htab, hnew, hpoly⟩ := goodCurve_of_make h1 h2 h3 h6 (by omega) h5 g
  obtain ⟨_, h9⟩ := C24_degree_genus hw.table es h6 (by omega)
  rw [h8] at h9
  obtain ⟨c', h10, hrhs, hcl, hcd, hgen, _⟩ := h9 h0
  replace hcl : c'.coeffs.length = f.natDegree + 1 := hcl
  obtain rfl : c' = c := by rw [h5] at h10; exact (Res.ok.inj h10).symm
  clear h10 h9
  have hgen := hgen hdeg
  obtain ⟨gK, hE⟩ := hw.reduction false
  have hpol : polyOfList (es.map (eltOf g (card F))) = f := by rw [h8]
  have hts : ((List.range ((f.natDegree - 1) / 2)).reverse.map fun k => w.reduction false (k + 1)).Perm
      ((List.range ((f.natDegree - 1) / 2)).map fun k => w.reduction false (k + 1)) := by
    rw [List.map_reverse]
    exact List.reverse_perm _
  obtain ⟨d, hd1, hd2, _, hd4, hd5⟩ := C21_offsets hp2 hw.table hE h6 (by omega) h5 hts
  rw [hpol, mul_one] at hd4 hd5
  set ks := (List.range ((f.natDegree - 1) / 2)).reverse.map (· + 1) with hks
  have hnd : ks.Nodup := by
    rw [hks, List.nodup_map_iff (fun a b h => by simpa using h), List.nodup_reverse]
    exact List.nodup_range
  have hkm : ∀ k ∈ ks, 0 < k ∧ k ≤ (f.natDegree - 1) / 2 := by
    intro k hk
    obtain ⟨j, hj, rfl⟩ := List.mem_map.1 hk
    have := List.mem_range.1 (List.mem_reverse.1 hj)
    omega
  have hEk : ∀ k ∈ ks, BuiltExtension p 1 g E gK (w.reduction false) k := fun k hk => hE k (hkm k hk).1 (hkm k hk).2
  have hmap : ks.map (w.reduction false) =
      (List.range ((f.natDegree - 1) / 2)).reverse.map fun k => w.reduction false (k + 1) := by
    rw [hks, List.map_map]
    rfl
  rw [← hmap] at hd1
  obtain ⟨M, hM, _⟩ := countAll_ok hp2 hw.table ks hnd hEk hgc (by rw [hnew]; exact OMap.sorted_nil)
    (by rw [hnew]; intro k _; simp [OMap.contains, OMap.find?])
  obtain rfl : { c' with nmbPoints := M } = d := by rw [hd1] at hM; exact (Res.ok.inj hM).symm
  have hgd := hgc.of_counted M
  have hcurve : curve w o.implementation p cs = .ok { c' with nmbPoints := M } := by
    rw [curve_same hp2 hcs (by omega) hw hdeg _ .cpu]
    unfold curve
    rw [h4, Res.bind_ok, h5, Res.bind_ok, hgen]
    have : ∀ (l : List Nat) (c : Curve F), l.foldlM (countWith w .cpu) c = countAll c (l.map (w.reduction false)) := by
      intro l
      unfold countAll
      induction l with
      | nil => intro c; rfl
      | cons k l ih =>
        intro c
        rw [List.map_cons, List.foldlM_cons, List.foldlM_cons]
        congr 1
        funext c
        exact ih c
    rw [this, ← hks, hM]
  have hgen' : ({ c' with nmbPoints := M } : Curve F).genus = (f.natDegree - 1) / 2 := hgen
  have hram : ∃ l, ({ c' with nmbPoints := M } : Curve F).ramificationType w.flint = .ok l ∧
      (Squarefree f → l.Pairwise (· ≤ ·) ∧ (l : Multiset Nat) = branchDegrees f) := by
    by_cases hsf : Squarefree f
    · obtain ⟨d, l, h11, h12, h13, h14⟩ := C23_ramification_type hp2 hw.table hw.flint h6 (by omega) h5
        (by rw [hpol]; exact hsf) (by rw [hcd]; show f.natDegree < _; omega) (by rw [hcd]; show f.natDegree * 1 < _; omega)
        hnd hEk
      obtain rfl : { c' with nmbPoints := M } = d := by rw [h11] at hM; exact (Res.ok.inj hM).symm
      rw [hpol] at h14
      exact ⟨l, h12, fun _ => ⟨h13, h14⟩⟩
    · obtain ⟨l, hl⟩ := ramificationType_total hw.table hw.flint hgd htab
      exact ⟨l, hl, fun h => absurd h hsf⟩
  obtain ⟨l, hl1, hl2⟩ := hram
  have hval : ∀ i (hi : i < c'.coeffs.length), eltOf g (card F) c'.coeffs[i] = f.coeff i := by
    intro i hi
    have : f = polyOfList (c'.coeffs.map (eltOf g (card F))) := hrhs.symm
    rw [this, coeff_polyOfList, List.getD_eq_getElem?_getD, List.getElem?_map, List.getElem?_eq_getElem hi]
    rfl
  refine ⟨c'.coeffs, l, ?_, hcl, ?_, hl2⟩
  · rw [main_eq w hh hfs hcf hp (by omega) hi, hcurve, Res.bind_ok,
      output_ok hw.table hw.one hgd htab (vs := cs.take (f.natDegree + 1)) ?_ (by rw [hgen']; exact hd4)
        (by rw [hgen']; exact hd5) hl1]
    · show Res.ok _ = Res.ok _
      refine congrArg (fun x => Res.ok (0, x)) ?_
      show report _ _ _ _ _ _ = report _ _ _ _ _ _
      congr 1
      · rw [List.map_map]
        rfl
      · rw [List.map_map]
        apply List.map_congr_left
        intro k _
        show _ = (p : Int) ^ (k + 1) + 1 - _
        rw [hcard]
        push_cast
        rfl
    · show c'.coeffs.map _ = _
      apply List.ext_getElem
      · rw [List.length_map, List.length_take]
        omega
      · intro i hi1 hi2
        rw [List.length_map] at hi1
        rw [List.getElem_map, List.getElem_take, hval i hi1, hw.flint.coeff_eq]
        have hi3 : i < cs.length := by rw [List.length_take] at hi2; omega
        have : f.coeff i = ((cs[i] : Nat) : F) := by
          show (polyOfList _).coeff i = _
          rw [coeff_polyOfList, List.getD_eq_getElem?_getD, List.getElem?_map, List.getElem?_eq_getElem hi3]
          rfl
        rw [this, rep.coeff_natCast, Nat.mod_eq_of_lt (hcs _ (List.getElem_mem hi3))]
  · intro i e he
    obtain ⟨hi1, rfl⟩ := List.getElem?_eq_some_iff.1 he
    have := hgc.valid _ (List.getElem_mem hi1)
    rw [hcard] at this
    refine ⟨this, ?_⟩
    have h12 := hval i hi1
    rw [hcard] at h12
    unfold eltOf at h12
    split at h12 <;> rename_i h13
    · rw [if_pos h13, h12]
    · rw [if_neg h13, h12]

/-! ### What goes wrong -/

/-- C55: if all coefficients are zero, the program reads the last entry of an empty vector, although it accepts the
command line. -/
theorem C55_zero {p : Nat} {rep : FqRep F p 1} {g : F} {w : World F} (hfl : w.flint.coeff = rep.coeff)
    (hT : BuiltFqTable p 1 g w.table) (hsmall : (p - 1) * rep.coeff g 0 < 4294967296) {n : Nat} (hn : 2 ≤ n)
    (hlen : n < 4294967296) {o : Options} (hh : o.help = false) (hf : o.fieldSize = some p)
    (hc : o.coefficients = some (List.replicate n 0)) (hi : o.implementations ≤ 1) : main w o = .ub := by
  obtain ⟨hp, _, hcard, hg, _, _, _, _, hat⟩ := hT.facts
  rw [pow_one] at hcard
  have hp2 := hp.two_le
  obtain ⟨es, h1, h2⟩ := C46_exponents rep hT hsmall (List.replicate n 0)
  have hes : ∀ e ∈ es, e < card F ∧ eltOf g (card F) e = 0 := by
    intro e he
    obtain ⟨i, hi, rfl⟩ := List.getElem_of_mem he
    have hl : i < (List.replicate n 0).length := by rw [h2.length_eq]; exact hi
    obtain ⟨h3, h4⟩ := (List.forall₂_iff_get.1 h2).2 i hl hi
    have h5 : (List.replicate n 0).get ⟨i, hl⟩ = 0 := List.getElem_replicate _
    rw [h5, if_pos (by omega), Nat.cast_zero] at h4
    rw [List.get_eq_getElem] at h3 h4
    simp only at h3 h4
    refine ⟨by omega, ?_⟩
    rw [hat _ (by omega)] at h4
    exact Res.ok.inj h4
  have hlen' : es.length < 4294967296 := by rw [← h2.length_eq, List.length_replicate]; exact hlen
  obtain ⟨h3, _⟩ := C24_degree_genus hT es (fun e he => (hes e he).1) hlen'
  have h4 : polyOfList (es.map (eltOf g (card F))) = 0 := by
    rw [show es.map (eltOf g (card F)) = List.replicate (es.map (eltOf g (card F))).length 0 from
      List.eq_replicate_iff.2 ⟨rfl, fun b hb => ?_⟩]
    · have := polyOfList_append_zeros ([] : List F) (es.map (eltOf g (card F))).length
      simpa [polyOfList] using this
    · obtain ⟨e, he, rfl⟩ := List.mem_map.1 hb
      exact (hes e he).2
  rw [main_eq w hh hf hc hp (by rw [List.length_replicate]; exact hn) hi]
  unfold curve
  rw [hfl, h1, Res.bind_ok, h3 h4]
  rfl

/-- The presentation of the field with 2 elements. -/
def repTwo : FqRep (ZMod 2) 2 1 where
  prime := by decide
  pos := by decide
  card_eq := by decide
  coeff a _ := a.val
  coeff_lt a _ := ZMod.val_lt a
  coeff_ext a b h := ZMod.val_injective 2 (h 0 (by decide))
  coeff_add a b i _ := ZMod.val_add a b
  coeff_one i hi := by
    obtain rfl : i = 0 := by omega
    decide

/-- The table of elements of the field with 2 elements, as built by the constructor. -/
def tableTwo : FqElementTable (ZMod 2) := ⟨2, 1, 2, 1, [1, 0]⟩
/-- The reduction table of the field with 2 elements, as built by the constructor. -/
def reductionTwo : ReductionTable := ⟨2, 1, 2, 1, [0, 0], [1, 0], false⟩

theorem primitive_two : Primitive (1 : ZMod 2) := by
  refine ⟨by decide, fun x hx => ⟨0, ?_⟩⟩
  revert x
  decide

theorem built_two : BuiltFqTable 2 1 1 tableTwo :=
  ⟨⟨repTwo⟩, fun _ => 1, 0, 1, ⟨primitive_two, by intro j hj; omega⟩, by intro j hj; omega, rfl, rfl⟩

theorem reduction_two : BuiltReductionTable 2 1 (1 : ZMod 2) reductionTwo :=
  ⟨repTwo, fun _ => 1, 0, 1, false, ⟨primitive_two, by intro j hj; omega⟩, rfl, by decide⟩

/-- The curve returned for the coefficients 1 0 0 1. -/
def curveTwo : Curve (ZMod 2) := ⟨tableTwo, [0, 1, 1, 0], [(1, (2, 2))]⟩

/-- C55: the field size 2 is accepted, and the numbers printed are wrong.  For `y² = x³ + 1` the program reports 2 points
with `y ≠ 0` and 2 with `y = 0` (and offset -1); there are 1 and 2. -/
theorem C55_two {w : World (ZMod 2)} (hc : w.flint.coeff = repTwo.coeff) (ht : w.table = tableTwo)
    (hr : w.reduction false 1 = reductionTwo) :
    let f : (ZMod 2)[X] := polyOfList ([1, 0, 0, 1] : List (ZMod 2))
    main w ⟨false, some 2, some [1, 0, 0, 1], false, false, false⟩ =
      .ok (0, report 2 [1, 0, 0, 1] [0, 1, 1, 0] [(2, 2)] [-1] [1, 1, 2]) ∧
    unramifiedPoints f = 1 ∧ ramifiedPoints f = 2 := by
  intro f
  refine ⟨?_, ?_, ?_⟩
  · rw [main_eq w (p := 2) (cs := [1, 0, 0, 1]) rfl rfl rfl (by decide) (by decide) (by decide)]
    have h1 : curve w .cpu 2 [1, 0, 0, 1] = .ok curveTwo := by
      unfold curve
      rw [hc, ht, show exponents repTwo.coeff tableTwo 2 [1, 0, 0, 1] = .ok [0, 1, 1, 0] by decide, Res.bind_ok,
        show Curve.make tableTwo [0, 1, 1, 0] = .ok ⟨tableTwo, [0, 1, 1, 0], []⟩ from rfl, Res.bind_ok]
      show ([1] : List Nat).foldlM (countWith w .cpu) _ = _
      rw [List.foldlM_cons, countWith, hr]
      rfl
    have h2 : GoodCurve 2 1 curveTwo := ⟨rfl, rfl, by decide, by decide, by decide, by decide, by decide⟩
    have h3 : (Options.implementation ⟨false, some 2, some [1, 0, 0, 1], false, false, false⟩) = .cpu := rfl
    rw [h3, h1, Res.bind_ok, output_ok (g := 1) (by rw [ht]; exact built_two) (by rw [hr]; exact ⟨rfl, rfl⟩) h2 ht.symm
      (vs := [1, 0, 0, 1]) (by rw [hc]; decide) (points := [(2, 2)]) (offsets := [-1]) (ramification := [1, 1, 2])
      (by decide) (by decide) (by rfl)]
    rfl
  all_goals
    have hev : ∀ x, f.eval x = 1 + x ^ 3 := by
      intro x
      show (polyOfList _).eval x = _
      simp only [polyOfList, eval_add, eval_C, eval_mul, eval_X, eval_zero]
      ring
    have hdeg : f.natDegree = 3 := natDegree_polyOfList (a := 1) rfl (by decide)
    have hco : f.coeff (2 * halfDegree f) = 0 := by
      rw [halfDegree, hdeg, coeff_polyOfList]
      rfl
  · unfold unramifiedPoints
    simp only [hev, hco]
    rw [Nat.card_eq_fintype_card, Nat.card_eq_fintype_card]
    decide
  · unfold ramifiedPoints
    simp only [hev, hco]
    rw [Nat.card_eq_fintype_card, Nat.card_eq_fintype_card]
    decide

/-! ### Examples -/

/-- The hypotheses of `C55_prints` are met over the field with 3 elements for polynomials of degree up to 6. -/
example : ∃ (rep : FqRep (ZMod 3) 3 1) (g : ZMod 3) (w : World (ZMod 3)) (E : Nat → Extension (ZMod 3)),
    w.Ok 3 rep g E 2 := by
  obtain ⟨g, table, E, gK, rt, h1, h2⟩ := extensions_three
  obtain ⟨rep⟩ := h1.rep
  obtain ⟨fl, hfl⟩ := exists_flint rep
  have hn : ∀ k, 0 < k → k ≤ 2 → NaiveOk 3 g ⟨(E k).K, inferInstance, inferInstance, gK k⟩ k := by
    intro k hk hk2
    obtain ⟨h3, _, _, _, h4, _⟩ := (h2 k hk hk2).facts (by decide) h1
    exact ⟨inferInstance, (E k).ι, by rw [mul_one] at h4; exact h4, h3.primK, h3.gens⟩
  refine ⟨rep, g, ⟨fl, table, fun _ => rt, fun k => ⟨(E k).K, inferInstance, inferInstance, gK k⟩,
    fun k => ⟨(E k).K, inferInstance, inferInstance, gK k⟩⟩, E, hfl, h1, ?_, ?_, fun _ => ⟨gK, h2⟩, hn, hn⟩
  · have := rep.coeff_lt g 0
    omega
  · obtain ⟨_, _, h3, h4, _⟩ := (h2 1 (by decide) (by decide)).facts (by decide) h1
    exact ⟨h3, h4⟩

set_option maxRecDepth 4000 in
/-- The polynomial `x³ + x` over the field with 7 elements: what is printed. -/
example : report 7 [0, 1, 0, 1] [6, 0, 6, 0] [(6, 2)] [0] [1, 1, 2] =
    ("Y^2 = (1)*X^3 + (0)*X^2 + (1)*X^1 + (0)*X^0  /  F_7\n" ++
    "coefficient exponents: 6 0 6 0 \n" ++
    "number of points: 6 2;  \n" ++
    "hasse-weil offsets: 0;  \n" ++
    "ramification type: 1,1,2,\n").toList := by decide

/-- The field size 8 and a single coefficient are rejected. -/
example (w : World (ZMod 3)) :
    main w ⟨false, some 8, some [1, 0, 0, 1], false, false, false⟩ = .ok (1, []) ∧
    main w ⟨false, some 3, some [1], false, false, false⟩ = .ok (1, []) := by
  have h8 : ¬ Nat.Prime 8 := by decide
  exact ⟨by simp [main, h8], by simp [main]⟩

end Single
end Hycu
