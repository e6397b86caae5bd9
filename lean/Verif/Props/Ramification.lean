import Verif.Lemmas.Invariance
import Verif.Props.Count
import Verif.Spec.Key
import Verif.Lemmas.FlintExists
import Verif.Lemmas.KeyOrder
import Mathlib.FieldTheory.Separable

/-!
Properties C22, C23, C25, C26: ramification type and keys of curves.
-/

set_option linter.unusedSectionVars false

namespace Hycu

open Polynomial Fintype

variable {F : Type} [Field F] [Fintype F] [DecidableEq F]

/-! ### C23 -/

/-- `has_squarefree_rhs` decides whether the right hand side is squarefree. -/
theorem C49_squarefree {p r : Nat} {gF : F} {table : FqElementTable F} (hT : BuiltFqTable p r gF table)
    {rep : FqRep F p r} {fl : FlintPoly F} (hfl : FlintOk rep fl)
    {coeffs : List Nat} (hv : ∀ e ∈ coeffs, e < card F) (hlen : coeffs.length < 4294967296)
    {c : Curve F} (hc : Curve.make table coeffs = .ok c) :
    ∃ b, c.hasSquarefreeRhs fl = .ok b ∧
      (b = true ↔ Squarefree (polyOfList (coeffs.map (eltOf gF (card F))))) := by
  obtain ⟨_, _, _, _, h1, h2, _, h3, _⟩ := hT.facts
  obtain ⟨hgc, htab, _, hpoly⟩ := goodCurve_of_make h1 h2 h3 hv hlen hc gF
  rw [← hpoly]
  exact hasSquarefreeRhs_ok hT hfl hgc htab

/-- C23: for a squarefree right hand side, after counting over extensions of any degrees `ks` in any order
(in particular none), `ramification_type` is the ascending list of the degrees of the branch points. -/
theorem C23_ramification_type {p r : Nat} {gF : F} {table : FqElementTable F} {E : Nat → Extension F}
    {g : ∀ k, (E k).K} {rt : Nat → ReductionTable} (hp2 : p ≠ 2) (hT : BuiltFqTable p r gF table)
    {rep : FqRep F p r} {fl : FlintPoly F} (hfl : FlintOk rep fl)
    {coeffs : List Nat} (hv : ∀ e ∈ coeffs, e < card F) (hlen : coeffs.length < 4294967296)
    {c : Curve F} (hc : Curve.make table coeffs = .ok c)
    (hsf : Squarefree (polyOfList (coeffs.map (eltOf gF (card F)))))
    (hd : c.degree < 2147483648) (hdr : c.degree * r < 4294967296)
    {ks : List Nat} (hks : ks.Nodup) (hE : ∀ k ∈ ks, BuiltExtension p r gF E g rt k) :
    ∃ c' l, countAll c (ks.map rt) = .ok c' ∧ c'.ramificationType fl = .ok l ∧ l.Pairwise (· ≤ ·) ∧
      (l : Multiset Nat) = branchDegrees (polyOfList (coeffs.map (eltOf gF (card F)))) := by
  obtain ⟨_, hr, hF, _, h1, h2, _, h3, _⟩ := hT.facts
  obtain ⟨hgc, htab, hnew, hpoly⟩ := goodCurve_of_make h1 h2 h3 hv hlen hc gF
  rw [← hpoly] at hsf ⊢
  rw [degree_eq hgc.ne hgc.len] at hd hdr
  have hpos := List.length_pos_iff.2 hgc.ne
  obtain ⟨M, h4, h5, h6, h7⟩ := countAll_ok hp2 hT ks hks hE hgc (by rw [hnew]; exact OMap.sorted_nil)
    (by rw [hnew]; intro k _; simp [OMap.contains, OMap.find?])
  obtain ⟨l, h8, h9, h10⟩ := ramificationType_ok hT hfl (c := { c with nmbPoints := M }) (hgc.of_counted M) htab hsf
    (by simp only; omega) hdr (by
      intro k hk _ n hn
      simp only at hn
      by_cases hmem : k ∈ ks
      · rw [h6 k hmem] at hn
        obtain rfl := Option.some.inj hn
        obtain ⟨_, _, _, _, hcard, _⟩ := (hE k hmem).facts hp2 hT
        exact ramifiedPoints_eq (E k).ι (by rw [hcard, hF, ← pow_mul, Nat.mul_comm]) hsf
      · rw [h7 (k * r) (by
          intro j hj h
          exact hmem (Nat.eq_of_mul_eq_mul_right hr h ▸ hj)), hnew] at hn
        exact absurd hn (by simp [OMap.find?]))
  exact ⟨_, l, h4, h8, h9, h10⟩

/-! ### The key of a curve -/

/-- The key has only one value. -/
theorem IsKey.unique {E : Nat → Extension F} {m : Nat} {f h : F[X]} {k k' : Key} (h1 : IsKey E m f k)
    (h2 : IsKey E m h k') (hb : branchDegrees f = branchDegrees h)
    (hp : ∀ j, 0 < j → j ≤ m → unramifiedPoints (f.map (E j).ι) + ramifiedPoints (f.map (E j).ι) =
      unramifiedPoints (h.map (E j).ι) + ramifiedPoints (h.map (E j).ι)) : k = k' := by
  have e1 : k.ramification = k'.ramification := by
    apply List.Perm.eq_of_pairwise (le := (· ≤ ·)) (fun a b _ _ => Nat.le_antisymm) h1.ascending h2.ascending
    rw [← Multiset.coe_eq_coe, h1.ramification, h2.ramification, hb]
  have e2 : k.offsets = k'.offsets := by
    rw [h1.offsets, h2.offsets]
    apply List.map_congr_left
    intro j hj
    rw [hp (j + 1) (by omega) (by have := List.mem_range.1 hj; omega)]
  cases k
  cases k'
  simp only at e1 e2
  rw [e1, e2]

/-- After counting over the extensions of degree `1..m`, in any order, the key computed is the specified one. -/
theorem C50_key {p r : Nat} {gF : F} {table : FqElementTable F} {E : Nat → Extension F}
    {g : ∀ k, (E k).K} {rt : Nat → ReductionTable} {m : Nat} (hp2 : p ≠ 2) (hT : BuiltFqTable p r gF table)
    (hE : ∀ k, 0 < k → k ≤ m → BuiltExtension p r gF E g rt k)
    {rep : FqRep F p r} {fl : FlintPoly F} (hfl : FlintOk rep fl)
    {coeffs : List Nat} (hv : ∀ e ∈ coeffs, e < card F) (hlen : coeffs.length < 4294967296)
    {c : Curve F} (hc : Curve.make table coeffs = .ok c)
    (hsf : Squarefree (polyOfList (coeffs.map (eltOf gF (card F)))))
    (hd : c.degree < 2147483648) (hdr : c.degree * r < 4294967296)
    {ts : List ReductionTable} (hts : ts.Perm ((List.range m).map fun k => rt (k + 1))) :
    ∃ c' k, countAll c ts = .ok c' ∧ c'.coeffs = c.coeffs ∧ Key.ofCurve fl c' = .ok k ∧
      IsKey E m (polyOfList (coeffs.map (eltOf gF (card F)))) k := by
  obtain ⟨_, hr, hF, _, h1, h2, _, h3, _⟩ := hT.facts
  obtain ⟨hgc, htab, hnew, hpoly⟩ := goodCurve_of_make h1 h2 h3 hv hlen hc gF
  obtain ⟨c', h4, h5, h6, _, h7⟩ := C21_offsets hp2 hT hE hv hlen hc hts
  have hnd : ((List.range m).map (· + 1)).Nodup := List.nodup_range.map (fun a b h => by simpa using h)
  have hks : ∀ k ∈ (List.range m).map (· + 1), BuiltExtension p r gF E g rt k := by
    intro k hk
    obtain ⟨j, hj, rfl⟩ := List.mem_map.1 hk
    have := List.mem_range.1 hj
    exact hE _ (by omega) (by omega)
  obtain ⟨c'', l, h8, h9, h10, h11⟩ := C23_ramification_type hp2 hT hfl hv hlen hc hsf hd hdr hnd hks
  have hexp : ∀ k, 0 < k → k ≤ m → (rt k).primeExponent = k * r := fun k hk hkm =>
    ((hE k hk hkm).facts hp2 hT).2.2.2.1
  have h12 := countAll_perm hts.symm (by rw [hnew]; exact OMap.sorted_nil) (by
    intro s hs t ht hst
    obtain ⟨a, ha, rfl⟩ := List.mem_map.1 hs
    obtain ⟨b, hb, rfl⟩ := List.mem_map.1 ht
    have ha' := List.mem_range.1 ha
    have hb' := List.mem_range.1 hb
    rw [hexp _ (by omega) (by omega), hexp _ (by omega) (by omega)] at hst
    rw [Nat.eq_of_mul_eq_mul_right hr hst]) (by rw [List.map_map] at h8; exact h8)
  obtain rfl : c' = c'' := by rw [h4] at h12; exact Res.ok.inj h12
  refine ⟨c', ⟨l, _⟩, h4, h5, ?_, ⟨h10, h11, rfl⟩⟩
  unfold Key.ofCurve
  rw [h9, Res.bind_ok, h6, Res.bind_ok, h7, Res.bind_ok]
  rfl

/-! ### C25 -/

/-- C25: over every field, replacing `f(x)` by `c² f(bx+a)` changes neither the number of points with `y ≠ 0` nor
the one with `y = 0`, and not the degrees of the branch points. -/
theorem C25_points {K : Type} [Field K] (f : K[X]) {a b c : K} (hb : b ≠ 0) (hc : c ≠ 0) :
    unramifiedPoints (C (c ^ 2) * f.comp (C b * X + C a)) = unramifiedPoints f ∧
    ramifiedPoints (C (c ^ 2) * f.comp (C b * X + C a)) = ramifiedPoints f ∧
    (f ≠ 0 → branchDegrees (C (c ^ 2) * f.comp (C b * X + C a)) = branchDegrees f) :=
  ⟨(points_subst f hb hc).1, (points_subst f hb hc).2, fun h => branchDegrees_subst h hb hc⟩

/-- C25: the curves of `f(x)` and of `c² f(bx+a)` have the same numbers of points and the same key. -/
theorem C25_key_invariant {p r : Nat} {gF : F} {table : FqElementTable F} {E : Nat → Extension F}
    {g : ∀ k, (E k).K} {rt : Nat → ReductionTable} {m : Nat} (hp2 : p ≠ 2) (hT : BuiltFqTable p r gF table)
    (hE : ∀ k, 0 < k → k ≤ m → BuiltExtension p r gF E g rt k)
    {rep : FqRep F p r} {fl : FlintPoly F} (hfl : FlintOk rep fl)
    {coeffs coeffs' : List Nat} (hv : ∀ e ∈ coeffs, e < card F) (hlen : coeffs.length < 4294967296)
    (hv' : ∀ e ∈ coeffs', e < card F) (hlen' : coeffs'.length < 4294967296)
    {a b c : F} (hb : b ≠ 0) (hc : c ≠ 0)
    (hsub : polyOfList (coeffs'.map (eltOf gF (card F))) =
      C (c ^ 2) * (polyOfList (coeffs.map (eltOf gF (card F)))).comp (C b * X + C a))
    (hsf : Squarefree (polyOfList (coeffs.map (eltOf gF (card F)))))
    {cu cu' : Curve F} (hcu : Curve.make table coeffs = .ok cu) (hcu' : Curve.make table coeffs' = .ok cu')
    (hd : cu.degree < 2147483648) (hdr : cu.degree * r < 4294967296)
    {ts : List ReductionTable} (hts : ts.Perm ((List.range m).map fun k => rt (k + 1))) :
    ∃ d d', countAll cu ts = .ok d ∧ countAll cu' ts = .ok d' ∧
      d'.numberOfPoints (m * r) = d.numberOfPoints (m * r) ∧
      ∃ k, Key.ofCurve fl d = .ok k ∧ Key.ofCurve fl d' = .ok k := by
  obtain ⟨_, _, _, hg, h1, h2, _, h3, _⟩ := hT.facts
  obtain ⟨hgc, _, _, hpoly⟩ := goodCurve_of_make h1 h2 h3 hv hlen hcu gF
  obtain ⟨hgc', _, _, hpoly'⟩ := goodCurve_of_make h1 h2 h3 hv' hlen' hcu' gF
  have hdeg : cu'.degree = cu.degree := by
    rw [degree_eq hgc.ne hgc.len, degree_eq hgc'.ne hgc'.len, ← natDegree_rhs hg hgc, ← natDegree_rhs hg hgc',
      hpoly, hpoly', hsub, natDegree_subst _ hb hc]
  have hsf' : Squarefree (polyOfList (coeffs'.map (eltOf gF (card F)))) := by
    rw [hsub]; exact squarefree_subst hsf hb hc
  obtain ⟨d, k, h4, h5, h6, h7⟩ := C50_key hp2 hT hE hfl hv hlen hcu hsf hd hdr hts
  obtain ⟨d', k', h4', h5', h6', h7'⟩ := C50_key hp2 hT hE hfl hv' hlen' hcu' hsf' (by rw [hdeg]; exact hd)
    (by rw [hdeg]; exact hdr) hts
  have hpts : ∀ j, unramifiedPoints ((polyOfList (coeffs'.map (eltOf gF (card F)))).map (E j).ι) =
        unramifiedPoints ((polyOfList (coeffs.map (eltOf gF (card F)))).map (E j).ι) ∧
      ramifiedPoints ((polyOfList (coeffs'.map (eltOf gF (card F)))).map (E j).ι) =
        ramifiedPoints ((polyOfList (coeffs.map (eltOf gF (card F)))).map (E j).ι) := by
    intro j
    rw [hsub, map_subst]
    exact points_subst _ (by simpa using hb) (by simpa using hc)
  have hkk : k' = k := h7'.unique h7 (by rw [hsub]; exact branchDegrees_subst hsf.ne_zero hb hc)
    (fun j _ _ => by rw [(hpts j).1, (hpts j).2])
  refine ⟨d, d', h4, h4', ?_, k, h6, hkk ▸ h6'⟩
  obtain ⟨e, h8, _, _, h9, _⟩ := C21_offsets hp2 hT hE hv hlen hcu hts
  obtain ⟨e', h8', _, _, h9', _⟩ := C21_offsets hp2 hT hE hv' hlen' hcu' hts
  obtain rfl : d = e := by rw [h4] at h8; exact Res.ok.inj h8
  obtain rfl : d' = e' := by rw [h4'] at h8'; exact Res.ok.inj h8'
  rw [h9, h9']
  congr 1
  apply List.map_congr_left
  intro j _
  rw [(hpts (j + 1)).1, (hpts (j + 1)).2]

/-! ### C22 -/

/-- C22: twisting a key keeps the ramification type and negates the offsets at odd extension degrees (it is
undefined if one of these is `INT_MIN`); for keys with `int` offsets, twisting twice is the identity. -/
theorem C22_twist_key (k : Key) (hk : ∀ z ∈ k.offsets, -2147483648 ≤ z ∧ z < 2147483648) :
    ((∃ j, j % 2 = 0 ∧ k.offsets[j]? = some (-2147483648)) ∧ k.twist = .ub) ∨
    ∃ k', k.twist = .ok k' ∧ k'.ramification = k.ramification ∧ k'.offsets.length = k.offsets.length ∧
      (∀ (j : Nat) (z : Int), k.offsets[j]? = some z →
        k'.offsets[j]? = some (if j % 2 = 0 then -z else z)) ∧
      k'.twist = .ok k := by
  by_cases h : ∃ j, j % 2 = 0 ∧ k.offsets[j]? = some (-2147483648)
  · left
    refine ⟨h, ?_⟩
    cases ht : k.twist with
    | ub => rfl
    | ok k' =>
      obtain ⟨j, hj, hz⟩ := h
      exact absurd rfl ((twist_iff.1 ht).2 j _ hz hj)
    | abort => exact absurd ht (twist_ne k).1
    | diverge => exact absurd ht (twist_ne k).2
  · right
    refine ⟨⟨k.ramification, twistedOffsets k.offsets⟩, twist_iff.2 ⟨rfl, ?_⟩, rfl, ?_, ?_, ?_⟩
    · rintro j z hz hj rfl
      exact h ⟨j, hj, hz⟩
    · simp [twistedOffsets]
    · intro j z hz
      simp only [twistedOffsets, List.getElem?_mapIdx, hz, Option.map_some]
    · refine twist_iff.2 ⟨by simp only [twistedOffsets_twice], ?_⟩
      intro j z hz hj hz0
      simp only [twistedOffsets, List.getElem?_mapIdx, Option.map_eq_some_iff] at hz
      obtain ⟨x, hx, hxz⟩ := hz
      rw [if_pos hj] at hxz
      have := hk x (List.mem_of_getElem? hx)
      omega

/-- C22: for a non-square `ν`, the key of the curve of `ν f` is the twist of the key of the curve of `f`, and
conversely. -/
theorem C22_twisted_curve {p r : Nat} {gF : F} {table : FqElementTable F} {E : Nat → Extension F}
    {g : ∀ k, (E k).K} {rt : Nat → ReductionTable} {m : Nat} (hp2 : p ≠ 2) (hT : BuiltFqTable p r gF table)
    (hE : ∀ k, 0 < k → k ≤ m → BuiltExtension p r gF E g rt k)
    {rep : FqRep F p r} {fl : FlintPoly F} (hfl : FlintOk rep fl)
    {coeffs coeffs' : List Nat} (hv : ∀ e ∈ coeffs, e < card F) (hlen : coeffs.length < 4294967296)
    (hv' : ∀ e ∈ coeffs', e < card F) (hlen' : coeffs'.length < 4294967296)
    {ν : F} (hν : ¬ IsSquare ν)
    (htw : polyOfList (coeffs'.map (eltOf gF (card F))) = C ν * polyOfList (coeffs.map (eltOf gF (card F))))
    (hsf : Squarefree (polyOfList (coeffs.map (eltOf gF (card F)))))
    {cu cu' : Curve F} (hcu : Curve.make table coeffs = .ok cu) (hcu' : Curve.make table coeffs' = .ok cu')
    (hd : cu.degree < 2147483648) (hdr : cu.degree * r < 4294967296)
    {ts : List ReductionTable} (hts : ts.Perm ((List.range m).map fun k => rt (k + 1))) :
    ∃ d d' k k', countAll cu ts = .ok d ∧ countAll cu' ts = .ok d' ∧
      Key.ofCurve fl d = .ok k ∧ Key.ofCurve fl d' = .ok k' ∧ k.twist = .ok k' ∧ k'.twist = .ok k := by
  obtain ⟨hp, hr, hF, hg, h1, h2, _, h3, _⟩ := hT.facts
  have hν0 : ν ≠ 0 := by rintro rfl; exact hν ⟨0, by simp⟩
  have hchar : ringChar F ≠ 2 := by
    intro h
    have h5 := (FiniteField.even_card_iff_char_two).1 h
    obtain ⟨h6, _⟩ := odd_card_of hp hp2 hF hr
    omega
  obtain ⟨hgc, _, _, hpoly⟩ := goodCurve_of_make h1 h2 h3 hv hlen hcu gF
  obtain ⟨hgc', _, _, hpoly'⟩ := goodCurve_of_make h1 h2 h3 hv' hlen' hcu' gF
  have hdeg : cu'.degree = cu.degree := by
    rw [degree_eq hgc.ne hgc.len, degree_eq hgc'.ne hgc'.len, ← natDegree_rhs hg hgc, ← natDegree_rhs hg hgc',
      hpoly, hpoly', htw, natDegree_C_mul hν0]
  have hsf' : Squarefree (polyOfList (coeffs'.map (eltOf gF (card F)))) := by
    rw [htw]; exact squarefree_C_mul hsf hν0
  obtain ⟨d, k, h4, _, h6, h7⟩ := C50_key hp2 hT hE hfl hv hlen hcu hsf hd hdr hts
  obtain ⟨d', k', h4', _, h6', h7'⟩ := C50_key hp2 hT hE hfl hv' hlen' hcu' hsf' (by rw [hdeg]; exact hd)
    (by rw [hdeg]; exact hdr) hts
  have hbound : ∀ (f : F[X]) (k : Key), IsKey E m f k → ∀ z ∈ k.offsets, z ≠ -2147483648 := by
    intro f k hk z hz
    rw [hk.offsets] at hz
    obtain ⟨j, hj, rfl⟩ := List.mem_map.1 hz
    have hj' := List.mem_range.1 hj
    obtain ⟨h8, h9, _, _, h10, _⟩ := (hE (j + 1) (by omega) (by omega)).facts hp2 hT
    have h11 := points_le h8.primK h9 (f.map (E (j + 1)).ι)
    have h12 := (hE (j + 1) (by omega) (by omega)).small
    have h13 : card (E (j + 1)).K = card F ^ (j + 1) := by rw [h10, hF, ← pow_mul, Nat.mul_comm r]
    omega
  have hram : k'.ramification = k.ramification := by
    apply List.Perm.eq_of_pairwise (le := (· ≤ ·)) (fun a b _ _ => Nat.le_antisymm) h7'.ascending h7.ascending
    rw [← Multiset.coe_eq_coe, h7'.ramification, h7.ramification, htw, branchDegrees_C_mul hsf.ne_zero hν0]
  have hoff : k'.offsets = twistedOffsets k.offsets := by
    rw [h7.offsets, h7'.offsets, twistedOffsets]
    apply List.ext_getElem?
    intro j
    rw [List.getElem?_map, List.getElem?_mapIdx, List.getElem?_map]
    by_cases hj1 : j < m
    · rw [List.getElem?_range hj1]
      simp only [Option.map_some]
      obtain ⟨_, _, _, _, h10, _⟩ := (hE (j + 1) (by omega) (by omega)).facts hp2 hT
      have hcard : card (E (j + 1)).K = card F ^ (j + 1) := by rw [h10, hF, ← pow_mul, Nat.mul_comm r]
      obtain ⟨h11, h12⟩ := points_twist_extension (E (j + 1)).ι hchar hcard hν
        (polyOfList (coeffs.map (eltOf gF (card F))))
      rw [htw]
      split
      · rename_i hj0
        have := h12 (by omega)
        rw [hcard] at this
        congr 1
        omega
      · rename_i hj0
        rw [h11 (by omega)]
    · rw [List.getElem?_eq_none (by simpa using hj1)]
      rfl
  refine ⟨d, d', k, k', h4, h4', h6, h6', ?_, ?_⟩
  · rw [twist_ok (hbound _ _ h7), ← hram, ← hoff]
  · rw [twist_ok (hbound _ _ h7'), hoff, twistedOffsets_twice, hram]

/-! ### C26 -/

/-- C26: the comparison of keys is irreflexive, transitive and asymmetric; of two different keys exactly one is
smaller, so keys are equivalent exactly if they are equal. -/
theorem C26_key_order (a b c : Key) :
    Key.less a a = false ∧
    (Key.less a b = true → Key.less b c = true → Key.less a c = true) ∧
    (Key.less a b = true → Key.less b a = false) ∧
    (a ≠ b → Key.less a b = true ∨ Key.less b a = true) ∧
    ((Key.less a b = false ∧ Key.less b a = false) ↔ a = b) := by
  have hirr : ∀ a : Key, Key.less a a = false := fun a => LawfulLess.irrefl a
  have htot : Key.less a b = false → Key.less b a = false → a = b := fun h1 h2 => LawfulLess.total a b h1 h2
  refine ⟨hirr a, LawfulLess.trans a b c, fun h => LawfulLess.asymm (K := Key) h, ?_, ?_⟩
  · intro hne
    by_contra h
    rw [not_or] at h
    exact hne (htot (by simpa using h.1) (by simpa using h.2))
  · constructor
    · rintro ⟨h1, h2⟩; exact htot h1 h2
    · rintro rfl; exact ⟨hirr a, hirr a⟩

/-- C26 on keys that differ in the first, in the second field. -/
example : Key.less ⟨[1, 2], [5]⟩ ⟨[1, 3], [-4]⟩ = true ∧ Key.less ⟨[1, 2], [5]⟩ ⟨[1, 2], [-4, 0]⟩ = false ∧
    Key.less ⟨[1, 2], [-4, 0]⟩ ⟨[1, 2], [5]⟩ = true := by decide

/-! ### Non-trivial instances -/

/-- `y^2 = x^3 + x` over the field of 7 elements, counted over that field only: the branch points are `0`,
infinity and the two roots of `x^2 + 1`. -/
example : (do
    let t ← FqElementTable.make (fun _ => (3 : ZMod 7)) 7 1 1
    let rt ← ReductionTable.make rep7.coeff (fun _ => (3 : ZMod 7)) 7 1 false 1
    let c ← Curve.make t [6, 0, 6, 0]
    let c ← c.count rt
    Key.ofCurve ⟨rep7.coeff, fun _ => false, fun _ => false, fun _ => [], fun _ => []⟩ c) =
      .ok ⟨[1, 1, 2], [0]⟩ := by decide

example : Key.twist ⟨[1, 1, 2], [3, 4, -5]⟩ = .ok ⟨[1, 1, 2], [-3, 4, 5]⟩ ∧
    Key.twist ⟨[1], [-2147483648]⟩ = .ub := by decide

theorem squarefree_cubic {g : ZMod 3} (hg : g ≠ 0) : Squarefree (polyOfList [0, g, 0, 1]) := by
  have h : (polyOfList [0, g, 0, 1] : (ZMod 3)[X]) = C g * X + X ^ 3 := by
    simp only [polyOfList, map_zero, map_one, mul_zero, zero_add, add_zero]
    ring
  rw [h]
  apply Polynomial.Separable.squarefree
  rw [Polynomial.Separable]
  have hd : derivative (C g * X + X ^ 3) = C g := by
    rw [derivative_add, derivative_C_mul, derivative_X, derivative_X_pow]
    have : ((3 : Nat) : ZMod 3) = 0 := by decide
    rw [this]
    simp
  rw [hd]
  refine ⟨0, C g⁻¹, ?_⟩
  rw [zero_mul, zero_add, ← map_mul, inv_mul_cancel₀ hg, map_one]

/-- The hypotheses of C22, C23, C25 are met by the curve `y^2 = x^3 + g x` over the field of 3 elements and by
`y^2 = g x^3 + g^2 x`, with both extensions of degree at most 2, where `g` generates the field. -/
example : ∃ (gF : ZMod 3) (table : FqElementTable (ZMod 3)) (E : Nat → Extension (ZMod 3))
    (g : ∀ k, (E k).K) (rt : Nat → ReductionTable) (rep : FqRep (ZMod 3) 3 1) (fl : FlintPoly (ZMod 3))
    (c c' : Curve (ZMod 3)),
      BuiltFqTable 3 1 gF table ∧ (∀ k, 0 < k → k ≤ 2 → BuiltExtension 3 1 gF E g rt k) ∧ FlintOk rep fl ∧
      Curve.make table [2, 1, 2, 0] = .ok c ∧ Curve.make table [2, 0, 2, 1] = .ok c' ∧ c.degree = 3 ∧
      Squarefree (polyOfList ([2, 1, 2, 0].map (eltOf gF 3))) ∧ ¬ IsSquare gF ∧
      polyOfList ([2, 0, 2, 1].map (eltOf gF 3)) = C gF * polyOfList ([2, 1, 2, 0].map (eltOf gF 3)) := by
  obtain ⟨gF, table, E, g, rt, hT, hE⟩ := extensions_three
  obtain ⟨rep⟩ := hT.rep
  obtain ⟨fl, hfl⟩ := exists_flint rep
  obtain ⟨_, _, _, hg, _, _, _, h3, _⟩ := hT.facts
  have hz : table.zeroIndex = 2 := h3
  have hsq : ¬ IsSquare gF := by
    rintro ⟨s, rfl⟩
    obtain ⟨h0, h1⟩ := hg
    obtain ⟨n, hn⟩ := h1 2 (by decide)
    have : ∀ s : ZMod 3, s * s ≠ 0 → s * s = 1 := by decide
    rw [this s h0, one_pow] at hn
    exact absurd hn (by decide)
  have hsq2 : gF * gF = 1 := by
    have : ∀ s : ZMod 3, s ≠ 0 → s * s = 1 := by decide
    exact this gF hg.1
  have hmk : ∀ a b : Nat, b < 2 → Curve.make table [2, a, 2, b] =
      .ok { table := table, coeffs := [2, a, 2, b], nmbPoints := [] } := by
    intro a b hb
    unfold Curve.make
    rw [hz]
    have : ([2, a, 2, b] : List Nat).reverse = [b, 2, a, 2] := rfl
    rw [this]
    unfold Curve.strip
    rw [if_neg (by omega)]
    rfl
  refine ⟨gF, table, E, g, rt, rep, fl, _, _, hT, hE, hfl, hmk 1 0 (by decide), hmk 0 1 (by decide), ?_, ?_, hsq, ?_⟩
  · rfl
  · simp only [List.map_cons, List.map_nil, eltOf]
    exact squarefree_cubic (by simpa using hg.1)
  · simp only [List.map_cons, List.map_nil, eltOf, polyOfList]
    simp
    ring_nf
    rw [show (C gF ^ 2 : (ZMod 3)[X]) = 1 by rw [← map_pow, pow_two, hsq2, map_one]]
    ring

end Hycu
