import Mathlib.NumberTheory.LegendreSymbol.Basic
import Verif.Lemmas.MassMain
import Verif.Lemmas.CurveMisc
import Verif.Lemmas.Setting

/-!
From visited positions to polynomials, and from functions invariant under squares to functions invariant under
all multiples.
-/

namespace Hycu

open Polynomial Finset CurveIterator

set_option linter.unusedSectionVars false

/-! ### Twists -/

section Twist
variable {F : Type} [Field F] [Fintype F] {φ : F[X] → Nat} {ν : F}

theorem square_or_twist (ho : Fintype.card F % 2 = 1) (hν : ¬ IsSquare ν) {c : F} (hc : c ≠ 0) :
    (∃ s, s ≠ 0 ∧ c = s ^ 2) ∨ ∃ s, s ≠ 0 ∧ c = ν * s ^ 2 := by
  have hchar : ringChar F ≠ 2 := by
    intro h
    rw [FiniteField.even_card_iff_char_two] at h
    omega
  have hν0 : ν ≠ 0 := by rintro rfl; exact hν (IsSquare.zero)
  by_cases h : IsSquare c
  · obtain ⟨s, rfl⟩ := h
    exact Or.inl ⟨s, by rintro rfl; simp at hc, by ring⟩
  · right
    have h1 := (FiniteField.pow_dichotomy hchar hc).resolve_left
      (fun h' => h ((FiniteField.isSquare_iff hchar hc).2 h'))
    have h2 := (FiniteField.pow_dichotomy hchar hν0).resolve_left
      (fun h' => hν ((FiniteField.isSquare_iff hchar hν0).2 h'))
    obtain ⟨s, hs⟩ := (FiniteField.isSquare_iff hchar (div_ne_zero hc hν0)).2 (by
      rw [div_pow, h1, h2]; exact div_self (by simp))
    have hcs : c = ν * s ^ 2 := by
      field_simp at hs
      rw [hs]
    exact ⟨s, by rintro rfl; simp at hcs; exact hc hcs, hcs⟩

theorem fullInvariant_of (h : CurveInvariant φ) (ho : Fintype.card F % 2 = 1) (hν : ¬ IsSquare ν) :
    FullInvariant (fun f => φ f + φ (C ν * f)) := by
  have hν0 : ν ≠ 0 := by rintro rfl; exact hν (IsSquare.zero)
  constructor
  · intro f b
    have ht : ∀ f : F[X], φ (taylor b f) = φ f := by
      intro f
      have := h f b 1 1 one_ne_zero one_ne_zero
      simpa [taylor_apply] using this
    rw [ht, ← ht (C ν * f)]
    simp [taylor_apply]
  · intro f b c hb hc
    have hs : ∀ (f : F[X]) (s : F), s ≠ 0 → φ (C (s ^ 2) * f.comp (C b * X)) = φ f := by
      intro f s hs
      have := h f 0 b s hb hs
      simpa using this
    simp only [scale]
    rcases square_or_twist ho hν hc with ⟨s, hs0, rfl⟩ | ⟨s, hs0, rfl⟩
    · rw [hs f s hs0, ← hs (C ν * f) s hs0]
      congr 2
      simp; ring
    · rw [← hs (C ν * f) s hs0, ← hs f (ν * s) (mul_ne_zero hν0 hs0)]
      rw [add_comm]
      congr 2
      · simp; ring
      · simp; ring

theorem sum_twist (hν : ν ≠ 0) (d : Nat) :
    ∑ f ∈ polysOfDegree F d, (φ f + φ (C ν * f)) = 2 * ∑ f ∈ polysOfDegree F d, φ f := by
  rw [Finset.sum_add_distrib, two_mul]
  congr 1
  have hm : ∀ c : F, c ≠ 0 → ∀ f ∈ polysOfDegree F d, C c * f ∈ polysOfDegree F d := by
    intro c hc f hf
    obtain ⟨h1, h2⟩ := mem_polys'.1 hf
    refine mem_polys'.2 ⟨?_, ?_⟩
    · rw [coeff_C_mul]; exact mul_ne_zero hc h1
    · intro i hi; rw [coeff_C_mul, h2 i hi, mul_zero]
  refine Finset.sum_bij' (fun f _ => C ν * f) (fun f _ => C ν⁻¹ * f) (hm ν hν) (hm ν⁻¹ (inv_ne_zero hν)) ?_ ?_
    (fun _ _ => rfl)
  · intro f _
    rw [← mul_assoc, ← C_mul, inv_mul_cancel₀ hν, C_1, one_mul]
  · intro f _
    rw [← mul_assoc, ← C_mul, mul_inv_cancel₀ hν, C_1, one_mul]

end Twist

/-! ### Positions and polynomials -/

theorem kind_enumeratorArgs {F : Type} {t : FqElementTable F} {q d : Nat} (h : TableSize t q) (hd : 3 ≤ d)
    {A : Nat → Nat → Prop} (hA : Kind q t.prime d A) : ∃ a ∈ enumeratorArgs t d, ArgsOk a d A := by
  unfold enumeratorArgs
  cases hA with
  | large hp hm hl =>
    rename_i m l1
    refine ⟨largeCase t d m l1, ?_, largeCase_ok t h hm hl⟩
    rw [if_pos hp, List.mem_append]
    exact Or.inl (List.mem_flatMap.2 ⟨m, mem_down.2 ⟨by omega, by omega⟩,
      List.mem_map.2 ⟨l1, mem_down.2 ⟨by omega, by omega⟩, rfl⟩⟩)
  | mono hp =>
    refine ⟨largeMonomial t d, ?_, largeMonomial_ok t h⟩
    rw [if_pos hp, List.mem_append]
    exact Or.inr (List.mem_singleton.2 rfl)
  | div hp hdiv =>
    refine ⟨divCaseNonZero t d, ?_, divCase_ok t h hd⟩
    rw [if_neg (by omega), if_pos hdiv]
    exact List.mem_cons_self
  | square hp =>
    refine ⟨squareCase t d, ?_, squareCase_ok t h hd⟩
    rw [if_neg (by omega)]
    split
    · simp
    · simp

section
variable {F : Type} [Field F] [Fintype F] {g : F}

/-- The polynomial of a position. -/
noncomputable def idxPoly (g : F) (v : List Nat) : F[X] := polyOfList (v.map (eltOf g (Fintype.card F)))

theorem coeff_idxPoly {v : List Nat} {i x : Nat} (h : v[i]? = some x) :
    (idxPoly g v).coeff i = eltOf g (Fintype.card F) x := by
  rw [idxPoly, coeff_polyOfList, List.getD, List.getElem?_map, h]; rfl

theorem coeff_idxPoly_ge {v : List Nat} {i : Nat} (h : v.length ≤ i) : (idxPoly g v).coeff i = 0 := by
  rw [idxPoly, coeff_polyOfList, List.getD, List.getElem?_map, List.getElem?_eq_none h]; rfl

/-- The positions of degree `d`. -/
def PosOf (q p d : Nat) (v : List Nat) : Prop :=
  ∃ A, Kind q p d A ∧ v.length = d + 1 ∧ ∀ i x, v[i]? = some x → A i x

theorem PosOf.lt {q p d : Nat} (hq : 2 ≤ q) {v : List Nat} (h : PosOf q p d v) : ∀ x ∈ v, x < q := by
  obtain ⟨A, hA, hl, hv⟩ := h
  intro x hx
  obtain ⟨i, hi⟩ := List.mem_iff_getElem?.1 hx
  exact hA.lt hq (i := i) (by have := (List.getElem?_eq_some_iff.1 hi).1; omega) (hv i x hi)

theorem PosOf.top {q p d : Nat} (hq : 2 ≤ q) {v : List Nat} (h : PosOf q p d v) :
    ∃ x, v[d]? = some x ∧ x < q - 1 := by
  obtain ⟨A, hA, hl, hv⟩ := h
  have : v[d]? = some (v[d]'(by omega)) := List.getElem?_eq_getElem _
  exact ⟨_, this, hA.top hq (hv _ _ this)⟩

theorem PosOf.mem_enum {p d : Nat} (hg : Primitive g) {v : List Nat}
    (h : PosOf (Fintype.card F) p d v) : idxPoly g v ∈ enumPolys g p d := by
  have h2 := two_le_card (F := F)
  obtain ⟨x, hx, hlt⟩ := h.top h2
  have hlt' := h.lt h2
  obtain ⟨A, hA, hl, hv⟩ := h
  refine mem_fil.2 ⟨mem_polys'.2 ⟨?_, fun i hi => coeff_idxPoly_ge (by omega)⟩, A, hA, ?_⟩
  · rw [coeff_idxPoly hx, Ne, hg.eltOf_eq_zero]
    omega
  · intro i hi
    have hi' : v[i]? = some (v[i]'(by omega)) := List.getElem?_eq_getElem _
    exact ⟨_, hlt' _ (List.mem_of_getElem? hi'), (coeff_idxPoly hi').symm, hv _ _ hi'⟩

theorem exists_pos {p d : Nat} {f : F[X]} (hf : f ∈ enumPolys g p d) :
    ∃ v, PosOf (Fintype.card F) p d v ∧ idxPoly g v = f := by
  obtain ⟨hf, A, hA, hr⟩ := mem_fil.1 hf
  have : ∀ i, ∃ x, i < d + 1 → x < Fintype.card F ∧ eltOf g (Fintype.card F) x = f.coeff i ∧ A i x := by
    intro i
    by_cases hi : i < d + 1
    · obtain ⟨x, hx⟩ := hr i hi
      exact ⟨x, fun _ => hx⟩
    · exact ⟨0, fun h => absurd h hi⟩
  choose x hx using this
  have hget : ∀ i, i < d + 1 → ((List.range (d + 1)).map x)[i]? = some (x i) := by
    intro i hi
    rw [List.getElem?_map, List.getElem?_range hi]; rfl
  refine ⟨(List.range (d + 1)).map x, ⟨A, hA, by simp, ?_⟩, ?_⟩
  · intro i y hy
    have hi : i < d + 1 := by simpa using (List.getElem?_eq_some_iff.1 hy).1
    rw [hget i hi] at hy
    obtain rfl := Option.some.inj hy
    exact (hx i hi).2.2
  · ext i
    by_cases hi : i < d + 1
    · rw [coeff_idxPoly (hget i hi), (hx i hi).2.1]
    · rw [coeff_idxPoly_ge (by simp; omega), (mem_polys'.1 hf).2 i (by omega)]

theorem idxPoly_inj (hg : Primitive g) {v w : List Nat} (hl : v.length = w.length)
    (hv : ∀ x ∈ v, x < Fintype.card F) (hw : ∀ x ∈ w, x < Fintype.card F) (h : idxPoly g v = idxPoly g w) :
    v = w := by
  apply List.ext_getElem hl
  intro i h1 h2
  have hv' : v[i]? = some v[i] := List.getElem?_eq_getElem _
  have hw' : w[i]? = some w[i] := List.getElem?_eq_getElem _
  have := coeff_idxPoly (g := g) hv'
  rw [h, coeff_idxPoly hw'] at this
  exact (hg.eltOf_inj (hw _ (List.getElem_mem _)) (hv _ (List.getElem_mem _)) this).symm

/-- The sum over a list of positions is a sum over polynomials. -/
theorem sum_positions (hg : Primitive g) {p : Nat} {ds : List Nat} (hds : ds.Nodup) {L : List (List Nat)} (hL : L.Nodup)
    (hmem : ∀ v, v ∈ L ↔ ∃ d ∈ ds, PosOf (Fintype.card F) p d v) (H : F[X] → Nat) :
    (L.map fun v => H (idxPoly g v)).sum = (ds.map fun d => ∑ f ∈ enumPolys g p d, H f).sum := by
  classical
  have h2 := two_le_card (F := F)
  rw [← List.sum_toFinset _ hL, ← List.sum_toFinset _ hds, ← Finset.sum_biUnion]
  · refine Finset.sum_bij (fun v _ => idxPoly g v) ?_ ?_ ?_ (fun _ _ => rfl)
    · intro v hv
      obtain ⟨d, hd, hv⟩ := (hmem v).1 (List.mem_toFinset.1 hv)
      exact Finset.mem_biUnion.2 ⟨d, List.mem_toFinset.2 hd, hv.mem_enum hg⟩
    · intro v hv w hw he
      obtain ⟨d, _, hv⟩ := (hmem v).1 (List.mem_toFinset.1 hv)
      obtain ⟨e, _, hw⟩ := (hmem w).1 (List.mem_toFinset.1 hw)
      have h3 := (mem_polys.1 (mem_fil.1 (hv.mem_enum hg)).1).2
      have h4 := (mem_polys.1 (mem_fil.1 (hw.mem_enum hg)).1).2
      rw [he, h4] at h3
      subst h3
      refine idxPoly_inj hg ?_ (hv.lt h2) (hw.lt h2) he
      obtain ⟨_, _, h5, _⟩ := hv
      obtain ⟨_, _, h6, _⟩ := hw
      omega
    · intro f hf
      obtain ⟨d, hd, hf⟩ := Finset.mem_biUnion.1 hf
      obtain ⟨v, hv, hf⟩ := exists_pos hf
      exact ⟨v, List.mem_toFinset.2 ((hmem v).2 ⟨d, List.mem_toFinset.1 hd, hv⟩), hf⟩
  · intro d _ e _ hne
    simp only [Function.onFun]
    rw [Finset.disjoint_left]
    intro f hf hf'
    have h3 := (mem_polys.1 (mem_fil.1 hf).1).2
    have h4 := (mem_polys.1 (mem_fil.1 hf').1).2
    exact hne (h3.symm.trans h4)

/-- The curve of a position and its multiplicity. -/
theorem PosOf.curve (hg : Primitive g) {t : FqElementTable F} (hz : t.zeroIndex = Fintype.card F - 1)
    {p d : Nat} {v : List Nat} (h : PosOf (Fintype.card F) p d v) :
    ∃ c, Curve.make t v = .ok c ∧ c.table = t ∧ c.coeffs = v ∧ (idxPoly g v).natDegree = d ∧
      CurveIterator.multiplicity p (Fintype.card F) c.rhsSupport = polyMult p d (idxPoly g v) := by
  have h2 := two_le_card (F := F)
  obtain ⟨x, hx, hxlt⟩ := h.top h2
  have hlen : v.length = d + 1 := by obtain ⟨_, _, h, _⟩ := h; exact h
  obtain ⟨k, cs, h3, h4, h5, h6⟩ := make_curve t (cs := v) ⟨x, List.mem_of_getElem? hx, by omega⟩
  have hlast : v.getLast? = some x := by
    rw [List.getLast?_eq_getElem?, hlen]; exact hx
  have hk : k = 0 := by
    by_contra hk
    rw [h4, List.getLast?_append_of_ne_nil _ (by simpa using hk), List.getLast?_replicate, if_neg hk] at hlast
    have := Option.some.inj hlast
    omega
  subst hk
  simp only [List.replicate_zero, List.append_nil] at h4
  subst h4
  refine ⟨_, h3, rfl, rfl, (mem_polys.1 (mem_fil.1 (h.mem_enum hg)).1).2, ?_⟩
  unfold polyMult Curve.rhsSupport suppOf
  simp only [hlen, hz]
  congr 1
  apply List.filter_congr
  intro i hi
  have hi := List.mem_range.1 hi
  have hi' : v[i]? = some (v[i]'(by omega)) := List.getElem?_eq_getElem _
  rw [coeff_idxPoly hi', hi', decide_eq_decide, Ne, Ne, hg.eltOf_eq_zero, Option.some.injEq]

/-- All that is known about the visited positions. -/
theorem visited_spec [DecidableEq F] {p r : Nat} {table : FqElementTable F} (ht : BuiltFqTable p r g table) (hp2 : p ≠ 2)
    (hq : Fintype.card F ≤ 2147483648) {genus : Nat} (hg0 : 0 < genus) (hgen : genus < 1073741824) (marked : Bool)
    {package : Nat} (hpk : 0 < package) :
    ∃ it boxes Ls, make table genus marked package = .ok it ∧
      Terminates (fun n => visits asBlock n it) boxes ∧
      boxes.Pairwise (fun a b => ∀ v, ¬ (InBox a v ∧ InBox b v)) ∧ (∀ b ∈ boxes, ∃ v, InBox b v) ∧
      Terminates (fun n => allPositions n it) Ls ∧
      List.Forall₂ (fun b L => L.Nodup ∧ ∀ v, v ∈ L ↔ InBox b v) boxes Ls ∧
      Ls.flatten.Nodup ∧
      ∀ v, v ∈ Ls.flatten ↔ ∃ d ∈ degrees genus marked, PosOf (Fintype.card F) p d v := by
  obtain ⟨hp, hr, hcard, hprim, h1, h2, h3, h4, _⟩ := ht.facts
  have h2c := two_le_card (F := F)
  have hodd := odd_card_of hp hp2 hcard hr
  have hs : TableSize table (Fintype.card F) := ⟨h3, h4, h2c, hq⟩
  obtain ⟨it, boxes, Ls, a1, a2, a3, a4, a5, a6, a7, a8⟩ := make_spec hs (by omega) (by rw [h1]; exact hp.ne_zero)
    (by rw [h1]; exact hp2) hg0 hgen marked hpk
  refine ⟨it, boxes, Ls, a1, a2, a3, a4, a5, a6, a7, fun v => (a8 v).trans ?_⟩
  constructor
  · rintro ⟨a, ha, hv⟩
    obtain ⟨d, hd, ha⟩ := List.mem_flatMap.1 ha
    have := (mem_degrees hgen).1 hd
    obtain ⟨A, hA, hok⟩ := enumeratorArgs_kind hs (by omega) a ha
    rw [h1] at hA
    exact ⟨d, hd, A, hA, (hok.contains v).1 hv⟩
  · rintro ⟨d, hd, A, hA, hv⟩
    have := (mem_degrees hgen).1 hd
    rw [← h1] at hA
    obtain ⟨a, ha, hok⟩ := kind_enumeratorArgs hs (by omega) hA
    exact ⟨a, List.mem_flatMap.2 ⟨d, hd, ha⟩, (hok.contains v).2 hv⟩

end
end Hycu
