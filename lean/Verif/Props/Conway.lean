import Mathlib.Algebra.Polynomial.SpecificDegree
import Verif.Lemmas.Conway
import Verif.Lemmas.CensusField
import Verif.Props.EndToEnd

/-!
Property C57: the assumption that the generators of the tables match.  It holds for fields presented by Conway
polynomials, and the numbers of points may be wrong without it.
-/

namespace Hycu

open Polynomial Fintype

/-- C57: in fields presented by Conway polynomials, `fq_nmod_gen` is primitive, so that the search for a generator ends
with the first candidate, and the generators for a field and for an extension match for some embedding. -/
theorem C57_generators {p N r k : Nat} (hp : p.Prime) {C : Nat → (ZMod p)[X]} (h : IsConway p N C) (hr : 0 < r)
    (hk : 0 < k) (hn : k * r ≤ N) {F K : Type} [Field F] [Fintype F] [Algebra (ZMod p) F] [Field K] [Fintype K]
    [Algebra (ZMod p) K] (hF : card F = p ^ r) (hK : card K = p ^ (k * r)) {gF : F} {gK : K}
    (h1 : aeval gF (C r) = 0) (h2 : aeval gK (C (k * r)) = 0) :
    Primitive gF ∧ Primitive gK ∧ ∃ ι : F →+* K, GeneratorsMatch gF gK ι := by
  have : Fact p.Prime := ⟨hp⟩
  have hrN : r ≤ N := le_trans (Nat.le_mul_of_pos_left r hk) hn
  exact ⟨h.primitive_root hr hrN hF h1, h.primitive_root (Nat.mul_pos hk hr) hn hK h2,
    h.gens_match hr hk hn hF hK h1 h2⟩

/-- C57: if FLINT presents the fields of a configuration by Conway polynomials, everything is met that C47 assumes about
FLINT and the tables. -/
theorem C57_setting {w : Flint} {c : ConfigNode} (h : ConwayFlint w c) : Nonempty (w.Setting c) := by
  classical
  let _ := h.field
  let _ := h.fintype
  let _ := h.decEq
  let _ := h.algebra
  have hp : c.prime.Prime := (h.rep c.primeExponent h.exponent_pos).prime
  have : Fact c.prime.Prime := ⟨hp⟩
  have hcard : ∀ n, 0 < n → card (w.F c.prime n) = c.prime ^ n := fun n hn => (h.rep n hn).card_eq
  have hle : ∀ k, k ≤ c.countExponent → k * c.primeExponent ≤ c.countExponent * c.primeExponent :=
    fun k hk => Nat.mul_le_mul_right _ hk
  have hpos : ∀ k, 0 < k → 0 < k * c.primeExponent := fun k hk => Nat.mul_pos hk h.exponent_pos
  have first : ∀ n, 0 < n → n ≤ c.countExponent * c.primeExponent → FirstPrimitive (h.cand n) 0 := fun n h0 hn =>
    ⟨h.conway.primitive_root h0 hn (hcard n h0) (h.gen n h0 hn), fun j hj => absurd hj (Nat.not_lt_zero j)⟩
  have hr : c.primeExponent ≤ c.countExponent * c.primeExponent := Nat.le_mul_of_pos_left _ h.count_pos
  have match' : ∀ k, 0 < k → k ≤ c.countExponent → ∃ ι : w.F c.prime c.primeExponent →+* w.F c.prime (k * c.primeExponent),
      GeneratorsMatch (h.cand c.primeExponent 0) (h.cand (k * c.primeExponent) 0) ι := fun k h0 hk =>
    h.conway.gens_match h.exponent_pos h0 (hle k hk) (hcard _ h.exponent_pos) (hcard _ (hpos k h0))
      (h.gen _ h.exponent_pos hr) (h.gen _ (hpos k h0) (hle k hk))
  have hfit : card (w.F c.prime c.primeExponent) < 4294967296 := by
    have h1 := Nat.pow_le_pow_right hp.pos hr
    have h2 := h.small
    rw [hcard _ h.exponent_pos]
    omega
  obtain ⟨table, ht, _⟩ := C12_element_table (hcard _ h.exponent_pos) hfit (h.cand c.primeExponent) 0
    (first _ h.exponent_pos hr) (fun j hj => absurd hj (Nat.not_lt_zero j))
  have size : ∀ k, 0 < k → k ≤ c.countExponent → 2 < card (w.F c.prime (k * c.primeExponent)) ∧
      card (w.F c.prime (k * c.primeExponent)) ≤ c.prime ^ (c.countExponent * c.primeExponent) := by
    intro k h0 hk
    rw [hcard _ (hpos k h0)]
    exact ⟨(odd_card_of hp h.odd (hcard _ (hpos k h0)) (hpos k h0)).2.trans_eq (hcard _ (hpos k h0)),
      Nat.pow_le_pow_right hp.pos (hle k hk)⟩
  have tables : ∀ k, 0 < k → k ≤ c.countExponent → ∃ rt, w.reductionTable c.prime (k * c.primeExponent) = .ok rt ∧
      rt.opencl = h.opencl ∧ BuiltReductionTable c.prime (k * c.primeExponent) (h.cand (k * c.primeExponent) 0) rt := by
    intro k h0 hk
    have hs := size k h0 hk
    have := h.small
    obtain ⟨rt, h1, _, _, _, _, h2, _⟩ := C14_zech (h.rep _ (hpos k h0)) hs.1 (by omega) (h.cand (k * c.primeExponent)) 0
      (first _ (hpos k h0) (hle k hk)) h.opencl
    obtain ⟨M, hM⟩ := id h1
    exact ⟨rt, h.reductionTable _ (hpos k h0) rt h1, h2, ⟨h.rep _ (hpos k h0), h.cand _, 0, M, h.opencl,
      first _ (hpos k h0) (hle k hk), rfl, hM M le_rfl⟩⟩
  obtain ⟨M, hM⟩ := id ht
  -- the extension of degree 1 stands for the indices that are not used
  let idx : Nat → Nat := fun k => if 0 < k ∧ k ≤ c.countExponent then k else 1
  have hidx : ∀ k, 0 < idx k ∧ idx k ≤ c.countExponent := by
    intro k
    show 0 < (if _ then _ else _) ∧ (if _ then _ else _) ≤ _
    split
    · assumption
    · exact ⟨Nat.one_pos, h.count_pos⟩
  have hidx' : ∀ k, 0 < k → k ≤ c.countExponent → idx k = k := fun k h1 h2 => if_pos ⟨h1, h2⟩
  choose ι hι using fun k => match' (idx k) (hidx k).1 (hidx k).2
  choose rt h1 h2 h3 using fun k => tables (idx k) (hidx k).1 (hidx k).2
  refine ⟨⟨h.field _, h.fintype _, h.decEq _, h.rep _ h.exponent_pos, h.cand _ 0, table,
    fun k => ⟨w.F c.prime (idx k * c.primeExponent), h.field _, h.fintype _, h.decEq _, ι k⟩,
    fun k => h.cand (idx k * c.primeExponent) 0, rt, h.odd, h.fqTable table ht,
    ⟨⟨h.rep _ h.exponent_pos⟩, h.cand _, 0, M, first _ h.exponent_pos hr, fun j hj => absurd hj (Nat.not_lt_zero j), rfl,
      hM M le_rfl⟩, h.poly, fun k h4 h5 => ?_, fun k h4 h5 => ?_⟩⟩
  · have := h1 k
    rwa [hidx' k h4 h5] at this
  · have hs := size (idx k) (hidx k).1 (hidx k).2
    have hsm := h.small
    refine ⟨h4, ?_, hι k, lt_of_le_of_lt hs.2 hsm, fun ho => le_trans hs.2 (h.openclSmall ?_)⟩
    · exact Eq.mp (congrArg (fun e => BuiltReductionTable c.prime e (h.cand (idx k * c.primeExponent) 0) (rt k))
        (congrArg (· * c.primeExponent) (hidx' k h4 h5))) (h3 k)
    · rw [← h2 k]
      exact ho

/-- The counts of C47 are those over any fields of these sizes. -/
theorem Setting.count_eq {w : Flint} {c : ConfigNode} (s : w.Setting c)
    (A : FieldFamily c.prime c.primeExponent c.countExponent) (k : Key) :
    s.count k = A.count c.genus c.withMarkedPoint k := by
  let _ := s.field
  let _ := s.fintype
  let _ := s.decEq
  let _ := A.field
  let _ := A.fintype
  refine census_congr_fields (s.rep.card_eq.trans A.card_eq.symm) (fun j h0 hj => ?_) _ _ k
  obtain ⟨_, _, h⟩ := (s.builtExt j h0 hj).built.prime
  rw [h, A.card_ext j h0 hj]

/-- C57: the numbers of polynomials with given data depend on the prime and the exponents only. -/
theorem C57_independent {p r m : Nat} (A B : FieldFamily p r m) (genus : Nat) (marked : Bool) (k : Key) :
    A.count genus marked k = B.count genus marked k := by
  let _ := A.field
  let _ := A.fintype
  let _ := B.field
  let _ := B.fintype
  exact census_congr_fields (A.card_eq.trans B.card_eq.symm)
    (fun j h0 hj => (A.card_ext j h0 hj).trans (B.card_ext j h0 hj).symm) _ _ k

variable {w : Flint} {ss : List Run.Sect} {fs : FileSystem}

/-- C57: with Conway polynomials, C47 without further assumptions about the tables: after a complete run with one process,
the merger writes for every ramification type and all Hasse-Weil offsets the number of squarefree polynomials that have
them, over any field of the right size with any extensions of the right sizes. -/
theorem C57_threaded (hw : ∀ s ∈ ss, ConwayFlint w s.cfg)
    (A : ∀ s ∈ ss, FieldFamily s.cfg.prime s.cfg.primeExponent s.cfg.countExponent)
    (hc : ∀ s ∈ ss, s.cfg.Feasible)
    (hn : ∀ s hs k, (A s hs).count s.cfg.genus s.cfg.withMarkedPoint k < 4611686018427387904)
    (hp : (ss.map fun s => s.cfg.resultPath).Nodup)
    (hb : ∀ s ∈ ss, Terminates (w.blocks s.cfg) s.blocks) (hf : Run.Past w.env ss fs) {kinds : List Bool}
    (hk : kinds.length < 4294967296) {st : Run.State}
    (hr : Run.Reachable w.env (Run.initial kinds fs (Run.program ss)) st) (hpc : st.pc = .finished)
    (ht : st.todo = []) :
    ∀ s hs, ∃ d r m, st.fs s.cfg.resultPath = some d ∧
      Merger.merge d = .ok ⟨0, some (Store.print m, Record.print r)⟩ ∧ OMap.Sorted m ∧
      ∀ k z, (k, z) ∈ m ↔ 0 < z ∧ z = (A s hs).count s.cfg.genus s.cfg.withMarkedPoint k := by
  have hw' : ∀ s ∈ ss, w.Setting s.cfg := fun s hs => (C57_setting (hw s hs)).some
  intro s hs
  obtain ⟨d, r, m, h1, h2, h3, h4⟩ := C47_threaded hw' hc
    (fun s hs k => by rw [Setting.count_eq (hw' s hs) (A s hs)]; exact hn s hs k) hp hb hf hk hr hpc ht s hs
  exact ⟨d, r, m, h1, h2, h3, fun k z => by rw [h4 k z, Setting.count_eq (hw' s hs) (A s hs)]⟩

/-- C57: the same with several processes. -/
theorem C57_several (hw : ∀ s ∈ ss, ConwayFlint w s.cfg)
    (A : ∀ s ∈ ss, FieldFamily s.cfg.prime s.cfg.primeExponent s.cfg.countExponent)
    (hc : ∀ s ∈ ss, s.cfg.Feasible)
    (hn : ∀ s hs k, (A s hs).count s.cfg.genus s.cfg.withMarkedPoint k < 4611686018427387904)
    (hp : (ss.map fun s => s.cfg.resultPath).Nodup)
    (hb : ∀ s ∈ ss, Terminates (w.blocks s.cfg) s.blocks) (hf : Mpi.Past w.env ss fs) {kinds : List (List Bool)}
    (h0 : kinds ≠ []) (hk : ∀ k ∈ kinds, k.length < 4294967296) {st : Mpi.State}
    (hr : Mpi.Reachable w.env (Mpi.initial kinds fs (Run.program ss)) st) (hpc : st.pc = .finished)
    (ht : st.todo = []) :
    ∀ s hs, ∃ d r m, st.fs s.cfg.resultPath = some d ∧
      Merger.merge d = .ok ⟨0, some (Store.print m, Record.print r)⟩ ∧ OMap.Sorted m ∧
      ∀ k z, (k, z) ∈ m ↔ 0 < z ∧ z = (A s hs).count s.cfg.genus s.cfg.withMarkedPoint k := by
  have hw' : ∀ s ∈ ss, w.Setting s.cfg := fun s hs => (C57_setting (hw s hs)).some
  intro s hs
  obtain ⟨d, r, m, h1, h2, h3, h4⟩ := (C47_several hw' hc
    (fun s hs k => by rw [Setting.count_eq (hw' s hs) (A s hs)]; exact hn s hs k) hp hb hf h0 hk hr).2 hpc ht s hs
  exact ⟨d, r, m, h1, h2, h3, fun k z => by rw [h4 k z, Setting.count_eq (hw' s hs) (A s hs)]⟩

/-- Conway polynomials, and fields presented by them, exist for every configuration. -/
theorem exists_conwayFlint (c : ConfigNode) (hp : c.prime.Prime) (hp2 : c.prime ≠ 2) (h1 : 0 < c.primeExponent)
    (h2 : 0 < c.countExponent) (h3 : c.prime ^ (c.countExponent * c.primeExponent) ≤ 1073741824) (opencl : Bool) :
    ∃ w : Flint, Nonempty (ConwayFlint w c) := by
  classical
  have : Fact c.prime.Prime := ⟨hp⟩
  obtain ⟨C, hC⟩ := exists_conway c.prime (c.countExponent * c.primeExponent)
  let N := c.countExponent * c.primeExponent
  let fin : ∀ n, Fintype (GaloisField c.prime n) := fun n => .ofFinite _
  have hcard : ∀ n, 0 < n → card (GaloisField c.prime n) = c.prime ^ n := by
    intro n hn
    rw [← Nat.card_eq_fintype_card]
    exact GaloisField.card _ _ (by omega)
  let rep : ∀ n, 0 < n → FqRep (GaloisField c.prime n) c.prime n := fun n hn =>
    (exists_fqRep hp hn (hcard n hn)).some
  have hroot : ∀ n, ∃ g : GaloisField c.prime n, 0 < n → n ≤ N → aeval g (C n) = 0 := by
    intro n
    by_cases hn : 0 < n ∧ n ≤ N
    · obtain ⟨g, hg⟩ := hC.exists_root hn.1 hn.2 (hcard n hn.1)
      exact ⟨g, fun _ _ => hg⟩
    · exact ⟨0, fun h h' => absurd ⟨h, h'⟩ hn⟩
  choose g hg using hroot
  obtain ⟨fl, hfl⟩ := exists_flint (rep c.primeExponent h1)
  let outcome : ∀ {α : Type}, (Nat → Res α) → Res α := fun run =>
    if h : ∃ t, Terminates run t then .ok h.choose else .diverge
  have hout : ∀ {α : Type} (run : Nat → Res α) (t : α), Terminates run t → outcome run = .ok t := by
    intro α run t ht
    have h : ∃ t, Terminates run t := ⟨t, ht⟩
    show (if h : ∃ t, Terminates run t then Res.ok h.choose else .diverge) = _
    rw [dif_pos h, h.choose_spec.unique ht]
  refine ⟨⟨fun _ n => GaloisField c.prime n,
    fun _ r => if h : r = c.primeExponent then h ▸ fl else ⟨fun _ _ => 0, fun _ => false, fun _ => false, fun _ => [], fun _ => []⟩,
    fun p r => outcome (FqElementTable.make (fun _ => g r) p r),
    fun p n => if h : 0 < n then outcome (ReductionTable.make (rep n h).coeff (fun _ => g n) p n opencl) else .diverge⟩, ⟨?_⟩⟩
  exact {
    C := C
    conway := hC
    field := fun n => inferInstanceAs (Field (GaloisField c.prime n))
    fintype := fin
    decEq := fun n => Classical.decEq _
    algebra := fun n => inferInstanceAs (Algebra (ZMod c.prime) (GaloisField c.prime n))
    rep := rep
    cand := fun n _ => g n
    gen := hg
    odd := hp2
    exponent_pos := h1
    count_pos := h2
    opencl := opencl
    small := by omega
    openclSmall := fun _ => h3
    fqTable := fun t ht => hout _ t ht
    reductionTable := fun n h t ht => by
      show (if h : 0 < n then outcome (ReductionTable.make (rep n h).coeff (fun _ => g n) c.prime n opencl) else .diverge) = _
      rw [dif_pos h]
      exact hout _ t ht
    poly := by
      show FlintOk (rep c.primeExponent h1) (if h : c.primeExponent = c.primeExponent then h ▸ fl else _)
      rw [dif_pos rfl]
      exact hfl }

/-- Hypotheses of `C57_setting` for genus 2 over the field of 25 elements, with counts over extensions of degree at most
3. -/
example : ∃ w : Flint, Nonempty (ConwayFlint w ⟨5, 2, 2, false, 3, ['a'], 10⟩) :=
  exists_conwayFlint _ (by decide) (by decide) (by decide) (by decide) (by norm_num) false

/-- Fields as in `C57_threaded` and `C57_several` exist for every such configuration. -/
theorem exists_family {w : Flint} {c : ConfigNode} (h : ConwayFlint w c) :
    Nonempty (FieldFamily c.prime c.primeExponent c.countExponent) := by
  obtain ⟨s⟩ := C57_setting h
  let _ := s.field
  let _ := s.fintype
  let _ := s.decEq
  exact ⟨⟨w.F c.prime c.primeExponent, s.field, s.fintype, s.E, s.rep.card_eq, fun k h0 hk => by
    obtain ⟨_, _, h⟩ := (s.builtExt k h0 hk).built.prime
    exact h⟩⟩

/-! ### Without matching generators -/

/-- The count does not look at the elements in the table. -/
theorem count_elements {F : Type} (t : FqElementTable F) (es : List F) (coeffs : List Nat) {c c' : Curve F}
    (h : Curve.make t coeffs = .ok c) {rt : ReductionTable} (h' : c.count rt = .ok c') :
    ∃ d d', Curve.make { t with fqElements := es } coeffs = .ok d ∧ d.count rt = .ok d' ∧
      d'.nmbPoints = c'.nmbPoints := by
  unfold Curve.make at h
  obtain ⟨cs, h1, h2⟩ := Res.bind_eq_ok.1 h
  obtain rfl := Res.ok.inj h2
  refine ⟨⟨{ t with fqElements := es }, cs.reverse, []⟩, ⟨{ t with fqElements := es }, c'.coeffs, c'.nmbPoints⟩, ?_, ?_, rfl⟩
  · unfold Curve.make
    exact Res.bind_eq_ok.2 ⟨cs, h1, rfl⟩
  · rw [count_eq] at h' ⊢
    change (if rt.prime ≠ t.prime then Res.abort else _) = _ at h'
    show (if rt.prime ≠ t.prime then Res.abort else _) = _
    split at h'
    · cases h'
    · rename_i h3
      rw [if_neg h3]
      change (if OMap.contains [] rt.primeExponent = true then _ else _) = _ at h'
      show (if OMap.contains [] rt.primeExponent = true then _ else _) = _
      split at h'
      · rename_i h4
        rw [if_pos h4, ← Res.ok.inj h']
      · rename_i h4
        rw [if_neg h4]
        obtain ⟨n, h5, h6⟩ := Res.bind_eq_ok.1 h'
        rw [← Res.ok.inj h6]
        exact Res.bind_eq_ok.2 ⟨n, h5, rfl⟩

instance : Fact (Nat.Prime 5) := ⟨by decide⟩

/-- `x^3 + x^2 + a x + 1`. -/
noncomputable def cubic (a : ZMod 5) : (ZMod 5)[X] := polyOfList [1, a, 1, 1]

theorem cubic_eq (a : ZMod 5) : cubic a = X ^ 3 + X ^ 2 + C a * X + 1 := by
  simp [cubic, polyOfList]; ring

theorem cubic_degree (a : ZMod 5) : (cubic a).natDegree = 3 := by
  rw [cubic_eq]; compute_degree!

theorem cubic_irreducible : Irreducible (cubic 3) := by
  refine (irreducible_iff_roots_eq_zero_of_degree_le_three (by rw [cubic_degree]; decide) (by rw [cubic_degree])).2 ?_
  rw [Multiset.eq_zero_iff_forall_notMem]
  intro x hx
  have h := (mem_roots'.1 hx).2
  rw [IsRoot.def, cubic_eq] at h
  simp only [eval_add, eval_pow, eval_mul, eval_X, eval_C, eval_one] at h
  have : ∀ x : ZMod 5, x ^ 3 + x ^ 2 + 3 * x + 1 ≠ 0 := by decide
  exact this x h

theorem cubic_squarefree {a : ZMod 5} (ha : a = 2 ∨ a = 3) : Squarefree (cubic a) := by
  rcases ha with rfl | rfl
  · apply Separable.squarefree
    have h5 : (5 : (ZMod 5)[X]) = 0 := by
      have : (5 : ZMod 5) = 0 := by decide
      rw [← C_ofNat, this, C_0]
    refine ⟨2, 2 + X, ?_⟩
    rw [cubic_eq]
    simp only [derivative_add, derivative_X_pow, derivative_mul, derivative_C, derivative_X, derivative_one]
    simp only [map_ofNat, Nat.cast_ofNat]
    linear_combination (1 + 2 * X + 2 * X ^ 2 + X ^ 3) * h5
  · exact cubic_irreducible.squarefree

section
variable {K : Type} [Field K] [Fintype K]

theorem cubic_points (hK : card K = 25) (ι : ZMod 5 →+* K) :
    ramifiedPoints ((cubic 3).map ι) < ramifiedPoints ((cubic 2).map ι) := by
  have inf : ∀ a, ((cubic a).map ι).coeff (2 * halfDegree ((cubic a).map ι)) = 0 := by
    intro a
    rw [halfDegree, natDegree_map, cubic_degree]
    refine coeff_eq_zero_of_natDegree_lt ?_
    rw [natDegree_map, cubic_degree]
    decide
  unfold ramifiedPoints
  rw [inf, inf]
  refine Nat.add_lt_add_right ?_ _
  have h1 : IsEmpty {P : K × K // P.2 ^ 2 = ((cubic 3).map ι).eval P.1 ∧ P.2 = 0} := by
    constructor
    rintro ⟨⟨x, y⟩, h1, h2⟩
    let _ := ι.toAlgebra
    have hroot : aeval x (cubic 3) = 0 := by
      simp only at h1 h2
      rw [h2, eval_map] at h1
      rw [aeval_def]
      exact h1.symm.trans (by simp)
    have hm : (minpoly (ZMod 5) x).natDegree = 3 := by
      have := minpoly.dvd (ZMod 5) x hroot
      have hass := (associated_of_dvd_dvd this ((minpoly.irreducible (Algebra.IsIntegral.isIntegral x)).dvd_symm
        cubic_irreducible this))
      rw [natDegree_eq_of_degree_eq (degree_eq_degree_of_associated hass), cubic_degree]
    have hd := minpoly.natDegree_le (A := ZMod 5) x
    have hf : 5 ^ Module.finrank (ZMod 5) K = 25 := by
      rw [← hK, Module.card_eq_pow_finrank (K := ZMod 5) (V := K), ZMod.card]
    have : 5 ^ 3 ≤ 5 ^ Module.finrank (ZMod 5) K := Nat.pow_le_pow_right (by decide) (hm ▸ hd)
    omega
  rw [Nat.card_of_isEmpty]
  have : Nonempty {P : K × K // P.2 ^ 2 = ((cubic 2).map ι).eval P.1 ∧ P.2 = 0} := by
    refine ⟨⟨(1, 0), ?_, rfl⟩⟩
    have h : (cubic 2).eval 1 = 0 := by
      rw [cubic_eq]
      simp only [eval_add, eval_pow, eval_mul, eval_X, eval_C, eval_one]
      decide
    have := eval_map_apply (p := cubic 2) (f := ι) (x := 1)
    rw [h, map_zero, map_one] at this
    rw [this]
    simp
  exact Nat.card_pos

end

theorem primitive_five (g : ZMod 5) : Primitive g ↔ g = 2 ∨ g = 3 := by
  constructor
  · rintro ⟨h0, h⟩
    obtain ⟨n, hn⟩ := h 2 (by decide)
    have : ∀ m : Nat, (1 : ZMod 5) ^ m ≠ 2 ∧ ((4 : ZMod 5) ^ m = 1 ∨ (4 : ZMod 5) ^ m = 4) := by
      intro m
      refine ⟨by rw [one_pow]; decide, ?_⟩
      induction m with
      | zero => left; rfl
      | succ m ih => rw [pow_succ]; rcases ih with h | h <;> rw [h] <;> decide
    have h1 := this n
    have hg : g = 0 ∨ g = 1 ∨ g = 2 ∨ g = 3 ∨ g = 4 := by
      have : ∀ g : ZMod 5, g = 0 ∨ g = 1 ∨ g = 2 ∨ g = 3 ∨ g = 4 := by decide
      exact this g
    rcases hg with rfl | rfl | rfl | rfl | rfl
    · exact absurd rfl h0
    · exact absurd hn.symm h1.1
    · exact .inl rfl
    · exact .inr rfl
    · rw [← hn] at h1
      exact absurd h1.2 (by decide)
  · have h : ∀ g : ZMod 5, g = 2 ∨ g = 3 → g ≠ 0 ∧ ∀ x : ZMod 5, x ≠ 0 → ∃ n < 4, g ^ n = x := by decide
    intro hg
    exact ⟨(h g hg).1, fun x hx => (h g hg).2 x hx |>.imp fun n hn => hn.2.symm⟩

/-- C57: if the generators do not match, the numbers of points may be wrong: for each generator of the field of 25 elements
some primitive element of the field of 5 elements and some squarefree cubic for which `count` ends with numbers other than
those of the points, for every embedding of the fields. -/
theorem C57_mismatch {K : Type} [Field K] [Fintype K] [DecidableEq K] (hK : card K = 5 ^ 2) {gK : K} {rt : ReductionTable}
    (hR : BuiltReductionTable 5 2 gK rt) (ho : rt.opencl = false) :
    ∃ (gF : ZMod 5) (coeffs : List Nat), Primitive gF ∧ ∀ table, BuiltFqTable 5 1 gF table →
      (∀ e ∈ coeffs, e < card (ZMod 5)) ∧ Squarefree (polyOfList (coeffs.map (eltOf gF (card (ZMod 5))))) ∧
      ∃ c c', Curve.make table coeffs = .ok c ∧ c.count rt = .ok c' ∧
        ∀ ι : ZMod 5 →+* K, c'.nmbPoints ≠ [(2, (unramifiedPoints ((polyOfList (coeffs.map (eltOf gF (card (ZMod 5))))).map ι),
          ramifiedPoints ((polyOfList (coeffs.map (eltOf gF (card (ZMod 5))))).map ι)))] := by
  have hchar : CharP K 5 := by
    obtain ⟨p, hp⟩ := CharP.exists K
    have hpp : p.Prime := CharP.char_is_prime K p
    have : Fact p.Prime := ⟨hpp⟩
    obtain ⟨n, _, h⟩ := FiniteField.card K p
    have : p ∣ 5 ^ 2 := by rw [← hK, h]; exact dvd_pow_self _ n.pos.ne'
    have := (Nat.prime_dvd_prime_iff_eq hpp (by decide)).1 (hpp.dvd_of_dvd_pow this)
    exact this ▸ hp
  let ι₀ : ZMod 5 →+* K := ZMod.castHom dvd_rfl K
  have h5 : card (ZMod 5) = 5 := ZMod.card 5
  obtain ⟨_, _, _, _, _, h6, _⟩ := hR.facts (by rw [hK]; decide)
  obtain ⟨g, hg, hm⟩ := exists_matching ι₀ (by rw [h5, hK]; decide) h6.tables.prim
  have hlist : ∀ a : ZMod 5, [0, 1, 0, 0].map (eltOf a (card (ZMod 5))) = [1, a, 1, 1] := by
    intro a; rw [h5]; simp [eltOf]
  have hval : ∀ e ∈ [0, 1, 0, 0], e < card (ZMod 5) := by rw [h5]; decide
  obtain ⟨g', hg', hne⟩ : ∃ g', (g' = 2 ∨ g' = 3) ∧ ∀ ι ι' : ZMod 5 →+* K,
      ramifiedPoints ((cubic g').map ι) ≠ ramifiedPoints ((cubic g).map ι') := by
    have e : ∀ (ι ι' : ZMod 5 →+* K), ι = ι' := fun ι ι' => Subsingleton.elim _ _
    rcases (primitive_five g).1 hg with rfl | rfl
    · refine ⟨3, .inr rfl, fun ι ι' => ?_⟩
      rw [e ι ι']
      exact (cubic_points (by rw [hK]; rfl) ι').ne
    · refine ⟨2, .inl rfl, fun ι ι' => ?_⟩
      rw [e ι ι']
      exact (cubic_points (by rw [hK]; rfl) ι').ne'
  refine ⟨g', [0, 1, 0, 0], (primitive_five g').2 hg', fun table ht => ⟨hval, ?_, ?_⟩⟩
  · rw [hlist]; exact cubic_squarefree hg'
  · obtain ⟨table', ht'⟩ := exists_built (F := ZMod 5) (p := 5) (r := 1) (by decide) (by decide) (by rw [h5]; rfl)
      (by rw [h5]; decide) hg
    obtain ⟨_, _, _, _, a1, a2, a3, a4, _⟩ := ht.facts
    obtain ⟨_, _, _, _, b1, b2, b3, b4, _⟩ := ht'.facts
    have htab : table = { table' with fqElements := table.fqElements } := by
      cases table; cases table'
      simp only at a1 a2 a3 a4 b1 b2 b3 b4
      subst a1 a2 a3 a4
      simp [b1, b2, b3, b4]
    obtain ⟨_, hmk⟩ := C24_degree_genus ht' [0, 1, 0, 0] hval (by decide)
    have hf : polyOfList ([0, 1, 0, 0].map (eltOf g (card (ZMod 5)))) = cubic g := by rw [hlist]; rfl
    obtain ⟨c, hc, _⟩ := hmk (by
      rw [hf]; intro h
      have := cubic_degree g
      rw [h] at this; simp at this)
    obtain ⟨c', hc', _, _, hpts⟩ := C17_count_points (p := 5) (r := 1) (e := 2) (by decide) ht' hR (by decide) hm
      (by rw [hK]; decide) (by rw [ho]; intro h; cases h) hval (by decide) hc ι₀
    obtain ⟨d, d', h1, h2, h3⟩ := count_elements table' table.fqElements [0, 1, 0, 0] hc hc'
    rw [htab]
    refine ⟨d, d', h1, h2, fun ι h => ?_⟩
    rw [h3, hpts, hf, hlist] at h
    simp only [List.cons.injEq, Prod.mk.injEq, true_and, and_true] at h
    exact hne ι ι₀ h.2.symm

/-- Hypotheses of `C57_mismatch`. -/
example : ∃ (gK : GaloisField 5 2) (rt : ReductionTable),
    @BuiltReductionTable (GaloisField 5 2) _ (Fintype.ofFinite _) 5 2 gK rt ∧ rt.opencl = false := by
  classical
  let _ := Fintype.ofFinite (GaloisField 5 2)
  have h : card (GaloisField 5 2) = 5 ^ 2 := by
    rw [← Nat.card_eq_fintype_card]; exact GaloisField.card 5 2 (by decide)
  obtain ⟨g, hg⟩ := exists_primitive (F := GaloisField 5 2)
  obtain ⟨rt, h1, h2⟩ := exists_built' (p := 5) (e := 2) (by decide) (by decide) h hg (by rw [h]; decide) (by rw [h]; decide)
  exact ⟨g, rt, h1, h2⟩

end Hycu
