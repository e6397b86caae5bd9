import Verif.Lemmas.ComputeSum
import Verif.Lemmas.MpiSafe

/-!
The input of a run, from what is assumed about FLINT.
-/

namespace Hycu

open Fintype

/-- The polynomials that are asked for are determined by their coefficients. -/
theorem wanted_finite {F : Type} [Field F] [Fintype F] (E : Nat → Extension F) (m genus : Nat) (marked : Bool)
    (k : Key) : Finite {f : Polynomial F // Wanted genus marked f ∧ IsKey E m f k} ∧
      census E m genus marked k ≤ card F ^ (2 * genus + 3) := by
  have hinj : Function.Injective fun (f : {f : Polynomial F // Wanted genus marked f ∧ IsKey E m f k})
      (i : Fin (2 * genus + 3)) => f.1.coeff i := by
    rintro ⟨f, ⟨_, hf⟩, _⟩ ⟨f', ⟨_, hf'⟩, _⟩ h
    refine Subtype.ext (Polynomial.ext fun n => ?_)
    by_cases hn : n < 2 * genus + 3
    · exact congrFun h ⟨n, hn⟩
    · show f.coeff n = f'.coeff n
      rw [Polynomial.coeff_eq_zero_of_natDegree_lt (by omega), Polynomial.coeff_eq_zero_of_natDegree_lt (by omega)]
  refine ⟨Finite.of_injective _ hinj, ?_⟩
  refine (Nat.card_le_card_of_injective _ hinj).trans (le_of_eq ?_)
  rw [Nat.card_eq_fintype_card, Fintype.card_fun, Fintype.card_fin]

namespace Flint

variable {w : Flint} {c : ConfigNode}

/-- A bound for the numbers. -/
theorem Setting.count_le (s : w.Setting c) (k : Key) :
    s.count k ≤ (c.prime ^ c.primeExponent) ^ (2 * c.genus + 3) := by
  let _ := s.field
  let _ := s.fintype
  let _ := s.decEq
  obtain ⟨_, _, h, _⟩ := s.built.facts
  rw [← h]
  exact (wanted_finite s.E c.countExponent c.genus c.withMarkedPoint k).2

/-- The tables that are made. -/
theorem Setting.reductionTables_eq (s : w.Setting c) (hc : 0 < c.countExponent) :
    w.reductionTables c = .ok ((List.range c.countExponent).reverse.map fun j => s.rt (j + 1)) := by
  let _ := s.field
  let _ := s.fintype
  let _ := s.decEq
  obtain ⟨hp, hr, _⟩ := s.built.facts
  obtain ⟨_, _, _, _, h1, _⟩ := (s.builtExt c.countExponent hc le_rfl).facts s.odd s.built
  have h2 := (s.builtExt c.countExponent hc le_rfl).small
  rw [h1] at h2
  have h3 : c.countExponent * c.primeExponent < c.prime ^ (c.countExponent * c.primeExponent) :=
    Nat.lt_pow_self hp.one_lt
  unfold reductionTables
  rw [exponents_eq hr (by omega)]
  show List.mapM _ _ = _
  rw [List.mapM_map]
  refine mapM_ok _ fun j hj => ?_
  have := List.mem_range.1 (List.mem_reverse.1 hj)
  exact s.madeExt (j + 1) (by omega) (by omega)

/-- The blocks of a configuration and their results. -/
theorem Setting.result (s : w.Setting c) (hc : c.Feasible) (hs : ∀ k, s.count k < 4611686018427387904) :
    ∃ boxes, Terminates (w.blocks c) boxes ∧ boxes.Nodup ∧
      (∀ b ∈ boxes, b ≠ [] ∧ ∀ x ∈ b, x.1 < x.2 ∧ x.2 < 2147483648) ∧
      ∃ result : Block → StoreMap, (∀ b ∈ boxes, w.env.compute c b = .ok (result b) ∧
          ∀ e ∈ result b, 0 < e.2 ∧ e.1.Fits) ∧
        ∀ k, total (boxes.flatMap result) k = s.count k := by
  let _ := s.field
  let _ := s.fintype
  let _ := s.decEq
  obtain ⟨it, boxes, h1, h2, h3, h4, result, h5, h6⟩ := section_result s.odd s.built s.builtExt hc.count_pos s.flint
    (rts := (List.range c.countExponent).reverse.map fun j => s.rt (j + 1))
    ((List.reverse_perm _).map _) hc.genus_pos hc.genus_lt hc.degree_lt c.withMarkedPoint hc.package_pos hs
  refine ⟨boxes, ?_, h3, h4, result, fun b hb => ⟨?_, (h5 b hb).2⟩, h6⟩
  · obtain ⟨N, hN⟩ := h2
    refine ⟨N, fun n hn => ?_⟩
    unfold blocks
    rw [s.made]
    show (do
      let it ← CurveIterator.make s.table c.genus c.withMarkedPoint c.packageSize
      CurveIterator.visits CurveIterator.asBlock n it) = _
    rw [h1]
    exact hN n hn
  · show (do
      let table ← w.fqTable c.prime c.primeExponent
      let rts ← w.reductionTables c
      Compute.block (w.poly c.prime c.primeExponent) table rts b) = _
    rw [s.made, s.reductionTables_eq hc.count_pos]
    exact (h5 b hb).1

/-- The result of a block, if there is one. -/
def resultOf (w : Flint) (c : ConfigNode) (b : Block) : StoreMap :=
  match w.env.compute c b with
  | .ok m => m
  | _ => []

theorem resultOf_eq {b : Block} {m : StoreMap} (h : w.env.compute c b = .ok m) : w.resultOf c b = m := by
  unfold resultOf
  rw [h]

/-- The results of all blocks of a configuration. -/
theorem Setting.totals (s : w.Setting c) (hc : c.Feasible) (hs : ∀ k, s.count k < 4611686018427387904)
    {boxes : List Block} (hb : Terminates (w.blocks c) boxes) :
    boxes.Nodup ∧ (∀ b ∈ boxes, b ≠ [] ∧ (∀ x ∈ b, x.1 < x.2 ∧ x.2 < 2147483648) ∧
      w.env.compute c b = .ok (w.resultOf c b) ∧ ∀ e ∈ w.resultOf c b, 0 < e.2 ∧ e.1.Fits) ∧
      ∀ k, total (boxes.flatMap (w.resultOf c)) k = s.count k := by
  obtain ⟨boxes', h1, h2, h3, result, h4, h5⟩ := s.result hc hs
  obtain rfl := hb.unique h1
  have h6 : ∀ b ∈ boxes, w.resultOf c b = result b := fun b hb => resultOf_eq (h4 b hb).1
  refine ⟨h2, fun b hb => ⟨(h3 b hb).1, (h3 b hb).2, ?_, ?_⟩, fun k => ?_⟩
  · rw [h6 b hb]
    exact (h4 b hb).1
  · rw [h6 b hb]
    exact (h4 b hb).2
  · rw [← h5 k]
    congr 1
    exact List.flatMap_congr h6

/-- The results of a run. -/
theorem tasks {ss : List Run.Sect} (hw : ∀ s ∈ ss, ∃ t : w.Setting s.cfg, ∀ k, t.count k < 4611686018427387904)
    (hc : ∀ s ∈ ss, s.cfg.Feasible) (hb : ∀ s ∈ ss, Terminates (w.blocks s.cfg) s.blocks) :
    Run.Tasks w.env ss w.resultOf := by
  have h : ∀ s ∈ ss, ∃ t : w.Setting s.cfg, (∀ k, t.count k < 4611686018427387904) ∧ s.blocks.Nodup ∧
      (∀ b ∈ s.blocks, b ≠ [] ∧ (∀ x ∈ b, x.1 < x.2 ∧ x.2 < 2147483648) ∧
        w.env.compute s.cfg b = .ok (w.resultOf s.cfg b) ∧ ∀ e ∈ w.resultOf s.cfg b, 0 < e.2 ∧ e.1.Fits) ∧
      ∀ k, total (s.blocks.flatMap (w.resultOf s.cfg)) k = t.count k := by
    intro s hs
    obtain ⟨t, ht⟩ := hw s hs
    exact ⟨t, ht, t.totals (hc s hs) ht (hb s hs)⟩
  constructor
  · intro s hs
    obtain ⟨_, _, h1, _⟩ := h s hs
    exact h1
  · intro s hs b hb
    obtain ⟨_, _, _, h1, _⟩ := h s hs
    exact (h1 b hb).1
  · intro s hs b hb x hx
    obtain ⟨_, _, _, h1, _⟩ := h s hs
    have := (h1 b hb).2.1 x hx
    omega
  · intro s hs b hb
    obtain ⟨_, _, _, h1, _⟩ := h s hs
    exact (h1 b hb).2.2.1
  · intro s hs b hb e he
    obtain ⟨_, _, _, h1, _⟩ := h s hs
    exact ((h1 b hb).2.2.2 e he).2
  · intro s hs b hb e he
    obtain ⟨_, _, _, h1, _⟩ := h s hs
    exact Int.le_of_lt ((h1 b hb).2.2.2 e he).1
  · intro s hs k
    obtain ⟨t, ht, _, _, h1⟩ := h s hs
    have := ht k
    rw [h1 k]
    unfold Small
    omega

theorem input {ss : List Run.Sect} (hw : ∀ s ∈ ss, ∃ t : w.Setting s.cfg, ∀ k, t.count k < 4611686018427387904)
    (hc : ∀ s ∈ ss, s.cfg.Feasible) (hp : (ss.map fun s => s.cfg.resultPath).Nodup)
    (hb : ∀ s ∈ ss, Terminates (w.blocks s.cfg) s.blocks) : Run.Input w.env ss w.resultOf :=
  { tasks hw hc hb with paths := hp }

/-- What has been summed up are the numbers of polynomials. -/
theorem Setting.tally (s : w.Setting c) (hc : c.Feasible) (hs : ∀ k, s.count k < 4611686018427387904)
    {boxes : List Block} (hb : Terminates (w.blocks c) boxes) {m : StoreMap}
    (hm : Tally m (boxes.flatMap (w.resultOf c))) :
    OMap.Sorted m ∧ ∀ k z, (k, z) ∈ m ↔ 0 < z ∧ z = s.count k := by
  obtain ⟨_, h1, h2⟩ := s.totals hc hs hb
  refine ⟨hm.sorted, fun k z => ?_⟩
  rw [hm.entry k z, h2 k]
  refine ⟨fun h => ⟨?_, h.2⟩, fun h => ⟨?_, h.2⟩⟩
  · rw [h.2, ← h2 k]
    refine total_pos (fun e he => ?_) h.1
    obtain ⟨b, hb, he⟩ := List.mem_flatMap.1 he
    exact ((h1 b hb).2.2.2 e he).1
  · by_contra hn
    have h3 := h2 k
    rw [total_of_not_mem hn] at h3
    omega

end Flint
end Hycu
