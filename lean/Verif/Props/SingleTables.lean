import Verif.Spec.SingleTables
import Verif.Props.SingleMain
import Verif.Props.Range
import Verif.Lemmas.Conway
import Verif.Props.Conway

/-!
C81: `hycu-single` with the tables that it makes.
-/

set_option linter.unusedSectionVars false

namespace Hycu
namespace Single

open Fintype Polynomial

variable {F : Type} [Field F] [Fintype F] [DecidableEq F]
variable {p : Nat} {rep : FqRep F p 1} {w : Maker F} {E : Nat → Extension F}

theorem mainMaking_eq (w : Maker F) {o : Options} {p : Nat} {cs : List Nat} (hh : o.help = false)
    (hf : o.fieldSize = some p) (hc : o.coefficients = some cs) (hp : p.Prime) (hlen : 2 ≤ cs.length)
    (hi : o.implementations ≤ 1) : mainMaking w o = (do
      let c ← curveMaking w o.implementation p cs
      let text ← outputMaking w c
      pure (0, text)) := by
  unfold mainMaking
  rw [if_neg (by rw [hh]; decide), hf, hc]
  simp only
  rw [if_neg (by omega), if_neg (by rwa [not_not]), if_neg (by omega)]

namespace Maker.Presents

/-- The table of elements. -/
theorem table_ok (h : w.Presents p rep E) (hs : p < 4294967296) :
    ∃ t, w.table = .ok t ∧ BuiltFqTable p 1 (h.cand h.index) t := by
  have hcard := rep.card_eq
  obtain ⟨t, ht, _⟩ := C12_element_table hcard (by rw [hcard, pow_one]; exact hs) h.cand _ h.first h.nonzero
  obtain ⟨N, hN⟩ := ht
  exact ⟨t, h.table _ ⟨N, hN⟩, ⟨⟨rep⟩, h.cand, h.index, N, h.first, h.nonzero, rfl, hN N le_rfl⟩⟩

theorem table_large (h : w.Presents p rep E) (hs : 4294967296 ≤ p) : w.table = .ub :=
  h.table _ ⟨0, fun n _ => C12_too_large (by rw [pow_one]; exact hs) _ n⟩

/-- The reduction tables of fields that fit. -/
theorem reduction_ok (h : w.Presents p rep E) (hp2 : p ≠ 2) (b : Bool) {k : Nat} (hk : 0 < k)
    (hs : p ^ k ≤ 2147483648) :
    ∃ rt, w.reduction b k = .ok rt ∧ rt.prime = p ∧ rt.primeExponent = k ∧ rt.opencl = b ∧
      BuiltReductionTable p k (h.candK k (h.indexK k)) rt := by
  have hcard := (h.repK k hk).card_eq
  have h2 : 2 < card (E k).K := by
    have := (h.repK k hk).prime.two_le
    have h1 : p ^ 1 ≤ p ^ k := Nat.pow_le_pow_right (by omega) hk
    rw [pow_one] at h1
    rw [hcard]
    omega
  obtain ⟨rt, ⟨N, hN⟩, a2, a3, _, _, a6, _⟩ := C14_zech (h.repK k hk) h2 (by rw [hcard]; exact hs) (h.candK k) _
    (h.firstK k hk) b
  exact ⟨rt, h.reduction b k hk _ ⟨N, hN⟩, a2, a3, a6,
    ⟨⟨h.repK k hk, h.candK k, h.indexK k, N, b, h.firstK k hk, rfl, hN N le_rfl⟩⟩⟩

/-- The reduction tables of fields that do not fit. -/
theorem reduction_large (h : w.Presents p rep E) (b : Bool) {k : Nat} (hk : 0 < k) (hs : 2147483648 < p ^ k) :
    w.reduction b k = if 4294967296 ≤ p ^ k then .ub else .abort := by
  have hcard := (h.repK k hk).card_eq
  have big := C14_too_large (h.repK k hk) (by rw [hcard]; exact hs) (h.candK k) b
  split
  · rename_i h1
    exact h.reduction b k hk _ ⟨0, fun n _ => (big n).1 (by rw [hcard]; exact h1)⟩
  · rename_i h1
    exact h.reduction b k hk _ ⟨h.indexK k + 1, fun n hle =>
      (big n).2 (by rw [hcard]; omega) _ (h.firstK k hk) (by omega)⟩

end Maker.Presents

/-- The curve without its counts. -/
theorem make_genus {fl : FlintPoly F} (hfl : FlintOk rep fl) {g : F} {t : FqElementTable F} (hT : BuiltFqTable p 1 g t)
    (hsmall : (p - 1) * rep.coeff g 0 < 4294967296) {cs : List Nat} (hcs : ∀ c ∈ cs, c < p)
    (hlen : cs.length < 4294967296) (hdeg : 1 ≤ (polyOfList (cs.map fun c : Nat => (c : F))).natDegree) :
    ∃ es c, exponents fl.coeff t p cs = .ok es ∧ Curve.make t es = .ok c ∧
      c.genus = ((polyOfList (cs.map fun c : Nat => (c : F))).natDegree - 1) / 2 := by
  have h0 : polyOfList (cs.map fun c : Nat => (c : F)) ≠ 0 := by
    intro h
    rw [h, natDegree_zero] at hdeg
    omega
  obtain ⟨hp, _, hcard, hg, _, _, _, _, hat⟩ := hT.facts
  rw [pow_one] at hcard
  obtain ⟨es, h1, h2⟩ := C46_exponents rep hT hsmall cs
  have hlt : ∀ e ∈ es, e < card F := by
    intro e he
    obtain ⟨i, hi, rfl⟩ := List.getElem_of_mem he
    have := (List.forall₂_iff_get.1 h2).2 i (by rw [h2.length_eq]; exact hi) hi
    rw [hcard]
    exact this.1
  have hlen' : es.length < 4294967296 := by rw [← h2.length_eq]; exact hlen
  have hmap : es.map (eltOf g (card F)) = cs.map fun c : Nat => (c : F) := by
    clear h1 hlen h0 hdeg hlen'
    induction h2 with
    | nil => rfl
    | cons h _ ih =>
      rw [List.map_cons, List.map_cons, ih (fun c hc => hcs c (List.mem_cons_of_mem _ hc))
        fun e he => hlt e (List.mem_cons_of_mem _ he)]
      obtain ⟨h3, h4⟩ := h
      rw [hat _ (by omega), if_pos (hcs _ List.mem_cons_self)] at h4
      rw [Res.ok.inj h4]
  obtain ⟨_, h3⟩ := C24_degree_genus hT es hlt hlen'
  rw [hmap] at h3
  obtain ⟨c, h4, _, _, _, h5, _⟩ := h3 h0
  exact ⟨es, c, by rw [hfl.coeff_eq]; exact h1, h4, h5 hdeg⟩

/-- C81: if all fields fit and generators match, then `hycu-single` does what it does with given tables (C55); the tables
are made by their constructors. -/
theorem C81_fits (h : w.Presents p rep E) (hp2 : p ≠ 2) {cs : List Nat} (hcs : ∀ c ∈ cs, c < p)
    (hlen : cs.length < 4294967296) {o : Options} (hh : o.help = false) (hfs : o.fieldSize = some p)
    (hcf : o.coefficients = some cs) (hi : o.implementations ≤ 1) :
    let f : F[X] := polyOfList (cs.map fun c : Nat => (c : F))
    let m := (f.natDegree - 1) / 2
    let g := h.cand h.index
    1 ≤ f.natDegree → (p - 1) * rep.coeff g 0 < 4294967296 →
    p < 2147483648 → (∀ k, 0 < k → k ≤ m → p ^ k < 2147483647 ∧ (o.opencl → p ^ k ≤ 1073741824) ∧
      GeneratorsMatch g (h.candK k (h.indexK k)) (E k).ι ∧ NaiveOk p g (w.nmod k) k ∧ NaiveOk p g (w.zech k) k) →
    ∃ w' : World F, w'.Ok p rep g E m ∧ mainMaking w o = main w' o := by
  intro f m g hdeg hsmall hp hk
  obtain ⟨t, ht, hT⟩ := h.table_ok (by omega)
  have hprime := rep.prime
  -- the tables that are made
  have hred : ∀ b k, ∃ rt : ReductionTable, (0 < k → k ≤ max m 1 → w.reduction b k = .ok rt ∧ rt.prime = p ∧
      rt.primeExponent = k ∧ rt.opencl = b ∧ BuiltReductionTable p k (h.candK k (h.indexK k)) rt) := by
    intro b k
    by_cases h0 : 0 < k ∧ k ≤ max m 1
    · obtain ⟨h1, h2⟩ := h0
      have hs : p ^ k ≤ 2147483648 := by
        by_cases h3 : k ≤ m
        · have := (hk k h1 h3).1
          omega
        · obtain rfl : k = 1 := by omega
          rw [pow_one]; omega
      obtain ⟨rt, h3⟩ := h.reduction_ok hp2 b h1 hs
      exact ⟨rt, fun _ _ => h3⟩
    · exact ⟨⟨0, 0, 0, 0, [], [], false⟩, fun h1 h2 => absurd ⟨h1, h2⟩ h0⟩
  choose rt hrt using hred
  let w' : World F := ⟨w.flint, t, fun b => rt (b && o.opencl), w.nmod, w.zech⟩
  have hw : w'.Ok p rep g E m := by
    refine ⟨h.flint, hT, hsmall, ?_, ?_, fun k h1 h2 => (hk k h1 h2).2.2.2.1, fun k h1 h2 => (hk k h1 h2).2.2.2.2⟩
    · obtain ⟨_, h2, h3, _⟩ := hrt false 1 (by omega) (by omega)
      exact ⟨h2, h3⟩
    · intro b
      refine ⟨fun k => h.candK k (h.indexK k), fun k h1 h2 => ?_⟩
      obtain ⟨_, _, _, h5, h6⟩ := hrt (b && o.opencl) k h1 (by omega)
      have hcard := (h.repK k h1).card_eq
      refine ⟨h1, by rw [mul_one]; exact h6, (hk k h1 h2).2.2.1, by rw [hcard]; exact (hk k h1 h2).1, fun h7 => ?_⟩
      rw [hcard]
      refine (hk k h1 h2).2.1 ?_
      have h8 : (b && o.opencl) = true := h5.symm.trans h7
      exact (Bool.and_eq_true _ _ ▸ h8).2
  refine ⟨w', hw, ?_⟩
  have hlen2 : 2 ≤ cs.length := by
    have h1 : f.natDegree < (cs.map fun c : Nat => (c : F)).length := natDegree_lt hdeg
    rw [List.length_map] at h1
    omega
  rw [mainMaking_eq w hh hfs hcf hprime hlen2 hi, main_eq w' hh hfs hcf hprime hlen2 hi]
  obtain ⟨es, c', h4', h5', hgen⟩ := make_genus h.flint hT hsmall hcs hlen hdeg
  replace hgen : c'.genus = m := hgen
  have hcount : ∀ (l : List Nat), (∀ k ∈ l, 0 < k ∧ k ≤ m) → ∀ c : Curve F,
      l.foldlM (countMaking w o.implementation) c = l.foldlM (countWith w' o.implementation) c := by
    intro l
    induction l with
    | nil => intro _ c; rfl
    | cons k l ih =>
      intro hl c
      obtain ⟨h1, h2⟩ := hl k List.mem_cons_self
      have e : countMaking w o.implementation c k = countWith w' o.implementation c k := by
        cases himp : o.implementation with
        | cpu =>
          show (w.reduction false k >>= fun rt => c.count rt) = c.count (rt (false && o.opencl) k)
          rw [Bool.false_and, (hrt false k h1 (by omega)).1]
          rfl
        | opencl =>
          have ho : o.opencl = true := by
            unfold Options.implementation at himp
            split at himp
            · cases himp
            · split at himp
              · cases himp
              · split at himp
                · assumption
                · cases himp
          show (w.reduction true k >>= fun rt => c.count rt) = c.count (rt (true && o.opencl) k)
          rw [ho, Bool.true_and, (hrt true k h1 (by omega)).1]
          rfl
        | naiveNmod => rfl
        | naiveZech => rfl
      rw [List.foldlM_cons, List.foldlM_cons, e]
      congr 1
      funext c
      exact ih (fun k hk => hl k (List.mem_cons_of_mem _ hk)) c
  have hcurve : curveMaking w o.implementation p cs = curve w' o.implementation p cs := by
    unfold curveMaking curve
    rw [ht, Res.bind_ok, h4', Res.bind_ok, Res.bind_ok, h5', Res.bind_ok, Res.bind_ok]
    refine hcount _ (fun k hk => ?_) _
    obtain ⟨j, hj, rfl⟩ := List.mem_map.1 hk
    have := List.mem_range.1 (List.mem_reverse.1 hj)
    omega
  rw [hcurve]
  congr 1
  funext c
  have hout : outputMaking w c = output w' c := by
    have e1 : output w' c = output ⟨w.flint, c.table, fun _ _ => rt false 1, w.nmod, w.zech⟩ c := rfl
    rw [e1]
    unfold outputMaking
    rw [(hrt false 1 (by omega) (by omega)).1]
    cases hs : showCurve w.flint c with
    | ok a => rfl
    | _ => unfold output; rw [hs]; rfl
  rw [hout]

/-- C81: if the largest field of the counts does not fit, the implementations with tables end without having written
anything, or their behaviour is undefined. -/
theorem C81_too_large (h : w.Presents p rep E) {cs : List Nat} (hcs : ∀ c ∈ cs, c < p)
    (hlen : cs.length < 4294967296) {o : Options} (hh : o.help = false) (hfs : o.fieldSize = some p)
    (hcf : o.coefficients = some cs) (hi : o.implementations ≤ 1) (hn : o.naiveNmod = false ∧ o.naiveZech = false) :
    let f : F[X] := polyOfList (cs.map fun c : Nat => (c : F))
    let m := (f.natDegree - 1) / 2
    1 ≤ m → (p - 1) * rep.coeff (h.cand h.index) 0 < 4294967296 → 2147483648 < p ^ m →
    mainMaking w o = if 4294967296 ≤ p ^ m then .ub else .abort := by
  intro f m hm hsmall hbig
  have hdeg : 1 ≤ f.natDegree := by omega
  have hprime := rep.prime
  have hlen2 : 2 ≤ cs.length := by
    have h1 : f.natDegree < (cs.map fun c : Nat => (c : F)).length := natDegree_lt hdeg
    rw [List.length_map] at h1
    omega
  rw [mainMaking_eq w hh hfs hcf hprime hlen2 hi]
  by_cases hp : p < 4294967296
  · obtain ⟨t, ht, hT⟩ := h.table_ok hp
    obtain ⟨es, c, h4, h5, hgen⟩ := make_genus h.flint hT hsmall hcs hlen hdeg
    replace hgen : c.genus = m := hgen
    obtain ⟨n, hn'⟩ : ∃ n, m = n + 1 := ⟨m - 1, by omega⟩
    have himp : o.implementation = .cpu ∨ o.implementation = .opencl := by
      unfold Options.implementation
      rw [hn.1, hn.2]
      cases o.opencl
      · exact .inl rfl
      · exact .inr rfl
    have hcount : ∃ b, countMaking w o.implementation c m = (w.reduction b m >>= fun rt => c.count rt) := by
      rcases himp with e | e
      · exact ⟨false, by rw [e]; rfl⟩
      · exact ⟨true, by rw [e]; rfl⟩
    obtain ⟨b, hb⟩ := hcount
    unfold curveMaking
    rw [ht, Res.bind_ok, h4, Res.bind_ok, h5, Res.bind_ok, hgen, hn', List.range_succ, List.reverse_append,
      List.reverse_singleton, List.singleton_append, List.map_cons, List.foldlM_cons, ← hn', hb,
      h.reduction_large b hm hbig]
    split <;> rfl
  · have hle : p ≤ p ^ m := by
      have := Nat.pow_le_pow_right hprime.pos hm
      rwa [pow_one] at this
    unfold curveMaking
    rw [h.table_large (by omega), if_pos (by omega)]
    rfl

/-- C81: if `hycu-single` has printed everything, the field of `p` elements fits. -/
theorem C81_returns (h : w.Presents p rep E) {o : Options} (hh : o.help = false) (hfs : o.fieldSize = some p)
    {text : List Char} (hr : mainMaking w o = .ok (0, text)) : p ≤ 2147483648 := by
  by_contra hb
  unfold mainMaking at hr
  rw [if_neg (by rw [hh]; decide), hfs] at hr
  simp only at hr
  split at hr
  · cases hr
  split at hr
  · cases hr
  split at hr
  · cases hr
  split at hr
  · cases hr
  obtain ⟨c, _, hr⟩ := Res.bind_eq_ok.1 hr
  obtain ⟨t, hr, _⟩ := Res.bind_eq_ok.1 hr
  obtain ⟨_, _, hr⟩ := Res.bind_eq_ok.1 hr
  rw [h.reduction_large false one_pos (by rw [pow_one]; omega)] at hr
  split at hr <;> cases hr

/-- C81: without help, the exit code is 1 in the same cases as in C55, before any table is made, and with help it is 0;
nothing is written then. -/
theorem C81_rejects (w : Maker F) (o : Options) :
    ((∃ text, mainMaking w o = .ok (1, text)) ↔ o.help = false ∧
      ((¬ ∃ p, o.fieldSize = some p ∧ p.Prime) ∨ (¬ ∃ cs, o.coefficients = some cs ∧ 2 ≤ cs.length) ∨
        (o.naiveNmod && o.naiveZech || o.naiveNmod && o.opencl || o.naiveZech && o.opencl) = true)) ∧
    (∀ text, mainMaking w o = .ok (1, text) → text = []) ∧ (o.help = true → mainMaking w o = .ok (0, [])) := by
  rw [← and_assoc]
  refine ⟨?_, fun h => by unfold mainMaking; rw [if_pos h]⟩
  have himp : 1 < o.implementations ↔
      (o.naiveNmod && o.naiveZech || o.naiveNmod && o.opencl || o.naiveZech && o.opencl) = true := by
    unfold Options.implementations
    cases o.naiveNmod <;> cases o.naiveZech <;> cases o.opencl <;> simp
  rw [← himp]
  have key : ∀ r : Res (Curve F), ∀ text, (do
      let c ← r
      let text ← outputMaking w c
      pure (0, text) : Res (Nat × List Char)) ≠ .ok (1, text) := by
    intro r text h
    obtain ⟨c, _, h⟩ := Res.bind_eq_ok.1 h
    obtain ⟨t, _, h⟩ := Res.bind_eq_ok.1 h
    cases Res.ok.inj h
  unfold mainMaking
  cases o.help
  · rw [if_neg (by decide)]
    rcases o.fieldSize with _ | p
    · simp
    · rcases o.coefficients with _ | cs
      · simp
      · by_cases h1 : cs.length < 2
        · simp [h1]
        · by_cases h2 : p.Prime
          · by_cases h3 : 1 < o.implementations
            · simp [h1, h2, h3]
            · simp only [h1, h2, h3, if_false, not_true_eq_false]
              refine ⟨⟨fun ⟨t, h⟩ => absurd h (key _ _), ?_⟩, fun t h => absurd h (key _ _)⟩
              rintro ⟨_, h | h | h⟩
              · exact absurd ⟨p, rfl, h2⟩ h
              · exact absurd ⟨cs, rfl, by omega⟩ h
              · exact absurd h (by simp)
          · simp [h1, h2]
  · simp

/-! ### Non-trivial instances -/

/-- FLINT for a prime and all of its extensions, with generators that match up to the degree `M`. -/
theorem exists_presents (p M : Nat) [Fact p.Prime] : ∃ (rep : FqRep (ZMod p) p 1) (w : Maker (ZMod p))
    (E : Nat → Extension (ZMod p)) (h : w.Presents p rep E), ∀ k, 0 < k → k ≤ M →
      GeneratorsMatch (h.cand h.index) (h.candK k (h.indexK k)) (E k).ι ∧ NaiveOk p (h.cand h.index) (w.nmod k) k ∧
      NaiveOk p (h.cand h.index) (w.zech k) k := by
  classical
  have hp : p.Prime := Fact.out
  obtain ⟨C, hC⟩ := exists_conway p (M + 1)
  let fin : ∀ n, Fintype (GaloisField p n) := fun n => .ofFinite _
  have hcard : ∀ n, 0 < n → card (GaloisField p n) = p ^ n := by
    intro n hn
    rw [← Nat.card_eq_fintype_card]
    exact GaloisField.card _ _ (by omega)
  have hcard1 : card (ZMod p) = p ^ 1 := by rw [ZMod.card, pow_one]
  let rep : FqRep (ZMod p) p 1 := (exists_fqRep hp one_pos hcard1).some
  let repK : ∀ n, 0 < n → FqRep (GaloisField p n) p n := fun n hn => (exists_fqRep hp hn (hcard n hn)).some
  obtain ⟨g, hg⟩ := hC.exists_root one_pos (by omega) hcard1
  have hroot : ∀ n, ∃ g : GaloisField p n, Primitive g ∧ (0 < n → n ≤ M → aeval g (C n) = 0) := by
    intro n
    by_cases hn : 0 < n ∧ n ≤ M
    · obtain ⟨g, hg⟩ := hC.exists_root hn.1 (by omega) (hcard n hn.1)
      exact ⟨g, hC.primitive_root hn.1 (by omega) (hcard n hn.1) hg, fun _ _ => hg⟩
    · obtain ⟨g, hg⟩ := exists_primitive (F := GaloisField p n)
      exact ⟨g, hg, fun h h' => absurd ⟨h, h'⟩ hn⟩
  choose gK hgK using hroot
  obtain ⟨fl, hfl⟩ := exists_flint rep
  let E : Nat → Extension (ZMod p) := fun n => ⟨GaloisField p n, inferInstance, fin n, inferInstance, algebraMap _ _⟩
  have hg1 : Primitive g := hC.primitive_root one_pos (by omega) hcard1 hg
  have hm : ∀ k, 0 < k → k ≤ M → GeneratorsMatch g (gK k) (algebraMap (ZMod p) (GaloisField p k)) := by
    intro k h1 h2
    obtain ⟨_, _, ι, hι⟩ := C57_generators hp hC one_pos h1 (by omega) hcard1 (by rw [mul_one]; exact hcard k h1) hg
      (by rw [mul_one]; exact (hgK k).2 h1 h2)
    rwa [Subsingleton.elim (algebraMap (ZMod p) (GaloisField p k)) ι]
  let nf : Nat → NaiveField := fun k => ⟨GaloisField p k, inferInstance, inferInstance, gK k⟩
  have hn : ∀ k, 0 < k → k ≤ M → NaiveOk p g (nf k) k := fun k h1 h2 =>
    ⟨fin k, algebraMap _ _, hcard k h1, (hgK k).1, hm k h1 h2⟩
  refine ⟨rep, ⟨fl, outcome (FqElementTable.make (fun _ => g) p 1), fun b k => if h : 0 < k then
    outcome (ReductionTable.make (repK k h).coeff (fun _ => gK k) p k b) else .diverge, nf, nf⟩, E,
    ⟨hfl, fun _ => g, 0, ⟨hg1, fun j hj => absurd hj (Nat.not_lt_zero j)⟩, fun j hj => absurd hj (Nat.not_lt_zero j),
      fun r h => outcome_eq h, repK, fun k _ => gK k, fun _ => 0,
      fun k _ => ⟨(hgK k).1, fun j hj => absurd hj (Nat.not_lt_zero j)⟩, fun b k hk r h => ?_⟩, fun k h1 h2 =>
    ⟨hm k h1 h2, hn k h1 h2, hn k h1 h2⟩⟩
  show dite _ _ _ = r
  rw [dif_pos hk]
  exact outcome_eq h

theorem polyOfList_monomial (n : Nat) :
    polyOfList ((List.replicate n 0 ++ [1]).map fun c : Nat => (c : ZMod 3)) = X ^ n := by
  induction n with
  | zero => simp [polyOfList]
  | succ n ih =>
    rw [List.replicate_succ, List.cons_append, List.map_cons]
    simp only [polyOfList] at ih ⊢
    rw [ih]
    simp [pow_succ']

/-- The hypotheses of the theorems are met over the field of 3 elements by `y² = x^5`, whose fields fit; by `y² = x^41`
and `y² = x^43`, whose largest fields have `3^20` and `3^21` elements. -/
example : ∃ (rep : FqRep (ZMod 3) 3 1) (w : Maker (ZMod 3)) (E : Nat → Extension (ZMod 3)) (h : w.Presents 3 rep E)
    (w' : World (ZMod 3)), w'.Ok 3 rep (h.cand h.index) E 2 ∧
    mainMaking w ⟨false, some 3, some [0, 0, 0, 0, 0, 1], false, false, false⟩ =
      main w' ⟨false, some 3, some [0, 0, 0, 0, 0, 1], false, false, false⟩ ∧
    mainMaking w ⟨false, some 3, some (List.replicate 41 0 ++ [1]), false, false, false⟩ = .abort ∧
    mainMaking w ⟨false, some 3, some (List.replicate 43 0 ++ [1]), true, false, false⟩ = .ub := by
  have : Fact (Nat.Prime 3) := ⟨by decide⟩
  obtain ⟨rep, w, E, h, hm⟩ := exists_presents 3 2
  have hs : (3 - 1) * rep.coeff (h.cand h.index) 0 < 4294967296 := by
    have := rep.coeff_lt (h.cand h.index) 0
    omega
  have hdeg : ∀ n, (polyOfList ((List.replicate n 0 ++ [1]).map fun c : Nat => (c : ZMod 3))).natDegree = n := fun n => by
    rw [polyOfList_monomial, natDegree_X_pow]
  have hlt : ∀ n, ∀ c ∈ List.replicate n 0 ++ [1], c < 3 := by
    intro n c hc
    rcases List.mem_append.1 hc with h | h
    · rw [List.eq_of_mem_replicate h]; decide
    · rw [List.mem_singleton.1 h]; decide
  have h5 := C81_fits h (by decide) (hlt 5) (by decide) (o := ⟨false, some 3, some [0, 0, 0, 0, 0, 1], false, false, false⟩)
    rfl rfl rfl (by decide)
  have h41 := C81_too_large h (hlt 41) (by simp) (o := ⟨false, some 3, some (List.replicate 41 0 ++ [1]), false, false, false⟩)
    rfl rfl rfl (by decide) ⟨rfl, rfl⟩
  have h43 := C81_too_large h (hlt 43) (by simp) (o := ⟨false, some 3, some (List.replicate 43 0 ++ [1]), true, false, false⟩)
    rfl rfl rfl (by decide) ⟨rfl, rfl⟩
  simp only [hdeg] at h5 h41 h43
  obtain ⟨w', h6, h7⟩ := h5 (by decide) hs (by decide) fun k h1 h2 => by
    obtain ⟨h3, h4, h5⟩ := hm k h1 h2
    have : k = 1 ∨ k = 2 := by omega
    refine ⟨?_, ?_, h3, h4, h5⟩ <;> rcases this with rfl | rfl <;> decide
  exact ⟨rep, w, E, h, w', h6, h7, (h41 (by decide) hs (by norm_num)).trans (by norm_num),
    (h43 (by decide) hs (by norm_num)).trans (by norm_num)⟩

/-- The field size 9 and two implementations are rejected, whatever the constructors do. -/
example (w : Maker (ZMod 3)) : (∃ text, mainMaking w ⟨false, some 9, some [1, 0, 0, 1], false, false, false⟩ = .ok (1, text)) ∧
    (∃ text, mainMaking w ⟨false, some 3, some [1, 0, 0, 1], true, false, true⟩ = .ok (1, text)) :=
  ⟨(C81_rejects w _).1.2 ⟨rfl, .inl fun ⟨p, h, hp⟩ => by cases h; exact absurd hp (by decide)⟩,
    (C81_rejects w _).1.2 ⟨rfl, .inr (.inr rfl)⟩⟩

end Single
end Hycu
