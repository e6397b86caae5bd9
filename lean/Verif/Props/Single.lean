import Verif.Model.Single
import Verif.Props.Count

/-!
C46: the coefficients given on the command line.
-/

set_option linter.unusedSectionVars false

namespace Hycu

open Fintype Polynomial

variable {F : Type} [Field F] [Fintype F] [DecidableEq F]

namespace FqRep

variable {p : Nat} (rep : FqRep F p 1)

theorem coeff_natCast (n : Nat) : rep.coeff (n : F) 0 = n % p := by
  induction n with
  | zero => simpa using rep.coeff_zero (i := 0) (by decide)
  | succ n ih =>
    push_cast
    rw [rep.coeff_add _ _ 0 (by decide), ih, rep.coeff_one 0 (by decide), if_pos rfl, Nat.mod_add_mod]

theorem natCast_coeff (x : F) : ((rep.coeff x 0 : Nat) : F) = x := by
  apply rep.coeff_ext
  intro i hi
  obtain rfl : i = 0 := by omega
  rw [rep.coeff_natCast, Nat.mod_eq_of_lt (rep.coeff_lt x 0)]

theorem coeff_mul (x y : F) : rep.coeff (x * y) 0 = rep.coeff x 0 * rep.coeff y 0 % p := by
  conv_lhs => rw [← rep.natCast_coeff x, ← rep.natCast_coeff y, ← Nat.cast_mul, rep.coeff_natCast]

theorem coeff_inj {x y : F} (h : rep.coeff x 0 = rep.coeff y 0) : x = y := by
  rw [← rep.natCast_coeff x, ← rep.natCast_coeff y, h]

end FqRep

namespace Single

theorem conversionLoop_sorted (p gen : Nat) : ∀ (n ex a : Nat) (m : OMap Nat Nat), OMap.Sorted m →
    OMap.Sorted (conversionLoop p gen n ex a m)
  | 0, _, _, _, h => h
  | n + 1, _, _, _, h => conversionLoop_sorted p gen n _ _ _ (OMap.sorted_set h _ _)

/-- The map after the loop, if the values of `a` are `f ex`, `f (ex + 1)`, … -/
theorem conversionLoop_find (p gen N : Nat) (f : Nat → Nat)
    (hf : ∀ j, j + 1 < N → f (j + 1) = u32 (f j * gen) % p)
    (hinj : ∀ i j, i < N → j < N → f i = f j → i = j) : ∀ (n ex a : Nat) (m : OMap Nat Nat), OMap.Sorted m →
    ex + n = N → (0 < n → a = f ex) →
    (∀ i, ex ≤ i → i < N → (conversionLoop p gen n ex a m).find? (f i) = some i) ∧
    ∀ c, (∀ i, ex ≤ i → i < N → c ≠ f i) → (conversionLoop p gen n ex a m).find? c = m.find? c
  | 0, ex, a, m, hs, hN, ha => ⟨by intro i h1 h2; omega, fun c _ => rfl⟩
  | n + 1, ex, a, m, hs, hN, ha => by
    obtain rfl := ha (by omega)
    obtain ⟨h1, h2⟩ := conversionLoop_find p gen N f hf hinj n (ex + 1) (u32 (f ex * gen) % p) (m.set (f ex) ex)
      (OMap.sorted_set hs _ _) (by omega) (fun h => (hf ex (by omega)).symm)
    refine ⟨?_, ?_⟩
    · intro i hi hi2
      rcases Nat.eq_or_lt_of_le hi with rfl | h
      · rw [conversionLoop, h2 _ fun j hj hj2 he => by have := hinj _ _ hi2 hj2 he; omega]
        exact OMap.find?_set_self hs _ _
      · exact h1 i h hi2
    · intro c hc
      rw [conversionLoop, h2 _ fun j hj hj2 => hc j (by omega) hj2]
      exact OMap.find?_set_of_ne hs (hc ex le_rfl (by omega)) _

end Single

/-- C46: let the table for a prime `p` be built with generator `g`, and let `(p - 1) * g` fit 32 bits.  The
coefficients that are below `p` are turned into the indices of their residues in the table; all others are turned
into the index of 1. -/
theorem C46_exponents {p : Nat} (rep : FqRep F p 1) {g : F} {table : FqElementTable F}
    (hT : BuiltFqTable p 1 g table) (hsmall : (p - 1) * rep.coeff g 0 < 4294967296) (cs : List Nat) :
    ∃ es, Single.exponents rep.coeff table p cs = .ok es ∧
      List.Forall₂ (fun c e => e < p ∧ table.at' e = .ok (if c < p then (c : F) else 1)) cs es := by
  obtain ⟨hp, _, hcard, hg, _, _, _, _, hat⟩ := hT.facts
  rw [pow_one] at hcard
  have hp2 := hp.two_le
  have h1 : table.at' 1 = .ok (eltOf g (card F) 1) := hat 1 (by omega)
  have h1' : rdAt table.fqElements 1 = .ok (eltOf g (card F) 1) := by
    unfold FqElementTable.at' rd at h1
    unfold rdAt
    split <;> simp_all
  set gen := rep.coeff (eltOf g (card F) 1) 0 with hgen
  have hgen2 : 2 < p → gen = rep.coeff g 0 := by
    intro h
    rw [hgen, eltOf_of_ne (by omega), pow_one]
  have hord : ∀ i j, i < p - 1 → j < p - 1 → rep.coeff (g ^ i) 0 = rep.coeff (g ^ j) 0 → i = j := by
    intro i j hi hj he
    apply hg.eltOf_inj (by omega) (by omega)
    rw [eltOf_of_ne (by omega), eltOf_of_ne (by omega)]
    exact rep.coeff_inj he
  have hmul : ∀ j, j + 1 < p - 1 → rep.coeff (g ^ (j + 1)) 0 = u32 (rep.coeff (g ^ j) 0 * gen) % p := by
    intro j hj
    have h2 := rep.coeff_lt (g ^ j) 0
    rw [hgen2 (by omega), u32, Nat.mod_eq_of_lt (lt_of_le_of_lt (Nat.mul_le_mul_right _ (by omega)) hsmall),
      pow_succ, rep.coeff_mul]
  have hs0 : OMap.Sorted (OMap.set ([] : OMap Nat Nat) 0 (p - 1)) := OMap.sorted_set OMap.sorted_nil _ _
  obtain ⟨h2, h3⟩ := Single.conversionLoop_find p gen (p - 1) (fun i => rep.coeff (g ^ i) 0) hmul hord (p - 1) 0 1
    (OMap.set [] 0 (p - 1)) hs0 (by omega) (by
      intro _
      show 1 = rep.coeff (g ^ 0) 0
      rw [pow_zero, rep.coeff_one 0 (by decide), if_pos rfl])
  have hne : ∀ i, rep.coeff (g ^ i) 0 ≠ 0 := by
    intro i h
    exact pow_ne_zero i hg.1 (rep.coeff_inj (h.trans (rep.coeff_zero (i := 0) (by decide)).symm))
  refine ⟨cs.map (ReductionTable.lookup (Single.conversionMap p gen)), ?_, ?_⟩
  · unfold Single.exponents Single.atNmod
    rw [h1']
    rfl
  · rw [List.forall₂_map_right_iff, List.forall₂_same]
    intro c _
    unfold ReductionTable.lookup Single.conversionMap
    by_cases hc : c < p
    · rw [if_pos hc]
      obtain ⟨e, he, hce⟩ := hg.eltOf_surj (c : F)
      have hcc : rep.coeff (c : F) 0 = c := by rw [rep.coeff_natCast, Nat.mod_eq_of_lt hc]
      have hfind : (Single.conversionLoop p gen (p - 1) 0 1 (OMap.set [] 0 (p - 1))).find? c = some e := by
        by_cases hz : e = p - 1
        · have : (c : F) = 0 := by rw [← hce, hz, ← hcard, eltOf_zero_index]
          have hc0 : c = 0 := by rw [← hcc, this, rep.coeff_zero (by decide)]
          subst hc0
          rw [h3 0 fun i _ _ h => hne i h.symm, OMap.find?_set_self OMap.sorted_nil, hz]
        · have := h2 e (by omega) (by omega)
          rwa [← eltOf_of_ne (g := g) (q := card F) (e := e) (by omega), hce, hcc] at this
      rw [hfind]
      exact ⟨by simp only; omega, by simp only; rw [hat e he, hce]⟩
    · rw [if_neg hc]
      have hfind : (Single.conversionLoop p gen (p - 1) 0 1 (OMap.set [] 0 (p - 1))).find? c = none := by
        rw [h3 c fun i _ _ h => hc (by rw [h]; exact rep.coeff_lt _ _), OMap.find?_set_of_ne OMap.sorted_nil (by omega)]
        rfl
      rw [hfind]
      refine ⟨by simp only; omega, ?_⟩
      simp only
      rw [hat 0 (by omega), eltOf_of_ne (by omega), pow_zero]

/-- C46: over the field with an odd number `p` of elements, the curve returned for the coefficients
`cs` below `p` of a polynomial `f` that is not constant carries the numbers of points of `y² = f` over the
extensions of degree up to its genus. -/
theorem C46_points {p : Nat} (rep : FqRep F p 1) (hp2 : p ≠ 2) {g : F} {table : FqElementTable F}
    (hT : BuiltFqTable p 1 g table) (hsmall : (p - 1) * rep.coeff g 0 < 4294967296)
    {cs : List Nat} (hcs : ∀ c ∈ cs, c < p) (hlen : cs.length < 4294967296)
    {E : Nat → Extension F} {gK : ∀ k, (E k).K} {rt : Nat → ReductionTable} :
    let f : F[X] := polyOfList (cs.map fun c : Nat => (c : F))
    let m := (f.natDegree - 1) / 2
    1 ≤ f.natDegree → (∀ k, 0 < k → k ≤ m → BuiltExtension p 1 g E gK rt k) →
    ∃ c, Single.singleCurveFp rep.coeff table rt p cs = .ok c ∧ c.degree = f.natDegree ∧ c.genus = m ∧
      c.numberOfPoints m = .ok ((List.range m).map fun k =>
        (unramifiedPoints (f.map (E (k + 1)).ι), ramifiedPoints (f.map (E (k + 1)).ι))) := by
  intro f m hdeg hE
  obtain ⟨hp, _, hcard, hg, _, _, _, _, hat⟩ := hT.facts
  rw [pow_one] at hcard
  obtain ⟨es, h1, h2⟩ := C46_exponents rep hT hsmall cs
  have hlt : ∀ e ∈ es, e < card F := by
    intro e he
    obtain ⟨c, _, h⟩ : ∃ c ∈ cs, e < p := by
      clear h1 hE hdeg hcs hlen m f
      induction h2 with
      | nil => simp at he
      | cons h _ ih =>
        rcases List.mem_cons.1 he with rfl | he
        · exact ⟨_, List.mem_cons_self, h.1⟩
        · obtain ⟨c, hc, h⟩ := ih he
          exact ⟨c, List.mem_cons_of_mem _ hc, h⟩
    omega
  have hmap : es.map (eltOf g (card F)) = cs.map fun c : Nat => (c : F) := by
    clear h1 hE hdeg hlen m f
    induction h2 with
    | nil => rfl
    | cons h _ ih =>
      rw [List.map_cons, List.map_cons, ih (fun c hc => hcs c (List.mem_cons_of_mem _ hc))
        fun e he => hlt e (List.mem_cons_of_mem _ he)]
      obtain ⟨h3, h4⟩ := h
      rw [hat _ (by omega), if_pos (hcs _ List.mem_cons_self)] at h4
      rw [Res.ok.inj h4]
  have hlen' : es.length < 4294967296 := by rw [← h2.length_eq]; exact hlen
  obtain ⟨_, h3⟩ := C24_degree_genus hT es hlt hlen'
  rw [hmap] at h3
  obtain ⟨c, h4, _, h5, h6, h7, _⟩ := h3 (by
    intro h
    have : f.natDegree = 0 := by show (polyOfList _).natDegree = 0; rw [h, natDegree_zero]
    omega)
  have hgen : c.genus = m := h7 hdeg
  obtain ⟨c', h8, h9, _, h10, _⟩ := C21_offsets hp2 hT hE hlt hlen' h4
    (ts := (List.range m).reverse.map fun k => rt (k + 1)) (by
      rw [List.map_reverse]
      exact List.reverse_perm _)
  rw [hmap, mul_one] at h10
  have hd : c'.degree = c.degree := by unfold Curve.degree; rw [h9]
  refine ⟨c', ?_, by rw [hd, h6], ?_, h10⟩
  · unfold Single.singleCurveFp
    rw [h1]
    simp only [Res.bind_ok]
    rw [h4]
    simp only [Res.bind_ok]
    rw [hgen]
    exact h8
  · rw [← hgen]
    unfold Curve.genus
    rw [hd]

/-! ### Examples -/

/-- The presentation of the field with 7 elements. -/
def repSeven : FqRep (ZMod 7) 7 1 where
  prime := by decide
  pos := by decide
  card_eq := by decide
  coeff a _ := a.val
  coeff_lt a _ := ZMod.val_lt a
  coeff_ext a b h := ZMod.val_injective 7 (h 0 (by decide))
  coeff_add a b i _ := ZMod.val_add a b
  coeff_one i hi := by
    obtain rfl : i = 0 := by omega
    decide

/-- The table of the powers of 3 modulo 7. -/
def tableSeven : FqElementTable (ZMod 7) := ⟨7, 1, 7, 6, [1, 3, 2, 6, 4, 5, 0]⟩

theorem built_tableSeven : BuiltFqTable 7 1 (3 : ZMod 7) tableSeven := by
  have h : Primitive (3 : ZMod 7) := by
    refine ⟨by decide, ?_⟩
    intro x hx
    obtain ⟨n, _, h⟩ : ∃ n < 6, x = 3 ^ n := by
      revert x
      decide
    exact ⟨n, h⟩
  exact ⟨⟨repSeven⟩, fun _ => 3, 0, 1, ⟨h, by intro j hj; omega⟩, by intro j hj; omega, rfl, rfl⟩

/-- The call `hycu-single 7 3 2 6 8 2` of the README: the coefficient 8 is read as 1 because it is at least 7 (here the
residue happens to be the same), and 9 would be read as 1 instead of 2. -/
example : Single.exponents repSeven.coeff tableSeven 7 [3, 2, 6, 8, 2] = .ok [1, 2, 3, 0, 2] ∧
    Single.exponents repSeven.coeff tableSeven 7 [9, 0, 5] = .ok [0, 6, 5] := by decide

example : (7 - 1) * repSeven.coeff 3 0 < 4294967296 := by decide

/-- A polynomial of degree 3 over the field with 3 elements (genus 1): the hypotheses of `C46_points` are met. -/
example : ∃ (rep : FqRep (ZMod 3) 3 1) (g : ZMod 3) (table : FqElementTable (ZMod 3)) (E : Nat → Extension (ZMod 3))
    (gK : ∀ k, (E k).K) (rt : Nat → ReductionTable), BuiltFqTable 3 1 g table ∧
      (3 - 1) * rep.coeff g 0 < 4294967296 ∧ ∀ k, 0 < k → k ≤ 2 → BuiltExtension 3 1 g E gK rt k := by
  obtain ⟨g, table, E, gK, rt, h1, h2⟩ := extensions_three
  obtain ⟨rep⟩ := h1.rep
  refine ⟨rep, g, table, E, gK, rt, h1, ?_, h2⟩
  have := rep.coeff_lt g 0
  omega

end Hycu
