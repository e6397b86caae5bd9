import Verif.Spec.Results
import Verif.Lemmas.Totals
import Verif.Lemmas.Ramification
import Verif.Lemmas.KeyOrder
import Verif.Props.SingleMain
import Mathlib.GroupTheory.Perm.Cycle.Type
import Mathlib.FieldTheory.Finite.GaloisField

/-!
Lemmas for C67.
-/

namespace Hycu

open Polynomial Fintype

set_option linter.unusedSectionVars false

section Pairs
variable {K : Type} [Field K] [Fintype K]

/-- The points that are not ramified come in pairs. -/
theorem points_pairs (h2 : card K % 2 = 1) (f : K[X]) :
    ∃ u, unramifiedPoints f = 2 * u ∧ u + ramifiedPoints f ≤ card K + 1 := by
  classical
  obtain ⟨g, hg⟩ := exists_primitive (F := K)
  have hs : ∀ a : K, ∃ v, numSqrt a = 2 * v ∧ v + (if a = 0 then 1 else 0) ≤ 1 := by
    intro a
    by_cases ha : a = 0
    · exact ⟨0, by rw [ha, numSqrt_zero], by rw [if_pos ha]⟩
    · rw [numSqrt_euler hg h2 ha, if_neg ha]
      split
      · exact ⟨1, rfl, by omega⟩
      · exact ⟨0, rfl, by omega⟩
  choose v hv1 hv2 using hs
  refine ⟨∑ x : K, v (f.eval x) + v (f.coeff (2 * halfDegree f)), ?_, ?_⟩
  · unfold unramifiedPoints
    rw [card_affine, Finset.sum_congr rfl fun x _ => hv1 (f.eval x), ← Finset.mul_sum, Nat.mul_add,
      ← hv1 (f.coeff (2 * halfDegree f))]
    rfl
  · unfold ramifiedPoints
    rw [card_affine_ram, numSqrt_zero_root]
    have h3 : ∑ x : K, v (f.eval x) + ∑ x : K, (if f.eval x = 0 then 1 else 0) ≤ card K := by
      rw [← Finset.sum_add_distrib]
      calc _ ≤ ∑ _x : K, 1 := Finset.sum_le_sum fun x _ => hv2 _
        _ = card K := by simp
    have h4 := hv2 (f.coeff (2 * halfDegree f))
    omega

end Pairs

/-- Orbits of prime length. -/
theorem card_fixed {A B : Type} [Finite A] {l : Nat} (hl : l.Prime) (φ : A → A) (h : φ^[l] = id)
    (e : B → A) (he : Function.Injective e) (hf : ∀ a, φ a = a ↔ ∃ b, e b = a) :
    ∃ v, Nat.card A = Nat.card B + l * v := by
  classical
  have := Fintype.ofFinite A
  have := Fact.mk hl
  have h1 := Equiv.Perm.card_fixedPoints_modEq (α := A) (f := φ) (p := l) (n := 1) (by
    rw [pow_one]
    exact (hom_coe_pow (fun g : Function.End A ↦ g) rfl (fun g h ↦ rfl) φ l).trans h)
  have h2 : Nat.card B = Fintype.card (Function.fixedPoints φ) := by
    rw [← Nat.card_eq_fintype_card]
    refine Nat.card_congr (Equiv.ofBijective (fun b => ⟨e b, (hf _).2 ⟨b, rfl⟩⟩) ⟨fun b b' hb => ?_, fun a => ?_⟩)
    · exact he (congrArg Subtype.val hb)
    · obtain ⟨b, hb⟩ := (hf a.1).1 a.2
      exact ⟨b, Subtype.ext hb⟩
  have h3 : Fintype.card (Function.fixedPoints φ) ≤ Fintype.card A := Fintype.card_subtype_le _
  obtain ⟨v, hv⟩ := (Nat.modEq_iff_dvd' h3).1 h1.symm
  refine ⟨v, ?_⟩
  rw [h2, Nat.card_eq_fintype_card]
  omega

section Conjugates
variable {K L : Type} [Field K] [Fintype K] [Field L] [Fintype L]

/-- All points. -/
theorem points_card (f : K[X]) : unramifiedPoints f + ramifiedPoints f =
    Nat.card {P : K × K // P.2 ^ 2 = f.eval P.1} + Nat.card {w : K // w ^ 2 = f.coeff (2 * halfDegree f)} := by
  classical
  have h : ∀ (A : Type) [Finite A] (P Q : A → Prop), Nat.card {a // P a ∧ ¬ Q a} + Nat.card {a // P a ∧ Q a} =
      Nat.card {a // P a} := by
    intro A _ P Q
    have := Fintype.ofFinite A
    rw [Nat.card_eq_fintype_card, Nat.card_eq_fintype_card, Nat.card_eq_fintype_card, Fintype.card_subtype,
      Fintype.card_subtype, Fintype.card_subtype, Nat.add_comm, ← Finset.filter_filter, ← Finset.filter_filter]
    exact Finset.card_filter_add_card_filter_not _
  have h1 := h (K × K) (fun P => P.2 ^ 2 = f.eval P.1) (fun P => P.2 = 0)
  have h2 := h K (fun w => w ^ 2 = f.coeff (2 * halfDegree f)) (fun w => w = 0)
  unfold unramifiedPoints ramifiedPoints
  simp only [ne_eq]
  omega

theorem frobenius_fixed (κ : K →+* L) (x : L) : x ^ card K = x ↔ ∃ a, κ a = x :=
  ⟨mem_range_of_pow κ, by rintro ⟨a, rfl⟩; rw [← map_pow, FiniteField.pow_card]⟩

/-- Points that are not defined over the smaller field have `l` conjugates. -/
theorem points_conjugates {l : Nat} (hl : l.Prime) (hc : card L = card K ^ l) (κ : K →+* L) (f : K[X]) :
    ∃ v, unramifiedPoints (f.map κ) + ramifiedPoints (f.map κ) = unramifiedPoints f + ramifiedPoints f + l * v := by
  classical
  obtain ⟨τ, hτ⟩ : ∃ τ : L →+* L, ∀ x, τ x = x ^ card K := by
    obtain ⟨p, hp⟩ := CharP.exists K
    obtain ⟨n, hpp, hn⟩ := FiniteField.card K p
    have := Fact.mk hpp
    have : CharP L p := charP_of_injective_ringHom κ.injective p
    exact ⟨iterateFrobenius L p n, fun x => by rw [iterateFrobenius_def, hn]⟩
  have hit : ∀ n x, τ^[n] x = x ^ card K ^ n := by
    intro n
    induction n with
    | zero => intro x; simp
    | succ n ih => intro x; rw [Function.iterate_succ_apply', ih, hτ, ← pow_mul, pow_succ]
  have hid : ∀ x, τ^[l] x = x := fun x => by rw [hit, ← hc, FiniteField.pow_card]
  have hτκ : ∀ a, τ (κ a) = κ a := fun a => by rw [hτ]; exact (frobenius_fixed κ _).2 ⟨a, rfl⟩
  have hfix : ∀ x, τ x = x ↔ ∃ a, κ a = x := fun x => by rw [hτ]; exact frobenius_fixed κ x
  have hev : ∀ x, (f.map κ).eval (τ x) = τ ((f.map κ).eval x) := by
    intro x
    have h1 : (f.map κ).map τ = f.map κ := by
      rw [Polynomial.map_map]
      congr 1
      ext a
      exact hτκ a
    conv_lhs => rw [← h1]
    exact eval_map_apply (p := f.map κ) (f := τ) x
  have hco : τ ((f.map κ).coeff (2 * halfDegree (f.map κ))) = (f.map κ).coeff (2 * halfDegree (f.map κ)) := by
    rw [coeff_map, hτκ]
  obtain ⟨v, hv⟩ := card_fixed (A := {P : L × L // P.2 ^ 2 = (f.map κ).eval P.1})
    (B := {P : K × K // P.2 ^ 2 = f.eval P.1}) hl
    (fun P => ⟨(τ P.1.1, τ P.1.2), by rw [hev, ← P.2, map_pow]⟩)
    (by
      funext P
      have h1 : ∀ n, (((fun P : {P : L × L // P.2 ^ 2 = (f.map κ).eval P.1} =>
          (⟨(τ P.1.1, τ P.1.2), by rw [hev, ← P.2, map_pow]⟩ : {P : L × L // P.2 ^ 2 = (f.map κ).eval P.1}))^[n] P) :
          L × L) = (τ^[n] P.1.1, τ^[n] P.1.2) := by
        intro n
        induction n with
        | zero => rfl
        | succ n ih =>
          rw [Function.iterate_succ_apply', Function.iterate_succ_apply', Function.iterate_succ_apply']
          simp only [ih]
      apply Subtype.ext
      rw [h1, hid, hid]
      rfl)
    (fun P => ⟨(κ P.1.1, κ P.1.2), by
      rw [show (f.map κ).eval (κ P.1.1) = κ (f.eval P.1.1) from eval_map_apply (p := f) (f := κ) _, ← P.2, map_pow]⟩)
    (fun P Q h => by
      have h1 := congrArg Subtype.val h
      simp only [Prod.mk.injEq] at h1
      exact Subtype.ext (Prod.ext (κ.injective h1.1) (κ.injective h1.2)))
    (fun P => by
      constructor
      · intro h
        have h1 := congrArg Subtype.val h
        obtain ⟨⟨x, y⟩, hxy⟩ := P
        simp only [Prod.mk.injEq] at h1
        obtain ⟨a, rfl⟩ := (hfix _).1 h1.1
        obtain ⟨b, rfl⟩ := (hfix _).1 h1.2
        refine ⟨⟨(a, b), κ.injective ?_⟩, rfl⟩
        have h2 : (f.map κ).eval (κ a) = κ (f.eval a) := eval_map_apply (p := f) (f := κ) _
        simp only [h2] at hxy
        rw [map_pow, hxy]
      · rintro ⟨Q, rfl⟩
        exact Subtype.ext (Prod.ext (hτκ _) (hτκ _)))
  obtain ⟨v', hv'⟩ := card_fixed (A := {w : L // w ^ 2 = (f.map κ).coeff (2 * halfDegree (f.map κ))})
    (B := {w : K // w ^ 2 = f.coeff (2 * halfDegree f)}) hl
    (fun w => ⟨τ w.1, by rw [← map_pow, w.2, hco]⟩)
    (by
      funext w
      have h1 : ∀ n, (((fun w : {w : L // w ^ 2 = (f.map κ).coeff (2 * halfDegree (f.map κ))} =>
          (⟨τ w.1, by rw [← map_pow, w.2, hco]⟩ : {w : L // w ^ 2 = (f.map κ).coeff (2 * halfDegree (f.map κ))}))^[n] w) :
          L) = τ^[n] w.1 := by
        intro n
        induction n with
        | zero => rfl
        | succ n ih =>
          rw [Function.iterate_succ_apply', Function.iterate_succ_apply']
          simp only [ih]
      apply Subtype.ext
      rw [h1, hid]
      rfl)
    (fun w => ⟨κ w.1, by rw [halfDegree_map, coeff_map, ← map_pow, w.2]⟩)
    (fun w w' h => Subtype.ext (κ.injective (congrArg Subtype.val h)))
    (fun w => by
      constructor
      · intro h
        obtain ⟨x, hx⟩ := w
        obtain ⟨a, rfl⟩ := (hfix _).1 (congrArg Subtype.val h)
        refine ⟨⟨a, κ.injective ?_⟩, rfl⟩
        rw [halfDegree_map, coeff_map] at hx
        rw [map_pow, hx]
      · rintro ⟨Q, rfl⟩
        exact Subtype.ext (hτκ _))
  refine ⟨v + v', ?_⟩
  rw [points_card, points_card, hv, hv', Nat.mul_add]
  omega

/-- The same for two extensions. -/
theorem points_tower {F : Type} [Field F] [Fintype F] {l : Nat} (hl : l.Prime) (hc : card L = card K ^ l) (ι : F →+* K)
    (ι' : F →+* L) (f : F[X]) :
    ∃ v, unramifiedPoints (f.map ι') + ramifiedPoints (f.map ι') =
      unramifiedPoints (f.map ι) + ramifiedPoints (f.map ι) + l * v := by
  obtain ⟨κ⟩ : Nonempty (K →+* L) := by
    obtain ⟨p, hp⟩ := CharP.exists K
    obtain ⟨n, hpp, hn⟩ := FiniteField.card K p
    have := Fact.mk hpp
    have hF : CharP F p := (RingHom.charP_iff ι ι.injective p).2 hp
    have hL : CharP L p := charP_of_injective_ringHom ι'.injective p
    let _ := ZMod.algebra K p
    let _ := ZMod.algebra L p
    have h1 := Module.card_eq_pow_finrank (K := ZMod p) (V := K)
    have h2 := Module.card_eq_pow_finrank (K := ZMod p) (V := L)
    rw [ZMod.card] at h1 h2
    have h3 : Module.finrank (ZMod p) L = Module.finrank (ZMod p) K * l := by
      apply Nat.pow_right_injective hpp.two_le
      simp only
      rw [← h2, pow_mul, ← h1, hc]
    obtain ⟨e⟩ := FiniteField.nonempty_algHom_of_finrank_dvd (F := ZMod p) (K := K) (L := L) ⟨l, h3⟩
    exact ⟨e.toRingHom⟩
  obtain ⟨v, hv⟩ := points_conjugates hl hc κ (f.map ι)
  rw [Polynomial.map_map] at hv
  obtain ⟨h1, h2⟩ := points_embedding ι' (κ.comp ι) f
  exact ⟨v, by rw [h1, h2, hv]⟩

end Conjugates

section Keys
variable {F : Type} [Field F] [Fintype F] {E : Nat → Extension F} {m genus : Nat} {marked : Bool}

theorem odd_card_extension (hodd : card F % 2 = 1) (hE : ∀ k, 0 < k → k ≤ m → card (E k).K = card F ^ k) {k : Nat}
    (h0 : 0 < k) (hk : k ≤ m) : card (E k).K % 2 = 1 := by
  rw [hE k h0 hk, Nat.pow_mod, hodd, Nat.one_pow]

theorem ringChar_of_odd (hodd : card F % 2 = 1) : ringChar F ≠ 2 := by
  intro h
  have := (FiniteField.even_card_iff_char_two).1 h
  omega

theorem IsKey.offset {f : F[X]} {k : Key} (hk : IsKey E m f k) {n : Nat} {a : Int} (h : k.offsets[n]? = some a) :
    n < m ∧ pointsOf (card F) n a =
      (unramifiedPoints (f.map (E (n + 1)).ι) + ramifiedPoints (f.map (E (n + 1)).ι) : Nat) := by
  rw [hk.offsets, List.getElem?_map] at h
  by_cases hn : n < m
  · rw [List.getElem?_range hn, Option.map_some, Option.some.injEq] at h
    refine ⟨hn, ?_⟩
    rw [pointsOf, ← h]
    push_cast
    ring
  · rw [List.getElem?_eq_none (by simpa using hn)] at h
    cases h

/-- Keys of curves are plausible. -/
theorem IsKey.plausible (hodd : card F % 2 = 1) (hE : ∀ k, 0 < k → k ≤ m → card (E k).K = card F ^ k) {f : F[X]}
    (hf : Wanted genus marked f) {k : Key} (hk : IsKey E m f k) : Plausible (card F) genus m marked k := by
  obtain ⟨hsf, hd⟩ := hf
  have hmem : ∀ d, d ∈ k.ramification ↔ d ∈ branchDegrees f := fun d => by rw [← hk.ramification, Multiset.mem_coe]
  have hram : ∀ n, ((branchDegrees f).filter (· ∣ n)).sum = ramifiedOf k.ramification n := by
    intro n
    rw [← hk.ramification, Multiset.filter_coe, Multiset.sum_coe, ramifiedOf]
  refine ⟨fun d h => branchDegrees_pos ((hmem d).1 h), hk.ascending, ?_, fun hm => ?_, ?_, fun n a h => ?_,
    fun l n n' a a' hl hn h h' => ?_⟩
  · have h1 := branchDegrees_sum hsf.ne_zero
    rw [← hk.ramification, Multiset.sum_coe, halfDegree] at h1
    rw [h1]
    omega
  · subst hm
    rw [hmem, branchDegrees, Multiset.mem_add]
    right
    rw [if_pos (by simp only [Bool.true_eq_false, false_and, or_false] at hd; omega)]
    exact Multiset.mem_singleton_self _
  · rw [hk.offsets, List.length_map, List.length_range]
  · obtain ⟨hn, h1⟩ := hk.offset h
    have hc := hE (n + 1) (by omega) (by omega)
    obtain ⟨u, h2, h3⟩ := points_pairs (odd_card_extension hodd hE (k := n + 1) (by omega) (by omega))
      (f.map (E (n + 1)).ι)
    rw [ramifiedPoints_eq _ hc hsf, hram] at h1 h3
    refine ⟨u, ?_, ?_⟩
    · rw [h1, h2]
      push_cast
      ring
    · rw [← hc]
      exact h3
  · obtain ⟨hn1, h1⟩ := hk.offset h
    obtain ⟨hn2, h2⟩ := hk.offset h'
    obtain ⟨v, hv⟩ := points_tower hl (K := (E (n + 1)).K) (L := (E (n' + 1)).K) (by
      rw [hE (n + 1) (by omega) (by omega), hE (n' + 1) (by omega) (by omega), hn, Nat.mul_comm, pow_mul])
      (E (n + 1)).ι (E (n' + 1)).ι f
    refine ⟨v, ?_⟩
    rw [h1, h2, hv]
    push_cast
    ring

/-- The key of the twist. -/
theorem IsKey.twisted (hodd : card F % 2 = 1) (hE : ∀ k, 0 < k → k ≤ m → card (E k).K = card F ^ k) {f : F[X]} (hf : f ≠ 0)
    {k : Key} (hk : IsKey E m f k) {ν : F} (hν : ¬ IsSquare ν) :
    IsKey E m (C ν * f) ⟨k.ramification, twistedOffsets k.offsets⟩ := by
  have hν0 : ν ≠ 0 := by rintro rfl; exact hν ⟨0, by simp⟩
  refine ⟨hk.ascending, hk.ramification.trans (branchDegrees_C_mul hf hν0).symm, ?_⟩
  show twistedOffsets k.offsets = _
  rw [hk.offsets, twistedOffsets]
  apply List.ext_getElem?
  intro j
  rw [List.getElem?_map, List.getElem?_mapIdx, List.getElem?_map]
  by_cases hj1 : j < m
  · rw [List.getElem?_range hj1]
    simp only [Option.map_some]
    have hcard := hE (j + 1) (by omega) (by omega)
    obtain ⟨h11, h12⟩ := points_twist_extension (E (j + 1)).ι (ringChar_of_odd hodd) hcard hν f
    split
    · rename_i hj0
      have := h12 (by omega)
      rw [hcard] at this
      congr 1
      omega
    · rename_i hj0
      rw [h11 (by omega)]
  · rw [List.getElem?_eq_none (by simpa using hj1)]
    rfl

/-- Scaling by a square changes nothing. -/
theorem IsKey.scaled {f : F[X]} (hf : f ≠ 0) {k : Key} (hk : IsKey E m f k) {s : F} (hs : s ≠ 0) :
    IsKey E m (C (s ^ 2) * f) k := by
  refine ⟨hk.ascending, hk.ramification.trans (branchDegrees_C_mul hf (pow_ne_zero 2 hs)).symm, ?_⟩
  rw [hk.offsets]
  refine List.map_congr_left fun j _ => ?_
  have h1 : (E (j + 1)).ι s ≠ 0 := by simpa using hs
  obtain ⟨h2, h3⟩ := points_square_mul (f.map (E (j + 1)).ι) h1
  rw [Polynomial.map_mul, map_C, map_pow, h2, h3]

theorem Wanted.scaled {f : F[X]} (hf : Wanted genus marked f) {s : F} (hs : s ≠ 0) : Wanted genus marked (C s * f) :=
  ⟨squarefree_C_mul hf.1 hs, by rw [natDegree_C_mul hs]; exact hf.2⟩

theorem twistedOffsets_two (l : List Int) : twistedOffsets (twistedOffsets l) = l := by
  apply List.ext_getElem?
  intro j
  simp only [twistedOffsets, List.getElem?_mapIdx, Option.map_map]
  cases l[j]? with
  | none => rfl
  | some z =>
    simp only [Option.map_some, Function.comp]
    split <;> simp

/-- A curve and its twist are counted equally often. -/
theorem census_twist (hodd : card F % 2 = 1) (hE : ∀ k, 0 < k → k ≤ m → card (E k).K = card F ^ k) (k : Key) :
    census E m genus marked ⟨k.ramification, twistedOffsets k.offsets⟩ = census E m genus marked k := by
  obtain ⟨ν, hν⟩ := FiniteField.exists_nonsquare (ringChar_of_odd hodd)
  have hν0 : ν ≠ 0 := by rintro rfl; exact hν ⟨0, by simp⟩
  have := finite_wanted (F := F) genus marked
  have hle : ∀ k : Key, census E m genus marked k ≤ census E m genus marked ⟨k.ramification, twistedOffsets k.offsets⟩ := by
    intro k
    have : Finite {f : F[X] // Wanted genus marked f ∧ IsKey E m f ⟨k.ramification, twistedOffsets k.offsets⟩} :=
      Finite.of_injective (fun f => (⟨f.1, f.2.1⟩ : {f : F[X] // Wanted genus marked f}))
        fun _ _ h => Subtype.ext (congrArg (fun x => x.1) h)
    refine Nat.card_le_card_of_injective (fun f : {f : F[X] // Wanted genus marked f ∧ IsKey E m f k} =>
      (⟨C ν * f.1, f.2.1.scaled hν0, f.2.2.twisted hodd hE f.2.1.1.ne_zero hν⟩ :
        {f : F[X] // Wanted genus marked f ∧ IsKey E m f ⟨k.ramification, twistedOffsets k.offsets⟩})) fun f g h => ?_
    have h1 : C ν * f.1 = C ν * g.1 := congrArg Subtype.val h
    exact Subtype.ext (mul_left_cancel₀ (by simpa using hν0) h1)
  have h1 := hle ⟨k.ramification, twistedOffsets k.offsets⟩
  simp only [twistedOffsets_two] at h1
  exact Nat.le_antisymm h1 (hle k)

/-- The squares act freely on the polynomials with a given key. -/
theorem census_dvd (hodd : card F % 2 = 1) (k : Key) : (card F - 1) / 2 ∣ census E m genus marked k := by
  classical
  let S := {f : F[X] // Wanted genus marked f ∧ IsKey E m f k}
  let H := (powMonoidHom 2 : Fˣ →* Fˣ).range
  have hH : ∀ h : H, ∃ s : F, s ≠ 0 ∧ ((h : Fˣ) : F) = s ^ 2 := by
    rintro ⟨_, u, rfl⟩
    exact ⟨u, u.ne_zero, rfl⟩
  let act : MulAction H S :=
    { smul := fun h f => ⟨C ((h : Fˣ) : F) * f.1, f.2.1.scaled (Units.ne_zero _), by
        obtain ⟨s, hs, h1⟩ := hH h
        rw [h1]
        exact f.2.2.scaled f.2.1.1.ne_zero hs⟩
      one_smul := fun f => Subtype.ext (by
        show C (((1 : H) : Fˣ) : F) * f.1 = f.1
        simp)
      mul_smul := fun a b f => Subtype.ext (by
        show C (((a * b : H) : Fˣ) : F) * f.1 = C ((a : Fˣ) : F) * (C ((b : Fˣ) : F) * f.1)
        rw [← mul_assoc, ← C_mul]
        simp) }
  have hst : ∀ f : S, MulAction.stabilizer H f = ⊥ := by
    intro f
    rw [eq_bot_iff]
    intro h hh
    have h1 : C ((h : Fˣ) : F) * f.1 = f.1 := congrArg Subtype.val (MulAction.mem_stabilizer_iff.1 hh)
    have h2 : (C ((h : Fˣ) : F) : F[X]) = 1 := mul_right_cancel₀ f.2.1.1.ne_zero (by rw [h1, one_mul])
    rw [← C_1] at h2
    rw [Subgroup.mem_bot]
    exact Subtype.ext (Units.ext (by simpa using C_injective h2))
  have h1 := Nat.card_congr (MulAction.selfEquivOrbitsQuotientProd hst)
  have h2 : Nat.card H = (card F - 1) / 2 := by
    rw [IsCyclic.card_powMonoidHom_range, Nat.card_eq_fintype_card, Fintype.card_units]
    have hpos := card_pos (α := F)
    rw [Nat.gcd_eq_right (by omega)]
  rw [Nat.card_prod, h2] at h1
  exact ⟨_, h1.trans (Nat.mul_comm _ _)⟩

/-- Tables of results are consistent. -/
theorem census_consistent (hodd : card F % 2 = 1) (hE : ∀ k, 0 < k → k ≤ m → card (E k).K = card F ^ k) {t : StoreMap}
    (hs : OMap.Sorted t) (ht : ∀ k z, (k, z) ∈ t ↔ 0 < z ∧ z = (census E m genus marked k : Int)) :
    Consistent (card F) genus m marked t := by
  have htw : ∀ k z, (k, z) ∈ t → (⟨k.ramification, twistedOffsets k.offsets⟩, z) ∈ t := by
    intro k z h
    rw [ht, census_twist hodd hE]
    exact (ht k z).1 h
  refine ⟨fun k z h => ?_, fun k z h => ((ht k z).1 h).1, fun k z h => ?_, htw, fun n hn hn2 => ?_⟩
  · obtain ⟨h1, h2⟩ := (ht k z).1 h
    have h3 : 0 < census E m genus marked k := by omega
    obtain ⟨⟨f, hf, hk⟩⟩ := (Nat.card_pos_iff.1 h3).1
    exact hk.plausible hodd hE hf
  · rw [((ht k z).1 h).2]
    exact_mod_cast census_dvd hodd k
  · let φ : Key × Int → Key × Int := fun x => (⟨x.1.ramification, twistedOffsets x.1.offsets⟩, x.2)
    have hφ : ∀ x, φ (φ x) = x := fun x => by simp only [φ, twistedOffsets_two]
    have hnd : t.Nodup := hs.imp fun {a b} h => by
      rintro rfl
      exact absurd h (by simp [LawfulLess.irrefl])
    have hperm : (t.map φ).Perm t := by
      refine (List.perm_ext_iff_of_nodup (hnd.map fun x y h => ?_) hnd).2 fun x => ?_
      · rw [← hφ x, h, hφ]
      · rw [List.mem_map]
        constructor
        · rintro ⟨y, hy, rfl⟩
          exact htw _ _ hy
        · intro hx
          exact ⟨φ x, htw _ _ hx, hφ x⟩
    have h1 := (hperm.map fun x => x.2 * x.1.offsets.getD n 0).sum_eq
    rw [List.map_map] at h1
    have h2 : (t.map ((fun x => x.2 * x.1.offsets.getD n 0) ∘ φ)).sum = -(t.map fun x => x.2 * x.1.offsets.getD n 0).sum := by
      have h3 : ∀ x, ((fun x => x.2 * x.1.offsets.getD n 0) ∘ φ) x = -(x.2 * x.1.offsets.getD n 0) := by
        intro x
        simp only [Function.comp, φ, twistedOffsets, List.getD, List.getElem?_mapIdx]
        cases x.1.offsets[n]? with
        | none => simp
        | some a => simp [hn2]
      clear hs ht htw hnd hperm h1
      induction t with
      | nil => rfl
      | cons x t ih =>
        rw [List.map_cons, List.sum_cons, List.map_cons, List.sum_cons, ih, h3]
        ring
    omega

end Keys

end Hycu
