import Verif.Lemmas.FlintInput
import Verif.Spec.Damage

/-!
Blocks of the iterators that are cut off.
-/

namespace Hycu

open CurveIterator

theorem InBox.corner {b : Block} {v : List Nat} (h : InBox b v) : InBox b (b.map Prod.fst) := by
  refine ⟨List.length_map _, fun i x hx => ⟨x.1, ?_, le_rfl, ?_⟩⟩
  · rw [List.getElem?_map, hx]
    rfl
  · obtain ⟨y, _, h1, h2⟩ := h.2 i x hx
    exact lt_of_le_of_lt h1 h2

theorem CutBlock.corner {b b' : Block} (h : CutBlock b b') : b'.map Prod.fst <+: b.map Prod.fst := by
  cases h with
  | pairs l rest h =>
    rw [h, List.map_append]
    exact List.prefix_append _ _
  | number l rest x y y' h hy =>
    refine ⟨rest.map Prod.fst, ?_⟩
    rw [h]
    simp

/-- Boxes without common points that have the same lower bounds are equal. -/
theorem eq_of_corner {boxes : List Block} (hd : boxes.Pairwise (fun a b => ∀ v, ¬ (InBox a v ∧ InBox b v)))
    (hn : ∀ b ∈ boxes, ∃ v, InBox b v) {b b' : Block} (hb : b ∈ boxes) (hb' : b' ∈ boxes)
    (h : b'.map Prod.fst = b.map Prod.fst) : b' = b := by
  by_contra hne
  obtain ⟨v, hv⟩ := hn b hb
  obtain ⟨v', hv'⟩ := hn b' hb'
  have h1 : ∀ a ∈ boxes, ∀ c ∈ boxes, a ≠ c → ∀ v, ¬ (InBox a v ∧ InBox c v) := by
    intro a ha c hc hac
    have : Std.Symm fun (a b : Block) => ∀ v, ¬ (InBox a v ∧ InBox b v) := ⟨fun x y hxy v hv => hxy v ⟨hv.2, hv.1⟩⟩
    exact hd.forall ha hc hac
  refine h1 b' hb' b hb hne _ ⟨hv'.corner, ?_⟩
  rw [h]
  exact hv.corner

/-- The next to leading coefficient is zero, unless the degree is divisible by the prime. -/
theorem PosOf.next {q p d : Nat} (hd : 2 ≤ d) (hp : ¬ p ∣ d) {v : List Nat} (h : PosOf q p d v) {x : Nat}
    (hx : v[d - 1]? = some x) : x = q - 1 := by
  obtain ⟨A, hA, _, hv⟩ := h
  have h1 := hv _ _ hx
  cases hA with
  | large hp' hm hl =>
    unfold largeA at h1
    rw [if_neg (by omega), if_pos (by omega)] at h1
    exact h1
  | mono hp' =>
    have h2 := h1 (by omega)
    unfold monoA at h2
    rw [if_neg (by omega)] at h2
    exact h2
  | div hp' hd' => exact absurd (Nat.dvd_of_mod_eq_zero hd') hp
  | square hp' =>
    unfold squareA at h1
    rw [if_neg (by omega), if_pos rfl] at h1
    exact h1

section

variable {F : Type} [Field F] [Fintype F] [DecidableEq F] {g : F}

/-- A block of the iterator that is cut off is no other block of the iterator. -/
theorem cutBlock_eq {p r : Nat} {table : FqElementTable F} (ht : BuiltFqTable p r g table) (hp2 : p ≠ 2)
    (hq : Fintype.card F ≤ 2147483648) {genus : Nat} (hg0 : 0 < genus) (hgen : genus < 1073741824) (marked : Bool)
    {package : Nat} (hpk : 0 < package) (hm : marked = true ∨ ¬ p ∣ 2 * genus + 2) :
    ∃ it boxes, make table genus marked package = .ok it ∧ Terminates (fun n => visits asBlock n it) boxes ∧
      ∀ b ∈ boxes, ∀ b' ∈ boxes, CutBlock b b' → b' = b := by
  obtain ⟨it, boxes, Ls, a1, a2, a3, a4, a5, a6, a7, a8⟩ := visited_spec ht hp2 hq hg0 hgen marked hpk
  have h2c := two_le_card (F := F)
  refine ⟨it, boxes, a1, a2, fun b hb b' hb' hc => eq_of_corner a3 a4 hb hb' ?_⟩
  have key : ∀ b ∈ boxes, ∃ d ∈ degrees genus marked, PosOf (Fintype.card F) p d (b.map Prod.fst) := by
    intro b hb
    obtain ⟨v, hv⟩ := a4 b hb
    rw [← a8]
    obtain ⟨L, hL, h1⟩ : ∃ L ∈ Ls, L.Nodup ∧ ∀ v, v ∈ L ↔ InBox b v := by
      obtain ⟨hlen, hget⟩ := List.forall₂_iff_get.1 a6
      obtain ⟨i, hi, rfl⟩ := List.mem_iff_getElem.1 hb
      exact ⟨_, List.getElem_mem (l := Ls) (n := i) (by omega), hget i hi (by omega)⟩
    exact List.mem_flatten.2 ⟨L, hL, (h1.2 _).2 hv.corner⟩
  obtain ⟨d, hd, h1⟩ := key b hb
  obtain ⟨d', hd', h2⟩ := key b' hb'
  have hl : (b.map Prod.fst).length = d + 1 := by obtain ⟨A, _, h, _⟩ := h1; exact h
  have hl' : (b'.map Prod.fst).length = d' + 1 := by obtain ⟨A, _, h, _⟩ := h2; exact h
  have hcut := hc.corner
  have hle := hcut.length_le
  rw [mem_degrees hgen] at hd hd'
  by_cases he : d' = d
  · exact hcut.eq_of_length (by omega)
  · exfalso
    obtain ⟨hmk, hd2⟩ : marked = false ∧ d = 2 * genus + 2 := by
      rcases hd with hd | hd <;> rcases hd' with hd' | hd'
      · omega
      · omega
      · exact hd
      · omega
    have hd1 : d' = d - 1 := by
      rcases hd' with hd' | hd' <;> omega
    obtain ⟨x, hx, hlt⟩ := h2.top h2c
    have hx' : (b.map Prod.fst)[d - 1]? = some x := by
      obtain ⟨t, ht'⟩ := hcut
      rw [← ht', List.getElem?_append_left (by omega), ← hd1]
      exact hx
    have := h1.next (by omega) (by
      rcases hm with hm | hm
      · rw [hm] at hmk; cases hmk
      · rw [hd2]; exact hm) hx'
    omega

end

/-- The same for the blocks of a configuration. -/
theorem Flint.Setting.cutBlock_eq {w : Flint} {c : ConfigNode} (s : w.Setting c) (hc : c.Feasible)
    (hm : c.withMarkedPoint = true ∨ ¬ c.prime ∣ 2 * c.genus + 2) {boxes : List Block}
    (hb : Terminates (w.blocks c) boxes) : ∀ b ∈ boxes, ∀ b' ∈ boxes, CutBlock b b' → b' = b := by
  let _ := s.field
  let _ := s.fintype
  let _ := s.decEq
  have hq : Fintype.card (w.F c.prime c.primeExponent) ≤ 2147483648 := by
    obtain ⟨_, _, hcard, _⟩ := s.built.facts
    have h1 := s.builtExt 1 (by omega) hc.count_pos
    obtain ⟨_, _, _, _, h2, _⟩ := h1.facts s.odd s.built
    have h3 := h1.small
    rw [h2, Nat.one_mul, ← hcard] at h3
    omega
  obtain ⟨it, boxes', h1, h2, h3⟩ := Hycu.cutBlock_eq s.built s.odd hq hc.genus_pos (by have := hc.genus_lt; omega)
    c.withMarkedPoint hc.package_pos hm
  have h4 : Terminates (w.blocks c) boxes' := by
    obtain ⟨N, hN⟩ := h2
    refine ⟨N, fun n hn => ?_⟩
    unfold blocks
    rw [s.made]
    show (do
      let it ← CurveIterator.make s.table c.genus c.withMarkedPoint c.packageSize
      CurveIterator.visits CurveIterator.asBlock n it) = _
    rw [h1]
    exact hN n hn
  rw [hb.unique h4]
  exact h3

end Hycu
