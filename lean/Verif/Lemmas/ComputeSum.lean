import Verif.Lemmas.Compute
import Verif.Lemmas.RunData

/-!
The results of all blocks together.
-/

set_option linter.unusedSectionVars false

namespace Hycu

open Polynomial Fintype

section

variable {F : Type} [Field F] [Fintype F] [DecidableEq F] {p r m : Nat} {gF : F} {table : FqElementTable F}
  {E : Nat → Extension F} {g : ∀ k, (E k).K} {rt : Nat → ReductionTable} {rep : FqRep F p r} {fl : FlintPoly F}

open Classical in
/-- Whether a polynomial is squarefree with the given key. -/
noncomputable def keyed (E : Nat → Extension F) (m : Nat) (k : Key) (f : F[X]) : Nat :=
  if Squarefree f ∧ IsKey E m f k then 1 else 0

theorem squarefree_twist {f : F[X]} {ν : F} (hν : ν ≠ 0) : Squarefree (C ν * f) ↔ Squarefree f := by
  refine ⟨fun h => ?_, fun h => squarefree_C_mul h hν⟩
  have := squarefree_C_mul h (inv_ne_zero hν)
  rwa [← mul_assoc, ← C_mul, inv_mul_cancel₀ hν, C_1, one_mul] at this

/-- The contributions of the positions in a list. -/
theorem parts_sum {ν : F} (hν : ν ≠ 0) (mult : List Nat → Nat) (k : Key)
    [DecidablePred fun v => Squarefree (posPoly gF v)] :
    ∀ {L : List (List Nat)} {xs : List CurveData},
    List.Forall₂ (fun v x => PosData E m gF ν v (mult v) x) (L.filter fun v => Squarefree (posPoly gF v)) xs →
    total (xs.flatMap CurveData.parts) k =
      ((L.map fun v => mult v * (keyed E m k (posPoly gF v) + keyed E m k (C ν * posPoly gF v))).sum : Nat) := by
  intro L
  induction L with
  | nil =>
    intro xs h
    cases h
    rfl
  | cons v L ih =>
    intro xs h
    by_cases hsf : Squarefree (posPoly gF v)
    · rw [List.filter_cons_of_pos (by simpa using hsf)] at h
      cases h with
      | @cons _ x _ xs h1 h2 =>
        have key : ∀ {f : F[X]} {k' : Key}, Squarefree f → IsKey E m f k' →
            ((keyed E m k f : Nat) : Int) = if k' = k then 1 else 0 := by
          intro f k' hs hk
          unfold keyed
          by_cases h : k' = k
          · rw [if_pos ⟨hs, h ▸ hk⟩, if_pos h]
            rfl
          · rw [if_neg fun h' => h (hk.eq h'.2), if_neg h]
            rfl
        rw [List.flatMap_cons, total_append, ih h2, List.map_cons, List.sum_cons]
        have h3 := total_parts [x] k
        rw [List.flatMap_singleton] at h3
        rw [h3]
        simp only [List.map_cons, List.map_nil, List.sum_cons, List.sum_nil]
        push_cast
        rw [key hsf h1.key, key (squarefree_C_mul hsf hν) h1.twisted, h1.count]
        ring
    · rw [List.filter_cons_of_neg (by simpa using hsf)] at h
      rw [ih h, List.map_cons, List.sum_cons]
      have h1 : keyed E m k (posPoly gF v) = 0 := if_neg fun h => hsf h.1
      have h2 : keyed E m k (C ν * posPoly gF v) = 0 := if_neg fun h => hsf ((squarefree_twist hν).1 h.1)
      rw [h1, h2]
      simp

/-- What is known about the result of a block. -/
structure BlockResult (E : Nat → Extension F) (m : Nat) (gF ν : F) (mult : List Nat → Nat) (L : List (List Nat))
    (st : StoreMap) : Prop where
  total : ∀ k, total st k =
    ((L.map fun v => mult v * (keyed E m k (posPoly gF v) + keyed E m k (C ν * posPoly gF v))).sum : Nat)
  pos : ∀ e ∈ st, 0 < e.2
  fits : ∀ e ∈ st, e.1.Fits

theorem total_pos : ∀ {l : List (Key × Int)}, (∀ e ∈ l, 0 < e.2) → ∀ {k : Key}, k ∈ l.map Prod.fst → 0 < total l k
  | [], _, _, h => by simp at h
  | e :: l, hl, k, h => by
    rw [total_cons]
    have h1 := Run.total_nonneg (l := l) (fun x hx => Int.le_of_lt (hl x (List.mem_cons_of_mem _ hx))) k
    have h2 := hl e List.mem_cons_self
    by_cases hk : e.1 = k
    · rw [if_pos hk]
      omega
    · rw [if_neg hk]
      have h3 := total_pos (fun x hx => hl x (List.mem_cons_of_mem _ hx))
        ((List.mem_cons.1 (List.map_cons ▸ h)).resolve_left fun h => hk h.symm)
      omega

theorem block_result (hp2 : p ≠ 2) (hT : BuiltFqTable p r gF table)
    (hE : ∀ k, 0 < k → k ≤ m → BuiltExtension p r gF E g rt k) (hm : 0 < m) (hfl : FlintOk rep fl)
    {rts : List ReductionTable} (hts : rts.Perm ((List.range m).map fun k => rt (k + 1)))
    {ν : F} (hν : ¬ IsSquare ν) (mult : List Nat → Nat) {b : Block} (hne : b ≠ [])
    (hb : ∀ x ∈ b, x.1 < x.2 ∧ x.2 ≤ 2147483648) {L : List (List Nat)} (hL : L.Nodup) (hmem : ∀ v, v ∈ L ↔ InBox b v)
    (hgood : ∀ v ∈ L, GoodPos gF table r v (mult v)) :
    ∃ st, Compute.block fl table rts b = .ok st ∧ BlockResult E m gF ν mult L st := by
  classical
  have hν0 : ν ≠ 0 := by rintro rfl; exact hν IsSquare.zero
  obtain ⟨L', h1, h2⟩ := block_eq (fl := fl) (table := table) (rts := rts) hne hb hL hmem
  obtain ⟨cs, xs, h3, h4, h5⟩ := foldl_curveStep hp2 hT hE hfl hts hν mult (L := L')
    fun v hv => hgood v (h1.mem_iff.1 hv)
  obtain ⟨st, h6, h7⟩ := registerAll_tally (ys := []) h3 Tally.nil (by simp)
  rw [List.nil_append] at h7
  have hx : ∀ x ∈ xs, 0 < x.count ∧ x.key.Fits ∧ x.twisted.Fits := by
    intro x hx
    obtain ⟨i, hi, rfl⟩ := List.getElem_of_mem hx
    have hi' : i < (L'.filter fun v => Squarefree (posPoly gF v)).length := by rw [h4.length_eq]; exact hi
    have h8 := h4.get hi' hi
    rw [List.get_eq_getElem, List.get_eq_getElem] at h8
    have h9 := List.mem_filter.1 (List.getElem_mem hi')
    obtain ⟨v, hv⟩ : ∃ v, v = (L'.filter fun v => Squarefree (posPoly gF v))[i] := ⟨_, rfl⟩
    rw [← hv] at h8 h9
    have hg := hgood v (h1.mem_iff.1 h9.1)
    have hsf : Squarefree (posPoly gF v) := by simpa using h9.2
    refine ⟨?_, h8.key.fits hp2 hT hE hm hsf.ne_zero hg.pos hg.deg,
      h8.twisted.fits hp2 hT hE hm (squarefree_C_mul hsf hν0).ne_zero ?_ ?_⟩
    · rw [h8.count]
      have := hg.npos
      omega
    · rw [natDegree_C_mul hν0]; exact hg.pos
    · rw [natDegree_C_mul hν0]; exact hg.deg
  have hparts : ∀ e ∈ xs.flatMap CurveData.parts, 0 < e.2 ∧ e.1.Fits := by
    intro e he
    obtain ⟨x, hxm, he⟩ := List.mem_flatMap.1 he
    obtain ⟨a1, a2, a3⟩ := hx x hxm
    simp only [CurveData.parts, List.mem_cons, List.not_mem_nil, or_false] at he
    rcases he with rfl | rfl
    · exact ⟨a1, a2⟩
    · exact ⟨a1, a3⟩
  refine ⟨st, by rw [h2, h5, h6], fun k => ?_, fun e he => ?_, fun e he => ?_⟩
  · rw [h7.total_eq, parts_sum hν0 mult k h4]
    congr 1
    exact (h1.map _).sum_eq
  · obtain ⟨h8, h9⟩ := (h7.entry e.1 e.2).1 he
    rw [h9]
    exact total_pos (fun x hx => (hparts x hx).1) h8
  · obtain ⟨h8, h9⟩ := (h7.entry e.1 e.2).1 he
    obtain ⟨x, hx, h10⟩ := List.mem_map.1 h8
    rw [← h10]
    exact (hparts x hx).2

/-- Replacing an entry by another one in its range stays in the box. -/
theorem InBox.set {b : Block} {v : List Nat} (h : InBox b v) {i : Nat} {x : Nat × Nat} (hx : b[i]? = some x) {y : Nat}
    (h1 : x.1 ≤ y) (h2 : y < x.2) : InBox b (v.set i y) := by
  refine ⟨by rw [List.length_set]; exact h.1, fun j c hc => ?_⟩
  obtain ⟨z, h3, h4, h5⟩ := h.2 j c hc
  by_cases hij : i = j
  · subst hij
    rw [hx] at hc
    cases hc
    refine ⟨y, ?_, h1, h2⟩
    rw [List.getElem?_set_self (List.getElem?_eq_some_iff.1 h3).1]
  · exact ⟨z, by rw [List.getElem?_set_ne hij]; exact h3, h4, h5⟩

/-- All blocks: they are different and their numbers are in range, they can be computed, and the results add up to
the number of polynomials. -/
theorem section_result (hp2 : p ≠ 2) (hT : BuiltFqTable p r gF table)
    (hE : ∀ k, 0 < k → k ≤ m → BuiltExtension p r gF E g rt k) (hm : 0 < m) (hfl : FlintOk rep fl)
    {rts : List ReductionTable} (hts : rts.Perm ((List.range m).map fun k => rt (k + 1)))
    {genus : Nat} (hg0 : 0 < genus) (hgen' : genus < 1073741823) (hdr : (2 * genus + 2) * r < 4294967296)
    (marked : Bool) {package : Nat} (hpk : 0 < package)
    (hsmall : ∀ k, census E m genus marked k < 4611686018427387904) :
    ∃ it boxes, CurveIterator.make table genus marked package = .ok it ∧
      Terminates (fun n => CurveIterator.visits CurveIterator.asBlock n it) boxes ∧ boxes.Nodup ∧
      (∀ b ∈ boxes, b ≠ [] ∧ ∀ x ∈ b, x.1 < x.2 ∧ x.2 < 2147483648) ∧
      ∃ result : Block → StoreMap, (∀ b ∈ boxes, Compute.block fl table rts b = .ok (result b) ∧
          ∀ e ∈ result b, 0 < e.2 ∧ e.1.Fits) ∧
        ∀ k, total (boxes.flatMap result) k = census E m genus marked k := by
  classical
  have hgen : genus < 1073741824 := by omega
  obtain ⟨hp, hr, hcard, hprim, t1, t2, t3, t4, _⟩ := hT.facts
  have hodd := odd_card_of hp hp2 hcard hr
  have hq : card F < 2147483647 := by
    obtain ⟨_, _, _, _, h10, _⟩ := (hE 1 (by omega) (by omega)).facts hp2 hT
    have h12 := (hE 1 (by omega) (by omega)).small
    rw [h10, Nat.one_mul, ← hcard] at h12
    exact h12
  have h2c := two_le_card (F := F)
  obtain ⟨ν, hν⟩ : ∃ ν : F, ¬ IsSquare ν := by
    apply FiniteField.exists_nonsquare
    intro h
    rw [FiniteField.even_card_iff_char_two] at h
    omega
  obtain ⟨it, boxes, Ls, a1, a2, a3, a4, a5, a6, a7, a8⟩ := visited_spec hT hp2 (by omega) hg0 hgen marked hpk
  obtain ⟨it', Ls', b1, b2, mult, b3, b4⟩ := C09_mass_formula hT hp2 (by omega) genus hg0 hgen marked package hpk
  obtain rfl : it = it' := Res.ok.inj (a1.symm.trans b1)
  obtain rfl : Ls = Ls' := a5.unique b2
  have hmass : ∀ k, ((Ls.flatten.map fun v =>
      mult v * (keyed E m k (posPoly gF v) + keyed E m k (C ν * posPoly gF v))).sum : Nat) =
      census E m genus marked k := by
    intro k
    rw [census_eq]
    exact b4 (keyed E m k) (census_invariant k) ν hν
  have hgood : ∀ v ∈ Ls.flatten, GoodPos gF table r v (mult v) := by
    intro v hv
    obtain ⟨d, hd, hpos⟩ := (a8 v).1 hv
    have hd' := (CurveIterator.mem_degrees hgen).1 hd
    have hnat : (posPoly gF v).natDegree = d := (mem_polys.1 (mem_fil.1 (hpos.mem_enum hprim)).1).2
    have hlen : v.length = d + 1 := by obtain ⟨_, _, h, _⟩ := hpos; exact h
    refine ⟨hpos.lt h2c, by omega, by omega, by omega, ?_, b3 v hv, ?_, fun hsf => ?_⟩
    · have : d * r ≤ (2 * genus + 2) * r := Nat.mul_le_mul_right r (by omega)
      rw [hnat]
      omega
    · obtain ⟨it', Ls', c1, c2, c3⟩ := C10_multiplicity hT hp2 (by omega) genus hg0 hgen marked package hpk
      obtain rfl : it = it' := Res.ok.inj (a1.symm.trans c1)
      obtain rfl : Ls = Ls' := a5.unique c2
      obtain ⟨c, n, d1, d2, d3⟩ := c3 v hv
      have := b3 v hv
      rw [d1, Res.bind_ok, d2] at this
      have := Res.ok.inj this
      omega
    · obtain ⟨k, hk⟩ := IsKey.exists E m (posPoly gF v)
      have h1 := List.le_sum_of_mem (List.mem_map.2 ⟨v, hv, rfl⟩ : mult v * (keyed E m k (posPoly gF v) +
        keyed E m k (C ν * posPoly gF v)) ∈ Ls.flatten.map fun v =>
        mult v * (keyed E m k (posPoly gF v) + keyed E m k (C ν * posPoly gF v)))
      have h2 : keyed E m k (posPoly gF v) = 1 := if_pos ⟨hsf, hk⟩
      rw [hmass k, h2] at h1
      have h3 := hsmall k
      have h4 : mult v * 1 ≤ mult v * (1 + keyed E m k (C ν * posPoly gF v)) := Nat.mul_le_mul_left _ (by omega)
      omega
  have hbox : ∀ b ∈ boxes, ∀ v, InBox b v → v ∈ Ls.flatten := by
    intro b hb v hv
    obtain ⟨i, hi, rfl⟩ := List.getElem_of_mem hb
    have hi' : i < Ls.length := by rw [← a6.length_eq]; exact hi
    exact List.mem_flatten.2 ⟨Ls[i], List.getElem_mem _, ((a6.get hi hi').2 v).2 hv⟩
  have hb : ∀ b ∈ boxes, b ≠ [] ∧ ∀ x ∈ b, x.1 < x.2 ∧ x.2 < 2147483648 := by
    intro b hb
    obtain ⟨v, hv⟩ := a4 b hb
    refine ⟨?_, fun x hx => ?_⟩
    · rintro rfl
      have := (hgood v (hbox _ hb v hv)).pos
      have h0 : v = [] := List.length_eq_zero_iff.1 hv.1
      rw [h0] at this
      simp [posPoly, polyOfList] at this
    · obtain ⟨i, hi⟩ := List.mem_iff_getElem?.1 hx
      obtain ⟨y, h1, h2, h3⟩ := hv.2 i x hi
      refine ⟨by omega, ?_⟩
      have h4 := (hgood _ (hbox b hb _ (hv.set hi (y := x.2 - 1) (by omega) (by omega)))).lt (x.2 - 1)
        (List.mem_set (List.getElem?_eq_some_iff.1 h1).1 _)
      omega
  have hres : ∀ {bs : List Block} {Ms : List (List (List Nat))},
      List.Forall₂ (fun b L => L.Nodup ∧ ∀ v, v ∈ L ↔ InBox b v) bs Ms → (∀ b ∈ bs, b ∈ boxes) →
      (∀ v ∈ Ms.flatten, v ∈ Ls.flatten) →
      (∀ b ∈ bs, ∃ st, Compute.block fl table rts b = .ok st ∧ ∀ e ∈ st, 0 < e.2 ∧ e.1.Fits) ∧
      ∀ result : Block → StoreMap, (∀ b ∈ bs, Compute.block fl table rts b = .ok (result b)) →
        ∀ k, total (bs.flatMap result) k = ((Ms.flatten.map fun v =>
          mult v * (keyed E m k (posPoly gF v) + keyed E m k (C ν * posPoly gF v))).sum : Nat) := by
    intro bs Ms h
    induction h with
    | nil => intro _ _; exact ⟨by simp, fun _ _ _ => rfl⟩
    | @cons b L bs Ms h h' ih =>
      intro h1 h2
      obtain ⟨h3, h4⟩ := ih (fun c hc => h1 c (List.mem_cons_of_mem _ hc)) fun v hv => h2 v (by
        rw [List.flatten_cons]; exact List.mem_append_right _ hv)
      have hbb := hb b (h1 b List.mem_cons_self)
      obtain ⟨st, h5, h6⟩ := block_result hp2 hT hE hm hfl hts hν mult hbb.1 (fun x hx => by
        have := hbb.2 x hx; omega) h.1 h.2 fun v hv => hgood v (h2 v (by
        rw [List.flatten_cons]; exact List.mem_append_left _ hv))
      constructor
      · intro c hc
        rcases List.mem_cons.1 hc with rfl | hc
        · exact ⟨st, h5, fun e he => ⟨h6.pos e he, h6.fits e he⟩⟩
        · exact h3 c hc
      · intro result hr k
        have h7 := hr b List.mem_cons_self
        rw [h5] at h7
        have h7 := Res.ok.inj h7
        rw [List.flatMap_cons, total_append, ← h7, h6.total, h4 result (fun c hc => hr c (List.mem_cons_of_mem _ hc)),
          List.flatten_cons, List.map_append, List.sum_append]
        push_cast
        rfl
  obtain ⟨h1, h2⟩ := hres a6 (fun b hb => hb) fun v hv => hv
  refine ⟨it, boxes, a1, a2, ?_, hb, fun b => if h : b ∈ boxes then (h1 b h).choose else [], fun b hbm => ?_, fun k => ?_⟩
  · refine List.Pairwise.imp_of_mem ?_ a3
    intro a b ha _ hab he
    obtain ⟨v, hv⟩ := a4 a ha
    exact hab v ⟨hv, he ▸ hv⟩
  · simp only [dif_pos hbm]
    exact (h1 b hbm).choose_spec
  · rw [h2 _ fun b hbm => by simp only [dif_pos hbm]; exact (h1 b hbm).choose_spec.1, hmass k]

end
end Hycu
