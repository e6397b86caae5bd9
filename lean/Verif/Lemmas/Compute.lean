import Verif.Lemmas.Census
import Verif.Props.Block

/-!
The computation of a block.
-/

set_option linter.unusedSectionVars false

namespace Hycu

open Polynomial Fintype

variable {F : Type} [Field F] [Fintype F] [DecidableEq F] {p r m : Nat} {gF : F} {table : FqElementTable F}
  {E : Nat → Extension F} {g : ∀ k, (E k).K} {rt : Nat → ReductionTable} {rep : FqRep F p r} {fl : FlintPoly F}

/-- The polynomial at a position. -/
noncomputable abbrev posPoly (gF : F) (v : List Nat) : F[X] := polyOfList (v.map (eltOf gF (card F)))

theorem count_table {c c' : Curve F} {t : ReductionTable} (h : c.count t = .ok c') : c'.table = c.table := by
  unfold Curve.count at h
  split at h
  · cases h
  split at h
  · cases h; rfl
  obtain ⟨_, _, h⟩ := Res.bind_eq_ok.1 h
  obtain ⟨_, _, h⟩ := Res.bind_eq_ok.1 h
  obtain ⟨_, _, h⟩ := Res.bind_eq_ok.1 h
  obtain ⟨_, _, h⟩ := Res.bind_eq_ok.1 h
  cases h
  rfl

theorem countAll_table {ts : List ReductionTable} : ∀ {c c' : Curve F}, countAll c ts = .ok c' → c'.table = c.table := by
  induction ts with
  | nil => intro c c' h; cases h; rfl
  | cons t ts ih =>
    intro c c' h
    rw [countAll, List.foldlM_cons] at h
    obtain ⟨d, h1, h2⟩ := Res.bind_eq_ok.1 h
    rw [ih h2, count_table h1]

/-- What is known about a position that is visited, with multiplicity `n`. -/
structure GoodPos (gF : F) (table : FqElementTable F) (r : Nat) (v : List Nat) (n : Nat) : Prop where
  lt : ∀ e ∈ v, e < card F
  len : v.length < 4294967296
  pos : 0 < (posPoly gF v).natDegree
  deg : (posPoly gF v).natDegree < 2147483647
  degr : (posPoly gF v).natDegree * r < 4294967296
  mult : (Curve.make table v >>= fun c => CurveIterator.multiplicity table.prime table.primePower c.rhsSupport) = .ok n
  npos : 0 < n
  small : Squarefree (posPoly gF v) → n < 4611686018427387904

/-- What is registered for a position with squarefree right hand side. -/
structure PosData (E : Nat → Extension F) (m : Nat) (gF ν : F) (v : List Nat) (n : Nat) (x : CurveData) : Prop where
  key : IsKey E m (posPoly gF v) x.key
  twisted : IsKey E m (C ν * posPoly gF v) x.twisted
  count : x.count = n

theorem curveStep_squarefree (hp2 : p ≠ 2) (hT : BuiltFqTable p r gF table)
    (hE : ∀ k, 0 < k → k ≤ m → BuiltExtension p r gF E g rt k) (hfl : FlintOk rep fl)
    {rts : List ReductionTable} (hts : rts.Perm ((List.range m).map fun k => rt (k + 1)))
    {ν : F} (hν : ¬ IsSquare ν) {v : List Nat} {n : Nat} (hv : GoodPos gF table r v n)
    (hsf : Squarefree (posPoly gF v)) :
    ∃ c x, IsData fl c x ∧ PosData E m gF ν v n x ∧
      ∀ st, Compute.curveStep fl table rts st v = Store.registerCurve fl st c := by
  obtain ⟨c, h1, h2⟩ := Res.bind_eq_ok.1 hv.mult
  obtain ⟨_, _, _, hg, e1, e2, _, e3, _⟩ := hT.facts
  obtain ⟨hgc, htab, _, hpoly⟩ := goodCurve_of_make e1 e2 e3 hv.lt hv.len h1 gF
  have hdeg : c.degree = (posPoly gF v).natDegree := by
    rw [degree_eq hgc.ne hgc.len, ← natDegree_rhs hg hgc, hpoly]
  obtain ⟨b, h3, h4⟩ := C49_squarefree hT hfl hv.lt hv.len h1
  obtain rfl : b = true := h4.2 hsf
  obtain ⟨c', k, h5, h6, h7, h8⟩ := C50_key hp2 hT hE hfl hv.lt hv.len h1 hsf
    (by rw [hdeg]; have := hv.deg; omega) (by rw [hdeg]; exact hv.degr) hts
  obtain ⟨k', h9, h10⟩ := h8.twist hp2 hT hE hsf.ne_zero hν
  have ht' := countAll_table h5
  refine ⟨c', ⟨k, k', n⟩, ⟨h7, h9, ?_, ?_⟩, ⟨h8, h10, rfl⟩, fun st => ?_⟩
  · have hsup : c'.rhsSupport = c.rhsSupport := by
      unfold Curve.rhsSupport
      rw [h6, ht']
    unfold Store.countOf
    rw [hsup, ht', htab, h2]
    rfl
  · have := hv.small hsf
    exact ⟨by simp only; omega, by simp only; omega⟩
  · unfold Compute.curveStep
    rw [h1, Res.bind_ok, h3, Res.bind_ok, if_pos rfl]
    have h5' : List.foldlM Curve.count c rts = Res.ok c' := h5
    rw [h5', Res.bind_ok]

theorem curveStep_not_squarefree (hT : BuiltFqTable p r gF table) (hfl : FlintOk rep fl)
    {rts : List ReductionTable} {v : List Nat} {n : Nat} (hv : GoodPos gF table r v n)
    (hsf : ¬ Squarefree (posPoly gF v)) (st : StoreMap) : Compute.curveStep fl table rts st v = .ok st := by
  obtain ⟨c, h1, h2⟩ := Res.bind_eq_ok.1 hv.mult
  obtain ⟨b, h3, h4⟩ := C49_squarefree hT hfl hv.lt hv.len h1
  obtain rfl : b = false := by
    cases b with
    | false => rfl
    | true => exact absurd (h4.1 rfl) hsf
  unfold Compute.curveStep
  rw [h1, Res.bind_ok, h3, Res.bind_ok, if_neg (by decide)]
  rfl

/-- A list of positions. -/
theorem foldl_curveStep (hp2 : p ≠ 2) (hT : BuiltFqTable p r gF table)
    (hE : ∀ k, 0 < k → k ≤ m → BuiltExtension p r gF E g rt k) (hfl : FlintOk rep fl)
    {rts : List ReductionTable} (hts : rts.Perm ((List.range m).map fun k => rt (k + 1)))
    {ν : F} (hν : ¬ IsSquare ν) (mult : List Nat → Nat)
    [DecidablePred fun v => Squarefree (posPoly gF v)] : ∀ {L : List (List Nat)},
    (∀ v ∈ L, GoodPos gF table r v (mult v)) →
    ∃ cs xs, List.Forall₂ (IsData fl) cs xs ∧
      List.Forall₂ (fun v x => PosData E m gF ν v (mult v) x) (L.filter fun v => Squarefree (posPoly gF v)) xs ∧
      ∀ st, L.foldlM (Compute.curveStep fl table rts) st = cs.foldlM (Store.registerCurve fl) st
  | [], _ => ⟨[], [], .nil, .nil, fun _ => rfl⟩
  | v :: L, h => by
    obtain ⟨cs, xs, h1, h2, h3⟩ := foldl_curveStep hp2 hT hE hfl hts hν mult (L := L)
      fun w hw => h w (List.mem_cons_of_mem _ hw)
    by_cases hsf : Squarefree (posPoly gF v)
    · obtain ⟨c, x, h4, h5, h6⟩ := curveStep_squarefree hp2 hT hE hfl hts hν (h v List.mem_cons_self) hsf
      refine ⟨c :: cs, x :: xs, .cons h4 h1, ?_, fun st => ?_⟩
      · rw [List.filter_cons_of_pos (by simpa using hsf)]
        exact .cons h5 h2
      · rw [List.foldlM_cons, List.foldlM_cons, h6]
        congr 1
        funext s
        exact h3 s
    · refine ⟨cs, xs, h1, ?_, fun st => ?_⟩
      · rw [List.filter_cons_of_neg (by simpa using hsf)]
        exact h2
      · rw [List.foldlM_cons, curveStep_not_squarefree hT hfl (h v List.mem_cons_self) hsf, Res.bind_ok]
        exact h3 st

/-- The loop over a block. -/
theorem loop_eq {rts : List ReductionTable} : ∀ {n : Nat} {it : BlockIterator} {L : List (List Nat)},
    BlockIterator.visits BlockIterator.asPosition n it = .ok L → ∀ st,
    Compute.loop fl table rts n it st = L.foldlM (Compute.curveStep fl table rts) st := by
  intro n
  induction n with
  | zero => intro it L h; cases h
  | succ n ih =>
    intro it L h st
    unfold BlockIterator.visits at h
    unfold Compute.loop
    split
    · rename_i hend
      rw [if_pos hend] at h
      cases h
      rfl
    · rename_i hend
      rw [if_neg hend] at h
      obtain ⟨v, h1, h⟩ := Res.bind_eq_ok.1 h
      obtain ⟨it', h2, h⟩ := Res.bind_eq_ok.1 h
      obtain ⟨l, h3, h⟩ := Res.bind_eq_ok.1 h
      cases h
      rw [h1, Res.bind_ok, List.foldlM_cons]
      congr 1
      funext s
      rw [h2, Res.bind_ok]
      exact ih h3 s

/-- The bound on the number of turns. -/
theorem visits_length {α : Type} {visit : BlockIterator → Res α} : ∀ {n : Nat} {it : BlockIterator} {L : List α},
    BlockIterator.visits visit n it = .ok L → ∀ k, L.length < k → BlockIterator.visits visit k it = .ok L := by
  intro n
  induction n with
  | zero => intro it L h; cases h
  | succ n ih =>
    intro it L h k hk
    obtain ⟨k, rfl⟩ : ∃ j, k = j + 1 := ⟨k - 1, by omega⟩
    unfold BlockIterator.visits at h ⊢
    split
    · rename_i hend
      rwa [if_pos hend] at h
    · rename_i hend
      rw [if_neg hend] at h
      obtain ⟨v, h1, h⟩ := Res.bind_eq_ok.1 h
      obtain ⟨it', h2, h⟩ := Res.bind_eq_ok.1 h
      obtain ⟨l, h3, h⟩ := Res.bind_eq_ok.1 h
      cases h
      rw [h1, Res.bind_ok, h2, Res.bind_ok, ih h3 k (by simpa using hk)]
      rfl

/-- All tuples in a box. -/
def boxTuples : List (Nat × Nat) → List (List Nat)
  | [] => [[]]
  | b :: bs => (List.range' b.1 (b.2 - b.1)).flatMap fun x => (boxTuples bs).map (x :: ·)

theorem length_boxTuples : ∀ box : List (Nat × Nat), (boxTuples box).length = Compute.size box
  | [] => rfl
  | b :: bs => by
    simp only [boxTuples, Compute.size, List.map_cons, List.prod_cons, List.length_flatMap, List.length_map,
      length_boxTuples bs]
    simp

theorem mem_boxTuples : ∀ {box : List (Nat × Nat)} {v : List Nat}, InBox box v → v ∈ boxTuples box
  | [], v, h => by
    have := List.length_eq_zero_iff.1 h.1
    simp [boxTuples, this]
  | b :: bs, v, h => by
    match v, h with
    | [], h => exact absurd h.1 (by simp)
    | x :: v, h =>
      obtain ⟨y, h1, h2, h3⟩ := h.2 0 b rfl
      cases h1
      simp only [boxTuples, List.mem_flatMap, List.mem_map]
      refine ⟨x, ?_, v, mem_boxTuples ⟨by simpa using h.1, fun i c hc => ?_⟩, rfl⟩
      · rw [List.mem_range'_1]
        omega
      · obtain ⟨z, h4, h5⟩ := h.2 (i + 1) c (by simpa using hc)
        exact ⟨z, by simpa using h4, h5⟩

/-- The computation of a block that is visited. -/
theorem block_eq {rts : List ReductionTable} {b : Block} (hne : b ≠ []) (hb : ∀ x ∈ b, x.1 < x.2 ∧ x.2 ≤ 2147483648)
    {L : List (List Nat)} (hL : L.Nodup) (hmem : ∀ v, v ∈ L ↔ InBox b v) :
    ∃ L' : List (List Nat), L'.Perm L ∧ Compute.block fl table rts b = L'.foldlM (Compute.curveStep fl table rts) [] := by
  obtain ⟨it, L', h1, ⟨N, h2⟩, h3, h4⟩ := C01_box_exact b hne hb
  refine ⟨L', (List.perm_ext_iff_of_nodup h3 hL).2 fun v => by rw [h4, hmem], ?_⟩
  unfold Compute.block
  rw [h1, Res.bind_ok]
  apply loop_eq
  refine visits_length (h2 N (le_refl _)) _ ?_
  have := (List.subperm_of_subset h3 fun v hv => mem_boxTuples ((h4 v).1 hv)).length_le
  rw [length_boxTuples] at this
  omega

/-! ### The tables -/

theorem exponentsLoop_eq {r : Nat} (hr : 0 < r) : ∀ (k n : Nat), k < n → Compute.exponentsLoop r n (k * r) =
    .ok ((List.range k).reverse.map fun j => (j + 1) * r)
  | 0, n, h => by
    obtain ⟨n, rfl⟩ : ∃ j, n = j + 1 := ⟨n - 1, by omega⟩
    unfold Compute.exponentsLoop
    rw [if_neg (by omega)]
    rfl
  | k + 1, n, h => by
    obtain ⟨n, rfl⟩ : ∃ j, n = j + 1 := ⟨n - 1, by omega⟩
    unfold Compute.exponentsLoop
    have hs : Compute.sizeSub ((k + 1) * r) r = k * r := by
      unfold Compute.sizeSub
      rw [Nat.succ_mul, if_pos (by omega), Nat.add_sub_cancel]
    rw [if_pos (Nat.mul_pos (by omega) hr), hs, exponentsLoop_eq hr k n (by omega), List.range_succ]
    simp

theorem exponents_eq {c : ConfigNode} (hr : 0 < c.primeExponent) (hlt : c.countExponent * c.primeExponent < 4294967296) :
    Compute.exponents c = .ok ((List.range c.countExponent).reverse.map fun j => (j + 1) * c.primeExponent) := by
  unfold Compute.exponents
  rw [u32_of_lt hlt]
  refine exponentsLoop_eq hr _ _ ?_
  have := Nat.mul_le_mul_left c.countExponent hr
  omega

end Hycu
