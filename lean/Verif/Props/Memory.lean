import Verif.Lemmas.MemoryNaive
import Mathlib.Algebra.Field.ZMod

/-!
C63: memory of FLINT objects.
-/

namespace Hycu.Memory

variable {I : Type} {U : I → Type} {i : I}

/-- The number of cells. -/
theorem Ext.card {H h : Heap U} {l : List (Nat × Obj U)} (e : Ext H l h) : h.keys.card = H.keys.card + l.length := by
  have hk : h.keys = H.keys ∪ (l.map Prod.fst).toFinset := by
    ext p
    rw [Finset.mem_union, List.mem_toFinset, Finmap.mem_keys, Finmap.mem_keys, Finmap.mem_iff, Finmap.mem_iff]
    by_cases hp : p ∈ l.map Prod.fst
    · obtain ⟨⟨q, o⟩, h1, rfl⟩ := List.mem_map.1 hp
      exact ⟨fun _ => Or.inr hp, fun _ => ⟨o, e.get q o h1⟩⟩
    · rw [e.other p hp]
      simp only [hp, or_false]
  rw [hk, Finset.card_union_of_disjoint, List.toFinset_card_of_nodup e.nodup, List.length_map]
  rw [Finset.disjoint_left]
  intro p h1 h2
  exact e.fresh p (List.mem_toFinset.1 h2) (Finmap.mem_keys.1 h1)

theorem Holds.of_ext {H h : Heap U} {t : Table} {c : List (Nat × U i)} (ht : t.elements = c.map Prod.fst)
    (e : Ext H (cells c ++ [(t.ctx, .ctx i)]) h) : Holds i t (c.map Prod.snd) h := by
  refine ⟨e.get _ _ (by simp), by rw [ht, List.length_map, List.length_map], fun n p x h1 h2 => e.get _ _ ?_⟩
  rw [ht, List.getElem?_map] at h1
  rw [List.getElem?_map] at h2
  obtain ⟨q, h3, rfl⟩ := Option.map_eq_some_iff.1 h1
  rw [h3] at h2
  cases h2
  exact List.mem_append_left _ (List.mem_map.2 ⟨q, List.mem_of_getElem? h3, rfl⟩)

variable [DecidableEq I]

section

variable [Field (U i)] [DecidableEq (U i)]

/-- C63: the constructor of `FqElementTable`, with all its unsuccessful attempts to find a generator, uses and clears only
objects that are initialised, and does what the model says; afterwards exactly the elements of the table and the context
are in memory in addition, and the destructor gives them back. -/
theorem C63_table (A : Allocator U) (cand : Nat → U i) (prime primeExponent fuel : Nat) (h : Heap U) :
    match FqElementTable.make cand prime primeExponent fuel with
    | .ok t => ∃ T h', makeTable A i cand prime primeExponent fuel h = .ok (T, h') ∧ T.prime = t.prime ∧
        T.primeExponent = t.primeExponent ∧ T.primePower = t.primePower ∧ T.primePowerPred = t.primePowerPred ∧
        Holds i T t.fqElements h' ∧ (∀ p o, h.lookup p = some o → h'.lookup p = some o) ∧
        h'.keys.card = h.keys.card + t.fqElements.length + 1 ∧ destroyTable i T h' = .ok h
    | .diverge => makeTable A i cand prime primeExponent fuel h = .diverge
    | .ub => 4294967296 ≤ prime ^ primeExponent ∧ makeTable A i cand prime primeExponent fuel h = .ub
    | .abort => False := by
  have := makeTable_ext A cand prime primeExponent fuel h
  revert this
  rcases FqElementTable.make cand prime primeExponent fuel with t | _ | _ | _
  · rintro ⟨ctx, c, h', h1, h2, h3⟩
    refine ⟨_, h', h1, rfl, rfl, rfl, rfl, ?_, fun p o hp => h3.base hp, ?_, destroyTable_ext rfl h3⟩
    · rw [← h2]
      exact Holds.of_ext rfl h3
    · rw [h3.card, ← h2]
      simp [cells, Nat.add_assoc]
  · exact id
  · exact id
  · exact id

omit [DecidableEq (U i)] in
/-- C63: `compute_incrementation_table` does what the model says and gives back all memory. -/
theorem C63_incrementation (A : Allocator U) (coeff : U i → Nat → Nat) (cand : Nat → U i)
    (prime primeExponent primePower fuel : Nat) (h : Heap U) :
    computeIncrementationTable A i coeff cand prime primeExponent primePower fuel h =
      ReductionTable.computeIncrementationTable coeff cand prime primeExponent primePower fuel >>= fun v => .ok (v, h) :=
  computeIncrementationTable_eq A coeff cand prime primeExponent primePower fuel h

omit [DecidableEq (U i)] in
/-- C63: while the table is in memory, `has_squarefree_rhs` and the factorisation in `ramification_type` do what the model
says and leave the memory as it was. -/
theorem C63_curve {T : Table} {c : Curve (U i)} (he : T.primeExponent = c.table.primeExponent) {h : Heap U}
    (ht : Holds i T c.table.fqElements h) (hn : c.coeffs ≠ []) (A : Allocator U) (fl : FlintPoly (U i)) :
    hasSquarefreeRhs A i fl T c.coeffs h = c.hasSquarefreeRhs fl >>= (fun b => .ok (b, h)) ∧
      rhsFactorDegrees A i fl T c.coeffs h = c.rhsFactorDegrees fl >>= fun l => .ok (l, h) :=
  ⟨hasSquarefreeRhs_eq he ht A fl, rhsFactorDegrees_eq he ht hn A fl⟩

/-- C63: every call of `count_naive_nmod` or `count_naive_zech` that counts loses as many field elements as the polynomial has
coefficients: they stay in memory (and nothing points to them). -/
theorem C63_naive_leaks {F : Type} {c c' : Curve F} {gen : U i} {e : Nat} (hn : c.nmbPoints.contains e = false)
    (hc : c.countNaive gen e = .ok c') (A : Allocator U) (h : Heap U) :
    ∃ n h', countNaive A i c gen e h = .ok (n, h') ∧ c' = { c with nmbPoints := c.nmbPoints.set e n } ∧
      (∀ p o, h.lookup p = some o → h'.lookup p = some o) ∧
      (∀ p o, h'.lookup p = some o → h.lookup p = some o ∨ h.lookup p = none ∧ ∃ x, o = .fq i x) ∧
      h'.keys.card = h.keys.card + c.coeffs.length := by
  obtain ⟨n, d, h', h1, h2, h3, h4⟩ := countNaive_ext hn hc A h
  refine ⟨n, h', h1, h2, fun p o hp => h4.base hp, fun p o hp => ?_, ?_⟩
  · by_cases hm : p ∈ (cells (i := i) d).map Prod.fst
    · refine Or.inr ⟨Finmap.lookup_eq_none.2 (h4.fresh p hm), ?_⟩
      obtain ⟨⟨q, o'⟩, h5, rfl⟩ := List.mem_map.1 hm
      rw [h4.get q o' h5] at hp
      cases hp
      obtain ⟨y, _, h6⟩ := List.mem_map.1 h5
      cases h6
      exact ⟨y.2, rfl⟩
    · rw [h4.other p hm] at hp
      exact Or.inl hp
  · rw [h4.card, ← h3]
    simp [cells]

end

/-- C63: a table must not be destroyed twice (for instance, after it was copied): this is undefined behaviour. -/
theorem C63_twice {T : Table} {h h' : Heap U} (hd : destroyTable i T h = .ok h') : destroyTable i T h' = .ub := by
  have hl : h'.lookup T.ctx = none := by
    rw [destroyTable] at hd
    obtain ⟨h1, _, hd⟩ := Res.bind_eq_ok.1 hd
    rw [drop] at hd
    obtain ⟨h2, _, hd⟩ := Res.bind_eq_ok.1 hd
    rw [delete] at hd
    split at hd
    · cases hd
      exact Finmap.lookup_erase _ _
    · cases hd
  rw [destroyTable]
  cases T.elements with
  | nil =>
    rw [dropAll, Res.bind_ok, drop, clear, hl]
    rfl
  | cons p ps =>
    rw [dropAll, fqDrop, fqClear, useCtx, hl]
    rfl

/-- An allocator. -/
def top (U : I → Type) : Allocator U where
  pick h := h.keys.sup id + 1
  fresh h hp := by
    have := Finset.le_sup (f := id) (Finmap.mem_keys.2 hp)
    simp only [id] at this
    omega

local instance : Fact (Nat.Prime 5) := ⟨by decide⟩

/-- `C63_table` for the field of 5 elements: the first candidate is no generator. -/
example : FqElementTable.make (F := ZMod 5) (fun k => if k = 0 then 4 else 2) 5 1 2 =
    .ok ⟨5, 1, 5, 4, [1, 2, 4, 3, 0]⟩ := rfl

/-- Hypotheses of `C63_curve`. -/
example : ∃ (T : Table) (h : Heap fun _ : Unit => ZMod 5) (c : Curve (ZMod 5)), c.coeffs = [0, 1, 4, 0] ∧
    T.primeExponent = c.table.primeExponent ∧ Holds () T c.table.fqElements h := by
  have h1 := C63_table (i := ()) (top fun _ : Unit => ZMod 5) (fun k => if k = 0 then 4 else 2) 5 1 2 ∅
  rw [show FqElementTable.make (F := ZMod 5) (fun k => if k = 0 then 4 else 2) 5 1 2 =
    .ok ⟨5, 1, 5, 4, [1, 2, 4, 3, 0]⟩ from rfl] at h1
  obtain ⟨T, h, _, _, h2, _, _, h3, _⟩ := h1
  exact ⟨T, h, ⟨⟨5, 1, 5, 4, [1, 2, 4, 3, 0]⟩, [0, 1, 4, 0], []⟩, rfl, h2, h3⟩

/-- Hypotheses of `C63_naive_leaks`: four elements are lost when the points of a curve over the field of 5 elements are
counted. -/
example : ∃ c' : Curve (ZMod 5), (⟨⟨5, 1, 5, 4, [1, 2, 4, 3, 0]⟩, [0, 1, 4, 0], []⟩ : Curve (ZMod 5)).countNaive
    (2 : ZMod 5) 1 = .ok c' := ⟨_, rfl⟩

end Hycu.Memory
