/-
Specification of the sets of tuples a `BlockIterator` is asked to run over.  Nothing here refers to
the model of the code.
-/

namespace Hycu

/-- A description of a set of tuples, coordinate by coordinate.  `blocks`: coordinate, lower bound,
upper bound (exclusive).  `sets`: coordinate and its values.  `deps`: coordinate `i`, the coordinate
`j` it is coupled to, and a table from the choice made in coordinate `j` to the values of coordinate
`i`.  The choice in coordinate `j` is named by the index in the set of `j` or, if `j` is a range, by
the value. -/
structure Descr where
  length : Nat
  blocks : List (Nat × Nat × Nat)
  sets : List (Nat × List Nat)
  deps : List (Nat × Nat × List (Nat × List Nat))

/-- The values of coordinate `i` that go with the choice `c` in the coordinate it is coupled to. -/
def Descr.Allowed (M : List (Nat × List Nat)) (c : Nat) (x : Nat) : Prop :=
  ∃ T, (c, T) ∈ M ∧ x ∈ T

/-- The tuple `v` belongs to the described set. -/
structure Descr.Contains (d : Descr) (v : List Nat) : Prop where
  length_eq : v.length = d.length
  block : ∀ i lo hi, (i, lo, hi) ∈ d.blocks → ∃ x, v[i]? = some x ∧ lo ≤ x ∧ x < hi
  set : ∀ i S, (i, S) ∈ d.sets → ∃ x, v[i]? = some x ∧ x ∈ S
  dep_set : ∀ i j M S, (i, j, M) ∈ d.deps → (j, S) ∈ d.sets →
    ∃ k y x, S[k]? = some y ∧ v[j]? = some y ∧ v[i]? = some x ∧ Descr.Allowed M k x
  dep_block : ∀ i j M lo hi, (i, j, M) ∈ d.deps → (j, lo, hi) ∈ d.blocks →
    ∃ y x, v[j]? = some y ∧ v[i]? = some x ∧ Descr.Allowed M y x

/-- The requirements on a description: the keys of the three parts (each sorted, as in a `std::map`)
are exactly the coordinates, no coordinate is described twice, everything is non-empty without
repetition, and coordinates may be coupled to sets or, if the package size is 1, to ranges.  Upper
bounds are at most 2^31, sizes stay below 2^31. -/
structure Descr.Valid (d : Descr) (package : Nat) : Prop where
  pos : 0 < d.length
  package_pos : 0 < package
  blocks_sorted : (d.blocks.map Prod.fst).Pairwise (· < ·)
  sets_sorted : (d.sets.map Prod.fst).Pairwise (· < ·)
  deps_sorted : (d.deps.map Prod.fst).Pairwise (· < ·)
  cover : ∀ i, i < d.length ↔
    i ∈ d.blocks.map Prod.fst ∨ i ∈ d.sets.map Prod.fst ∨ i ∈ d.deps.map Prod.fst
  disj_bs : ∀ i, i ∈ d.blocks.map Prod.fst → i ∉ d.sets.map Prod.fst
  disj_bd : ∀ i, i ∈ d.blocks.map Prod.fst → i ∉ d.deps.map Prod.fst
  disj_sd : ∀ i, i ∈ d.sets.map Prod.fst → i ∉ d.deps.map Prod.fst
  block_ok : ∀ i lo hi, (i, lo, hi) ∈ d.blocks → lo < hi ∧ hi ≤ 2147483648
  set_ok : ∀ i S, (i, S) ∈ d.sets → S ≠ [] ∧ S.Nodup ∧ S.length < 2147483648 ∧
    ∀ x ∈ S, x < 2147483648
  dep_sorted : ∀ i j M, (i, j, M) ∈ d.deps → (M.map Prod.fst).Pairwise (· < ·)
  dep_ok : ∀ i j M c T, (i, j, M) ∈ d.deps → (c, T) ∈ M → T ≠ [] ∧ T.Nodup ∧
    T.length < 2147483648 ∧ ∀ x ∈ T, x < 2147483648
  dep_coupled : ∀ i j M, (i, j, M) ∈ d.deps →
    (∃ S, (j, S) ∈ d.sets ∧ ∀ k, k < S.length → ∃ T, (k, T) ∈ M) ∨
    (∃ lo hi, (j, lo, hi) ∈ d.blocks ∧ package = 1 ∧ ∀ x, lo ≤ x → x < hi → ∃ T, (x, T) ∈ M)

/-- The tuple `v` lies in the box with the given ranges. -/
def InBox (box : List (Nat × Nat)) (v : List Nat) : Prop :=
  v.length = box.length ∧ ∀ (i : Nat) (b : Nat × Nat), box[i]? = some b →
    ∃ x, v[i]? = some x ∧ b.1 ≤ x ∧ x < b.2

/-- Number of tuples in a box. -/
def boxSize (box : List (Nat × Nat)) : Nat := (box.map fun b => b.2 - b.1).prod

end Hycu
