import Verif.Model.Tables

/-!
The setting of point counts: which tables are given.
-/

namespace Hycu

open Fintype

/-- `table` was built by the constructor `FqElementTable(p, r)` for the field `F` of `p^r` elements, and
the search for a generator found `g`: `g` is the first primitive candidate and no earlier candidate was
zero (see `C48_zero_candidate_accepted` for what happens otherwise). -/
structure BuiltFqTable {F : Type} [Field F] [Fintype F] [DecidableEq F] (p r : Nat) (g : F)
    (table : FqElementTable F) : Prop where
  rep : Nonempty (FqRep F p r)
  built : ∃ (cand : Nat → F) (k fuel : Nat), FirstPrimitive cand k ∧ (∀ j, j < k → cand j ≠ 0) ∧
    cand k = g ∧ FqElementTable.make cand p r fuel = .ok table

/-- `rt` was built by the constructor `ReductionTable(p, e)` for the field `K` of `p^e` elements, and the search
for a generator found `g`. -/
structure BuiltReductionTable {K : Type} [Field K] [Fintype K] (p e : Nat) (g : K)
    (rt : ReductionTable) : Prop where
  built : ∃ (rep : FqRep K p e) (cand : Nat → K) (k fuel : Nat) (ocl : Bool), FirstPrimitive cand k ∧
    cand k = g ∧ ReductionTable.make rep.coeff cand p e ocl fuel = .ok rt

/-- The generators of `F` and of its extension `K` are related as the code assumes ("fixme" in
src/curve.cc l.338-339), along the embedding `ι`. -/
def GeneratorsMatch {F K : Type} [Field F] [Fintype F] [Field K] [Fintype K] (gF : F) (gK : K)
    (ι : F →+* K) : Prop := ι gF = gK ^ ((card K - 1) / (card F - 1))

end Hycu
