import Verif.Model.Memory

/-!
What it means that a table is in memory.
-/

namespace Hycu.Memory

variable {I : Type} {U : I → Type}

/-- The table `t` is in memory, and has the elements `vs`. -/
structure Holds (i : I) (t : Table) (vs : List (U i)) (h : Heap U) : Prop where
  ctx : h.lookup t.ctx = some (.ctx i)
  len : t.elements.length = vs.length
  get : ∀ (n : Nat) (p : Nat) (x : U i), t.elements[n]? = some p → vs[n]? = some x → h.lookup p = some (.fq i x)

end Hycu.Memory
