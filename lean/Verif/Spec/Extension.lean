import Verif.Spec.Setting
import Verif.Model.Curve

/-!
Families of extension fields with their reduction tables.
-/

namespace Hycu

open Fintype

/-- A finite extension field of `F`. -/
structure Extension (F : Type) [Field F] where
  K : Type
  fld : Field K
  fin : Fintype K
  dec : DecidableEq K
  ι : F →+* K

attribute [instance] Extension.fld Extension.fin Extension.dec

/-- `E k` is an extension of the field of `p^r` elements, has `p^(k r)` elements, `rt k` is its reduction
table as built by the constructor with generator `g k` matching the generator `gF`, and its size is within
the range of the code. -/
structure BuiltExtension {F : Type} [Field F] [Fintype F] (p r : Nat) (gF : F) (E : Nat → Extension F)
    (g : ∀ k, (E k).K) (rt : Nat → ReductionTable) (k : Nat) : Prop where
  pos : 0 < k
  built : BuiltReductionTable p (k * r) (g k) (rt k)
  gens : GeneratorsMatch gF (g k) (E k).ι
  small : card (E k).K < 2147483647
  openclSmall : (rt k).opencl = true → card (E k).K ≤ 1073741824

/-- Counting with several reduction tables one after the other (as in src/threaded/thread.cc l.90). -/
def countAll {F : Type} (c : Curve F) (ts : List ReductionTable) : Res (Curve F) := ts.foldlM Curve.count c

end Hycu
