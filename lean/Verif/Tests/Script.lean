import Verif.Tests.Reference
import Verif.Model.ReferenceStore

/-!
Tests of the model of the script test/create_reference_store.sage: it gives the reference stores of the source for genus 1.
-/

namespace Hycu
namespace Tests

/-- The prime field in place of all extensions (for genus 1 only the first is used). -/
def trivialExtension (p : Nat) [Fact p.Prime] : Nat → Extension (ZMod p) := fun _ =>
  ⟨ZMod p, inferInstance, inferInstance, inferInstance, RingHom.id _⟩

/-- Simple programs in place of Sage. -/
def sage (p : Nat) [Fact p.Prime] : Reference.Sage p (trivialExtension p) where
  elements _ := ((List.range p).map (Nat.cast : Nat → ZMod p))
  isSquare _ x := (List.range p).any fun y => ((y : ZMod p) ^ 2 = (x : ZMod p))
  isSquarefree cs := squarefree p (cs.map ZMod.val)
  factor cs := (factor p (cs.map ZMod.val)).map fun f => (f.1.map (Nat.cast : Nat → ZMod p), f.2)

#guard Reference.store (sage 5) 1 = reference51
#guard Reference.store (sage 7) 1 = reference71

end Tests
end Hycu
