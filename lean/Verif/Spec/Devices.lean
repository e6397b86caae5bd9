import Verif.Model.Devices

/-!
What the list of devices should be, and how a compiler reads the options of a program.
-/

namespace Hycu
namespace OpenCL

/-- The vendor that is known when platform `i` has been asked: the last answer that was not an error. -/
def vendorOf {D : Type} (ps : List (Platform D)) (i : Nat) : List Char :=
  ((ps.take (i + 1)).filterMap Platform.vendor).getLast?.getD []

/-- The devices of a platform that can be used. -/
def Platform.listed {D : Type} (p : Platform D) : List D :=
  p.gpus.getD [] ++ p.accelerators.getD []

/-- The value of the macro `POLY_SIZE` defined by an option: `-D name=definition`, where the definition is a decimal
literal; a literal that begins with 0 is octal. -/
def polySize (options : List Char) : Option Nat :=
  if "-DPOLY_SIZE=".toList <+: options then
    let l := options.drop 12
    if l ≠ [] ∧ (∀ c ∈ l, isDigit c = true) ∧ (l.head? = some '0' → l = ['0']) then some (digitsVal l) else none
  else none

/-- The programs of an interface after some requests. -/
def requests (builds : List Char → Bool) (ds : List Nat) : Res (OMap Nat Program) :=
  ds.foldlM (fun cache d => do
    let r ← programEvaluation builds cache d
    pure r.1) []

end OpenCL
end Hycu
