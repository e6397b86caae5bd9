import Verif.Model.Ramification

/-!
Model of `HyCu::CurveData::ExplicitRamificationHasseWeil` (src/store/curve_data.hh, curve_data.cc), without
printing and parsing.
-/

namespace Hycu

/-- `ExplicitRamificationHasseWeil::ValueType` (src/store/curve_data.hh l.62-82): the keys of stores.  `==` compares
both fields (l.94-103). -/
structure Key where
  ramification : List Nat
  offsets : List Int
deriving DecidableEq

namespace Key

/-- `less::operator()` (src/store/curve_data.cc l.32-46). -/
def less (a b : Key) : Bool :=
  if CppLess.lt a.ramification b.ramification then true
  else if a.ramification = b.ramification then
    if CppLess.lt a.offsets b.offsets then true else false
  else false

instance : CppLess Key := ⟨less⟩

/-- Unary minus on `int`: overflow is undefined. -/
def negInt (z : Int) : Res Int := if z = -2147483648 then .ub else .ok (-z)

/-- The entry pushed in the loop of `twist` (src/store/curve_data.cc l.56-59). -/
def twistOne (odd : Bool) (z : Int) : Res Int := if odd then negInt z else .ok z

/-- The loop of `twist` (src/store/curve_data.cc l.54-61). -/
def twistLoop : Bool → List Int → Res (List Int)
  | _, [] => .ok []
  | odd, z :: zs => do
    let w ← twistOne odd z
    let ws ← twistLoop (!odd) zs
    pure (w :: ws)

/-- `twist` (src/store/curve_data.cc l.48-64). -/
def twist (k : Key) : Res Key := do
  let ws ← twistLoop true k.offsets
  pure ⟨k.ramification, ws⟩

/-- The constructor from a curve (src/store/curve_data.hh l.54-58). -/
def ofCurve {F : Type} (fl : FlintPoly F) (c : Curve F) : Res Key := do
  let rs ← c.ramificationType fl
  let m ← c.maxPrimeExponent
  let os ← c.hasseWeilOffsets m
  pure ⟨rs, os⟩

end Key
end Hycu
