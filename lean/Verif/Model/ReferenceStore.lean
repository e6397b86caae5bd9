import Mathlib.Algebra.Field.ZMod
import Verif.Spec.Extension
import Verif.Model.Compute

/-!
The script that computes the reference stores of the tests (test/create_reference_store.sage).  What it calls of Sage is a
parameter; see `Sage.Ok` for what is assumed about it.
-/

namespace Hycu
namespace Reference

open Fintype

/-- What the script uses of Sage, for the prime field of `p` elements and its extensions `GF(p^n)`, which are `E n`: the
elements of a field in the order of iteration, `is_square`, and `is_squarefree` and `factor` for polynomials over the prime
field, given by coefficients, constant coefficient first. -/
structure Sage (p : Nat) [Fact p.Prime] (E : Nat → Extension (ZMod p)) where
  elements : ∀ n, List (E n).K
  isSquare : ∀ n, (E n).K → Bool
  isSquarefree : List (ZMod p) → Bool
  factor : List (ZMod p) → List (List (ZMod p) × Nat)

/-- `xmrange(sizes)` of Sage: all lists with entries `0 ≤ a < n` for the `n` in `sizes`, in lexicographic order. -/
def xmrange : List Nat → List (List Nat)
  | [] => [[]]
  | n :: ns => (List.range n).flatMap fun a => (xmrange ns).map (a :: ·)

/-- The dictionary `curve_count`: entries in the order of insertion. -/
abbrev Dict := List ((List Nat × List Int) × Nat)

/-- `curve_count[key] += 1`, or `= 1` if there is no such entry (test/create_reference_store.sage l.92-95). -/
def bump (key : List Nat × List Int) : Dict → Dict
  | [] => [(key, 1)]
  | e :: d => if e.1 = key then (e.1, e.2 + 1) :: d else e :: bump key d

variable {p : Nat} [Fact p.Prime] {E : Nat → Extension (ZMod p)}

/-- `rhs(x)` for `x` in an extension field. -/
def evalAt (n : Nat) (rhs : List (ZMod p)) (x : (E n).K) : (E n).K := rhs.foldr (fun a s => (E n).ι a + x * s) 0

/-- The coefficients without those at the end that are zero, as Sage keeps polynomials. -/
def trim (rhs : List (ZMod p)) : List (ZMod p) := (rhs.reverse.dropWhile (· = 0)).reverse

/-- `rhs.degree()`, for polynomials that are not zero. -/
def degree (rhs : List (ZMod p)) : Nat := (trim rhs).length - 1

/-- `rhs.leading_coefficient()`, for polynomials that are not zero. -/
def leading (rhs : List (ZMod p)) : ZMod p := (trim rhs).getLastD 0

/-- One pass of the loop over the values (test/create_reference_store.sage l.77-79). -/
def tally (S : Sage p E) (n : Nat) (c : Nat × Nat) (y : (E n).K) : Nat × Nat :=
  if y = 0 then (c.1, c.2 + 1) else if S.isSquare n y then (c.1 + 2, c.2) else c

/-- The number that is stored in `hasse_weil_offsets` for a field (test/create_reference_store.sage l.75-84). -/
def offset (S : Sage p E) (n : Nat) (rhs : List (ZMod p)) : Int :=
  let c := ((S.elements n).map (evalAt n rhs)).foldl (tally S n) (0, 0)
  let c := if degree rhs % 2 ≠ 0 then (c.1, c.2 + 1)
    else if S.isSquare n ((E n).ι (leading rhs)) then (c.1 + 2, c.2) else c
  ((S.elements n).length : Int) + 1 - ((c.1 + c.2 : Nat) : Int)

/-- `ramification_type` (test/create_reference_store.sage l.86-88). -/
def ramification (S : Sage p E) (rhs : List (ZMod p)) : List Nat :=
  let l := ((S.factor rhs).map fun f => degree f.1).mergeSort (· ≤ ·)
  if degree rhs % 2 = 1 then 1 :: l else l

/-- `count_rhs` (test/create_reference_store.sage l.71-95), for the fields `GF(p^n)` with `1 ≤ n ≤ m`. -/
def countRhs (S : Sage p E) (m : Nat) (d : Dict) (rhs : List (ZMod p)) : Dict :=
  if S.isSquarefree rhs then
    bump (ramification S rhs, (List.range m).map fun j => offset S (j + 1) rhs) d
  else d

/-- One of the two loops over coefficients (test/create_reference_store.sage l.62-64 and l.65-67). -/
def countDegree (S : Sage p E) (m k : Nat) (d : Dict) : Dict :=
  (xmrange (List.replicate k p)).foldl (fun d coeffs =>
    if coeffs.getLastD 0 = 0 then d else countRhs S m d (coeffs.map (Nat.cast : Nat → ZMod p))) d

/-- `count_curves` (test/create_reference_store.sage l.56-69). -/
def countCurves (S : Sage p E) (genus : Nat) : Dict :=
  countDegree S genus (2 * genus + 3) (countDegree S genus (2 * genus + 2) [])

/-- The comparison of tuples in Python: `((ramification_type, hasse_weil_offsets), count)`. -/
def itemLe (a b : (List Nat × List Int) × Nat) : Bool :=
  decide (a.1.1 < b.1.1) || (decide (a.1.1 = b.1.1) &&
    (decide (a.1.2 < b.1.2) || (decide (a.1.2 = b.1.2) && decide (a.2 ≤ b.2))))

/-- `sorted(curve_count.items())`: the entries of the reference store, in the order in which they are written
(test/create_reference_store.sage l.23-31). -/
def items (S : Sage p E) (genus : Nat) : Dict := (countCurves S genus).mergeSort itemLe

/-- The map that the generated header makes: `store[..] = ..` for each entry (test/create_reference_store.sage l.24-27,
test/reference_store_q7_g2.hh). -/
def store (S : Sage p E) (genus : Nat) : StoreMap :=
  (items S genus).foldl (fun m e => OMap.set m ⟨e.1.1, e.1.2⟩ (e.2 : Int)) []

/-- `TestStore::flush_to_static_store` (test/test_store.hh l.59-72): as that of `Store`, but without a record. -/
def flush (static m : StoreMap) : Res StoreMap := m.foldlM (fun s e => Store.addEntry s e.1 e.2) static

/-- The static store after blocks have been computed and flushed in some order (test/threaded.cc: threads of a pool do this
once for every block, see C38). -/
def testRun (w : Flint) (c : ConfigNode) (order : List Block) : Res StoreMap :=
  order.foldlM (fun s b => do
    let m ← w.env.compute c b
    flush s m) []

end Reference
end Hycu
