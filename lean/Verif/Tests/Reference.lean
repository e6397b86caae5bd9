import Mathlib.Algebra.QuadraticAlgebra.Basic
import Mathlib.Algebra.Field.ZMod
import Mathlib.Tactic.NormNum.Prime
import Verif.Model.Compute
import Verif.Model.Single

/-!
Tests of the model: the tests of the source (test/block_iterator.cc, curve_iterator.cc, small_curves.cc, threaded.cc with
the reference stores, which were computed with Sage) are carried out with the model.  These are not proofs of properties;
they check that the model was read from the source correctly.

FLINT is replaced by simple programs for prime fields and quadratic extensions, with the generators that FLINT has from the
Conway polynomials.
-/

namespace Hycu
namespace Tests

/-! ### Polynomials over prime fields -/

/-- Remove leading zeros of a list of coefficients, constant coefficient first. -/
def trim (f : List Nat) : List Nat := (f.reverse.dropWhile (· == 0)).reverse

/-- The inverse of a residue. -/
def inverse (p a : Nat) : Nat := a ^ (p - 2) % p

/-- Quotient is not needed: the remainder of `f` by `g`, whose leading coefficient is not zero. -/
def remainder (p : Nat) (f g : List Nat) : List Nat :=
  (List.range (f.length + 1)).foldl (fun f _ =>
    let f := trim f
    if f.length < g.length then f
    else
      let c := f.getLastD 0 * inverse p (g.getLastD 0) % p
      let shift := List.replicate (f.length - g.length) 0 ++ g
      (f.zip shift).map fun ab => (ab.1 + (p - c) * ab.2) % p) (trim f)

/-- The quotient of `f` by `g`. -/
def quotient (p : Nat) (f g : List Nat) : List Nat :=
  ((List.range (f.length + 1)).foldl (fun (qf : List Nat × List Nat) _ =>
    let f := trim qf.2
    if f.length < g.length then (qf.1, f)
    else
      let c := f.getLastD 0 * inverse p (g.getLastD 0) % p
      let shift := List.replicate (f.length - g.length) 0 ++ g
      (qf.1.set (f.length - g.length) c, (f.zip shift).map fun ab => (ab.1 + (p - c) * ab.2) % p))
    (List.replicate (f.length + 1 - g.length) 0, trim f)).1

/-- The greatest common divisor, up to a constant. -/
def polyGcd (p : Nat) (f g : List Nat) : List Nat :=
  ((List.range (f.length + g.length + 1)).foldl (fun (fg : List Nat × List Nat) _ =>
    if fg.2 = [] then fg else (fg.2, remainder p fg.1 fg.2)) (trim f, trim g)).1

/-- The derivative. -/
def derivative (p : Nat) (f : List Nat) : List Nat := trim ((f.zipIdx.map fun ai => ai.1 * ai.2 % p).drop 1)

/-- Squarefree polynomials. -/
def squarefree (p : Nat) (f : List Nat) : Bool := f ≠ [] && (polyGcd p f (derivative p f)).length == 1

/-- Monic polynomials of a degree. -/
def monics (p : Nat) : Nat → List (List Nat)
  | 0 => [[1]]
  | n + 1 => (List.range p).flatMap fun a => (monics p n).map fun f => a :: f

/-- Divide by a polynomial as often as possible. -/
def divideOut (p : Nat) (g : List Nat) : Nat → List Nat → Nat × List Nat
  | 0, f => (0, f)
  | n + 1, f =>
    if remainder p f g = [] then
      let r := divideOut p g n (quotient p f g)
      (r.1 + 1, r.2)
    else (0, f)

/-- Factorisation by trial division, in the order of degrees. -/
def factor (p : Nat) (f : List Nat) : List (List Nat × Nat) :=
  let f := trim f
  let r := (((List.range (f.length / 2)).flatMap fun n => monics p (n + 1))).foldl
    (fun (r : List (List Nat × Nat) × List Nat) g =>
      if r.2.length < 2 * g.length - 1 then r
      else
        let d := divideOut p g f.length r.2
        (if d.1 = 0 then r.1 else r.1 ++ [(g, d.1)], d.2)) ([], f)
  if r.2.length ≤ 1 then r.1 else r.1 ++ [(r.2, 1)]

/-- The routines for a prime field. -/
def poly {F : Type} (p : Nat) (coeff : F → Nat → Nat) : FlintPoly F where
  coeff := coeff
  nmodIsSquarefree := squarefree p
  fqIsSquarefree _ := false
  nmodFactor := factor p
  fqFactor _ := []

#guard squarefree 5 [1, 2, 3, 1, 1, 0, 4]
#guard !squarefree 5 [1, 2, 1]
#guard factor 7 [0, 0, 1] = [([0, 1], 2)]
#guard factor 5 [1, 0, 1] = [([2, 1], 1), ([3, 1], 1)]

/-! ### Fields -/

instance : Fact (Nat.Prime 5) := ⟨by norm_num⟩
instance : Fact (Nat.Prime 7) := ⟨by norm_num⟩
instance : Fact (Nat.Prime 13) := ⟨by norm_num⟩

/-- The field with 25 elements, with the Conway polynomial `x^2 + 4x + 2`. -/
abbrev F25 := QuadraticAlgebra (ZMod 5) 3 1
/-- The field with 49 elements, with the Conway polynomial `x^2 + 6x + 3`. -/
abbrev F49 := QuadraticAlgebra (ZMod 7) 4 1

instance : Fact (∀ r : ZMod 5, r ^ 2 ≠ 3 + 1 * r) := ⟨by decide⟩
instance : Fact (∀ r : ZMod 7, r ^ 2 ≠ 4 + 1 * r) := ⟨by decide⟩

/-- Coefficients of elements of a prime field. -/
def coeff1 {p : Nat} (a : ZMod p) (i : Nat) : Nat := if i = 0 then a.val else 0
/-- Coefficients of elements of a quadratic extension. -/
def coeff2 {p : Nat} {a b : ZMod p} (x : QuadraticAlgebra (ZMod p) a b) (i : Nat) : Nat :=
  if i = 0 then x.re.val else if i = 1 then x.im.val else 0

/-- The table of the elements of the field with 5 elements, whose generator is 2. -/
def table5 : Res (FqElementTable (ZMod 5)) := FqElementTable.make (fun _ => 2) 5 1 1
def table7 : Res (FqElementTable (ZMod 7)) := FqElementTable.make (fun _ => 3) 7 1 1
def table13 : Res (FqElementTable (ZMod 13)) := FqElementTable.make (fun _ => 2) 13 1 1

/-- Reduction tables. -/
def reduction (p k : Nat) : Res ReductionTable :=
  match p, k with
  | 5, 1 => ReductionTable.make (F := ZMod 5) coeff1 (fun _ => 2) 5 1 false 1
  | 7, 1 => ReductionTable.make (F := ZMod 7) coeff1 (fun _ => 3) 7 1 false 1
  | 5, 2 => ReductionTable.make (F := F25) coeff2 (fun _ => ⟨0, 1⟩) 5 2 false 1
  | 7, 2 => ReductionTable.make (F := F49) coeff2 (fun _ => ⟨0, 1⟩) 7 2 false 1
  | _, _ => .diverge

/-- Compare with a value. -/
def is {α : Type} [DecidableEq α] (r : Res α) (a : α) : Bool :=
  match r with
  | .ok b => a = b
  | _ => false

/-! ### test/block_iterator.cc -/

/-- All values while an iterator runs. -/
def visit {α : Type} (f : BlockIterator → Res α) : Nat → BlockIterator → Res (List α)
  | 0, _ => .diverge
  | n + 1, it =>
    if it.isEnd then .ok []
    else do
      let a ← f it
      let l ← visit f n (← it.step)
      pure (a :: l)

/-- The values, sorted. -/
def sorted {α : Type} [CppLess α] (r : Res (List α)) : Res (List α) := do
  let l ← r
  pure (sortBy (fun a b => CppLess.lt a b) l)

-- `blocks`
#guard is (sorted do visit (·.asPosition) 100 (← BlockIterator.make 3 [(0, 2, 4), (1, 5, 9), (2, 0, 1)] 1 [] []))
  [[2, 5, 0], [2, 6, 0], [2, 7, 0], [2, 8, 0], [3, 5, 0], [3, 6, 0], [3, 7, 0], [3, 8, 0]]

-- `sets`
#guard is (sorted do visit (·.asPosition) 100 (← BlockIterator.make 3 [] 1 [(0, [5, 7]), (1, [3]), (2, [9, 13])] []))
  [[5, 3, 9], [5, 3, 13], [7, 3, 9], [7, 3, 13]]

-- `dependent_sets`
#guard is (sorted do visit (·.asPosition) 100 (← BlockIterator.make 2 [] 1 [(0, [5, 7])] [(1, 0, [(0, [2, 4]), (1, [3, 6])])]))
  [[5, 2], [5, 4], [7, 3], [7, 6]]

-- `blocks_sets_package_position`
#guard is (sorted do visit (·.asPosition) 100 (← BlockIterator.make 4 [(0, 2, 10), (1, 5, 7)] 3 [(2, [9, 7]), (3, [3])] []))
  [[2, 5, 7, 3], [2, 5, 9, 3], [2, 6, 7, 3], [2, 6, 9, 3], [5, 5, 7, 3], [5, 5, 9, 3], [5, 6, 7, 3], [5, 6, 9, 3],
   [8, 5, 7, 3], [8, 5, 9, 3], [8, 6, 7, 3], [8, 6, 9, 3]]

-- `blocks_sets_package_block`
#guard is (do
    let l ← sorted do visit (·.asBlock) 100 (← BlockIterator.make 4 [(0, 2, 10), (1, 5, 7)] 3 [(2, [9, 7]), (3, [3])] [])
    pure (l[0]?, l[4]?))
  (some [(2, 5), (5, 6), (7, 8), (3, 4)], some [(5, 8), (5, 6), (7, 8), (3, 4)])

-- `blocks_package_block_enumerator`
#guard is (sorted do
    let it ← BlockIterator.make 3 [(0, 2, 9), (1, 5, 7), (2, 8, 10)] 4 [] []
    visit (·.asPosition) 100 (← it.asBlockEnumerator))
  [[2, 5, 8], [3, 5, 8], [4, 5, 8], [5, 5, 8]]
#guard is (sorted do
    let it ← BlockIterator.make 3 [(0, 2, 9), (1, 5, 7), (2, 8, 10)] 4 [] []
    let it ← (← (← it.step).step).step
    visit (·.asPosition) 100 (← it.asBlockEnumerator))
  [[6, 5, 9], [7, 5, 9], [8, 5, 9]]

/-! ### test/small_curves.cc -/

/-- The curve of `hycu-single`, with the points and the Hasse-Weil offsets. -/
def single {p : Nat} [Fact p.Prime] (t : Res (FqElementTable (ZMod p))) (cs : List Nat) :
    Res (List (Nat × Nat) × List Int) := do
  let r1 ← reduction p 1
  let r2 ← reduction p 2
  let c ← Single.singleCurveFp coeff1 (← t) (fun k => if k = 1 then r1 else r2) p cs
  pure (← c.numberOfPoints 2, ← c.hasseWeilOffsets 2)

-- `fq_5_curve_1_2_3_1_1_0_4`
#guard is (single table5 [1, 2, 3, 1, 1, 0, 4]) ([(6, 0), (40, 2)], [0, -16])
-- `fq_7_curve_0_3_3_3_0_6`
#guard is (single table7 [0, 3, 3, 3, 0, 6]) ([(2, 4), (36, 6)], [2, 8])

/-! ### test/threaded.cc -/

/-- test/reference_store_q5_g1.hh; the entries of a map are sorted. -/
def reference51 : StoreMap :=
  [(⟨[1, 1, 1, 1], [-2]⟩, 30), (⟨[1, 1, 1, 1], [2]⟩, 30), (⟨[1, 1, 2], [-4]⟩, 60), (⟨[1, 1, 2], [-2]⟩, 120),
   (⟨[1, 1, 2], [0]⟩, 240), (⟨[1, 1, 2], [2]⟩, 120), (⟨[1, 1, 2], [4]⟩, 60), (⟨[1, 3], [-3]⟩, 240),
   (⟨[1, 3], [-1]⟩, 240), (⟨[1, 3], [1]⟩, 240), (⟨[1, 3], [3]⟩, 240), (⟨[2, 2], [-2]⟩, 90), (⟨[2, 2], [2]⟩, 90),
   (⟨[4], [-4]⟩, 60), (⟨[4], [-2]⟩, 120), (⟨[4], [0]⟩, 240), (⟨[4], [2]⟩, 120), (⟨[4], [4]⟩, 60)]

/-- test/reference_store_q7_g1.hh; the entries of a map are sorted. -/
def reference71 : StoreMap :=
  [(⟨[1, 1, 1, 1], [-4]⟩, 84), (⟨[1, 1, 1, 1], [0]⟩, 252), (⟨[1, 1, 1, 1], [4]⟩, 84), (⟨[1, 1, 2], [-4]⟩, 504),
   (⟨[1, 1, 2], [-2]⟩, 1008), (⟨[1, 1, 2], [0]⟩, 504), (⟨[1, 1, 2], [2]⟩, 1008), (⟨[1, 1, 2], [4]⟩, 504),
   (⟨[1, 3], [-5]⟩, 336), (⟨[1, 3], [-3]⟩, 1008), (⟨[1, 3], [-1]⟩, 1344), (⟨[1, 3], [1]⟩, 1344),
   (⟨[1, 3], [3]⟩, 1008), (⟨[1, 3], [5]⟩, 336), (⟨[2, 2], [-4]⟩, 252), (⟨[2, 2], [0]⟩, 756), (⟨[2, 2], [4]⟩, 252),
   (⟨[4], [-4]⟩, 504), (⟨[4], [-2]⟩, 1008), (⟨[4], [0]⟩, 504), (⟨[4], [2]⟩, 1008), (⟨[4], [4]⟩, 504)]

/-- test/reference_store_q7_g2.hh; the entries of a map are sorted. -/
def reference72 : StoreMap :=
  [(⟨[1, 1, 1, 1, 1, 1], [0, 4]⟩, 168), (⟨[1, 1, 1, 1, 2], [-4, -12]⟩, 504), (⟨[1, 1, 1, 1, 2], [-2, -8]⟩, 1008),
   (⟨[1, 1, 1, 1, 2], [-2, 8]⟩, 1008), (⟨[1, 1, 1, 1, 2], [0, -28]⟩, 252), (⟨[1, 1, 1, 1, 2], [0, -12]⟩, 2016),
   (⟨[1, 1, 1, 1, 2], [0, 4]⟩, 1008), (⟨[1, 1, 1, 1, 2], [0, 20]⟩, 504), (⟨[1, 1, 1, 1, 2], [2, -8]⟩, 1008),
   (⟨[1, 1, 1, 1, 2], [2, 8]⟩, 1008), (⟨[1, 1, 1, 1, 2], [4, -12]⟩, 504), (⟨[1, 1, 1, 3], [-5, -3]⟩, 1008),
   (⟨[1, 1, 1, 3], [-3, -19]⟩, 2016), (⟨[1, 1, 1, 3], [-3, -11]⟩, 1344), (⟨[1, 1, 1, 3], [-3, -3]⟩, 3024),
   (⟨[1, 1, 1, 3], [-1, -19]⟩, 1008), (⟨[1, 1, 1, 3], [-1, -11]⟩, 4032), (⟨[1, 1, 1, 3], [-1, -3]⟩, 1008),
   (⟨[1, 1, 1, 3], [-1, 5]⟩, 4032), (⟨[1, 1, 1, 3], [-1, 13]⟩, 1344), (⟨[1, 1, 1, 3], [1, -19]⟩, 1008),
   (⟨[1, 1, 1, 3], [1, -11]⟩, 4032), (⟨[1, 1, 1, 3], [1, -3]⟩, 1008), (⟨[1, 1, 1, 3], [1, 5]⟩, 4032),
   (⟨[1, 1, 1, 3], [1, 13]⟩, 1344), (⟨[1, 1, 1, 3], [3, -19]⟩, 2016), (⟨[1, 1, 1, 3], [3, -11]⟩, 1344),
   (⟨[1, 1, 1, 3], [3, -3]⟩, 3024), (⟨[1, 1, 1, 3], [5, -3]⟩, 1008), (⟨[1, 1, 2, 2], [-6, 0]⟩, 504),
   (⟨[1, 1, 2, 2], [-4, -20]⟩, 504), (⟨[1, 1, 2, 2], [-4, -12]⟩, 1008), (⟨[1, 1, 2, 2], [-4, -4]⟩, 2016),
   (⟨[1, 1, 2, 2], [-2, -16]⟩, 2016), (⟨[1, 1, 2, 2], [-2, -8]⟩, 3024), (⟨[1, 1, 2, 2], [-2, 0]⟩, 2520),
   (⟨[1, 1, 2, 2], [-2, 8]⟩, 1008), (⟨[1, 1, 2, 2], [0, -28]⟩, 504), (⟨[1, 1, 2, 2], [0, -20]⟩, 2016),
   (⟨[1, 1, 2, 2], [0, -12]⟩, 2016), (⟨[1, 1, 2, 2], [0, -4]⟩, 2016), (⟨[1, 1, 2, 2], [0, 4]⟩, 1512),
   (⟨[1, 1, 2, 2], [0, 12]⟩, 2016), (⟨[1, 1, 2, 2], [2, -16]⟩, 2016), (⟨[1, 1, 2, 2], [2, -8]⟩, 3024),
   (⟨[1, 1, 2, 2], [2, 0]⟩, 2520), (⟨[1, 1, 2, 2], [2, 8]⟩, 1008), (⟨[1, 1, 2, 2], [4, -20]⟩, 504),
   (⟨[1, 1, 2, 2], [4, -12]⟩, 1008), (⟨[1, 1, 2, 2], [4, -4]⟩, 2016), (⟨[1, 1, 2, 2], [6, 0]⟩, 504),
   (⟨[1, 1, 4], [-6, -8]⟩, 1008), (⟨[1, 1, 4], [-6, -4]⟩, 1008), (⟨[1, 1, 4], [-4, -16]⟩, 2016),
   (⟨[1, 1, 4], [-4, -12]⟩, 1008), (⟨[1, 1, 4], [-4, -8]⟩, 2016), (⟨[1, 1, 4], [-4, -4]⟩, 2016),
   (⟨[1, 1, 4], [-4, 0]⟩, 2016), (⟨[1, 1, 4], [-2, -24]⟩, 1008), (⟨[1, 1, 4], [-2, -20]⟩, 2016),
   (⟨[1, 1, 4], [-2, -16]⟩, 2016), (⟨[1, 1, 4], [-2, -12]⟩, 2016), (⟨[1, 1, 4], [-2, -8]⟩, 4032),
   (⟨[1, 1, 4], [-2, -4]⟩, 3024), (⟨[1, 1, 4], [-2, 0]⟩, 4032), (⟨[1, 1, 4], [-2, 4]⟩, 2016),
   (⟨[1, 1, 4], [-2, 8]⟩, 1008), (⟨[1, 1, 4], [0, -24]⟩, 3024), (⟨[1, 1, 4], [0, -20]⟩, 4032),
   (⟨[1, 1, 4], [0, -16]⟩, 2016), (⟨[1, 1, 4], [0, -12]⟩, 4032), (⟨[1, 1, 4], [0, -4]⟩, 4032),
   (⟨[1, 1, 4], [0, 0]⟩, 8064), (⟨[1, 1, 4], [0, 4]⟩, 2016), (⟨[1, 1, 4], [0, 8]⟩, 3024),
   (⟨[1, 1, 4], [0, 16]⟩, 2016), (⟨[1, 1, 4], [0, 20]⟩, 2016), (⟨[1, 1, 4], [2, -24]⟩, 1008),
   (⟨[1, 1, 4], [2, -20]⟩, 2016), (⟨[1, 1, 4], [2, -16]⟩, 2016), (⟨[1, 1, 4], [2, -12]⟩, 2016),
   (⟨[1, 1, 4], [2, -8]⟩, 4032), (⟨[1, 1, 4], [2, -4]⟩, 3024), (⟨[1, 1, 4], [2, 0]⟩, 4032),
   (⟨[1, 1, 4], [2, 4]⟩, 2016), (⟨[1, 1, 4], [2, 8]⟩, 1008), (⟨[1, 1, 4], [4, -16]⟩, 2016),
   (⟨[1, 1, 4], [4, -12]⟩, 1008), (⟨[1, 1, 4], [4, -8]⟩, 2016), (⟨[1, 1, 4], [4, -4]⟩, 2016),
   (⟨[1, 1, 4], [4, 0]⟩, 2016), (⟨[1, 1, 4], [6, -8]⟩, 1008), (⟨[1, 1, 4], [6, -4]⟩, 1008),
   (⟨[1, 2, 3], [-7, 1]⟩, 1008), (⟨[1, 2, 3], [-5, -11]⟩, 3024), (⟨[1, 2, 3], [-5, -7]⟩, 2016),
   (⟨[1, 2, 3], [-5, -3]⟩, 1008), (⟨[1, 2, 3], [-3, -19]⟩, 2016), (⟨[1, 2, 3], [-3, -15]⟩, 4032),
   (⟨[1, 2, 3], [-3, -11]⟩, 4032), (⟨[1, 2, 3], [-3, -7]⟩, 2016), (⟨[1, 2, 3], [-3, -3]⟩, 3024),
   (⟨[1, 2, 3], [-3, 1]⟩, 2016), (⟨[1, 2, 3], [-3, 5]⟩, 1008), (⟨[1, 2, 3], [-1, -23]⟩, 3024),
   (⟨[1, 2, 3], [-1, -19]⟩, 3024), (⟨[1, 2, 3], [-1, -15]⟩, 4032), (⟨[1, 2, 3], [-1, -11]⟩, 4032),
   (⟨[1, 2, 3], [-1, -7]⟩, 2016), (⟨[1, 2, 3], [-1, -3]⟩, 3024), (⟨[1, 2, 3], [-1, 1]⟩, 4032),
   (⟨[1, 2, 3], [-1, 5]⟩, 4032), (⟨[1, 2, 3], [-1, 9]⟩, 3024), (⟨[1, 2, 3], [-1, 17]⟩, 1008),
   (⟨[1, 2, 3], [1, -23]⟩, 3024), (⟨[1, 2, 3], [1, -19]⟩, 3024), (⟨[1, 2, 3], [1, -15]⟩, 4032),
   (⟨[1, 2, 3], [1, -11]⟩, 4032), (⟨[1, 2, 3], [1, -7]⟩, 2016), (⟨[1, 2, 3], [1, -3]⟩, 3024),
   (⟨[1, 2, 3], [1, 1]⟩, 4032), (⟨[1, 2, 3], [1, 5]⟩, 4032), (⟨[1, 2, 3], [1, 9]⟩, 3024),
   (⟨[1, 2, 3], [1, 17]⟩, 1008), (⟨[1, 2, 3], [3, -19]⟩, 2016), (⟨[1, 2, 3], [3, -15]⟩, 4032),
   (⟨[1, 2, 3], [3, -11]⟩, 4032), (⟨[1, 2, 3], [3, -7]⟩, 2016), (⟨[1, 2, 3], [3, -3]⟩, 3024),
   (⟨[1, 2, 3], [3, 1]⟩, 2016), (⟨[1, 2, 3], [3, 5]⟩, 1008), (⟨[1, 2, 3], [5, -11]⟩, 3024),
   (⟨[1, 2, 3], [5, -7]⟩, 2016), (⟨[1, 2, 3], [5, -3]⟩, 1008), (⟨[1, 2, 3], [7, 1]⟩, 1008),
   (⟨[1, 5], [-7, -1]⟩, 1008), (⟨[1, 5], [-5, -13]⟩, 1008), (⟨[1, 5], [-5, -9]⟩, 3024), (⟨[1, 5], [-5, -5]⟩, 4032),
   (⟨[1, 5], [-5, -1]⟩, 1008), (⟨[1, 5], [-3, -21]⟩, 2016), (⟨[1, 5], [-3, -17]⟩, 4032), (⟨[1, 5], [-3, -13]⟩, 4032),
   (⟨[1, 5], [-3, -9]⟩, 5040), (⟨[1, 5], [-3, -5]⟩, 6048), (⟨[1, 5], [-3, -1]⟩, 3024), (⟨[1, 5], [-3, 3]⟩, 3024),
   (⟨[1, 5], [-1, -25]⟩, 3024), (⟨[1, 5], [-1, -21]⟩, 2016), (⟨[1, 5], [-1, -17]⟩, 4032),
   (⟨[1, 5], [-1, -13]⟩, 6048), (⟨[1, 5], [-1, -9]⟩, 5040), (⟨[1, 5], [-1, -5]⟩, 8064), (⟨[1, 5], [-1, -1]⟩, 5040),
   (⟨[1, 5], [-1, 3]⟩, 2016), (⟨[1, 5], [-1, 7]⟩, 4032), (⟨[1, 5], [-1, 11]⟩, 2016), (⟨[1, 5], [-1, 15]⟩, 2016),
   (⟨[1, 5], [1, -25]⟩, 3024), (⟨[1, 5], [1, -21]⟩, 2016), (⟨[1, 5], [1, -17]⟩, 4032), (⟨[1, 5], [1, -13]⟩, 6048),
   (⟨[1, 5], [1, -9]⟩, 5040), (⟨[1, 5], [1, -5]⟩, 8064), (⟨[1, 5], [1, -1]⟩, 5040), (⟨[1, 5], [1, 3]⟩, 2016),
   (⟨[1, 5], [1, 7]⟩, 4032), (⟨[1, 5], [1, 11]⟩, 2016), (⟨[1, 5], [1, 15]⟩, 2016), (⟨[1, 5], [3, -21]⟩, 2016),
   (⟨[1, 5], [3, -17]⟩, 4032), (⟨[1, 5], [3, -13]⟩, 4032), (⟨[1, 5], [3, -9]⟩, 5040), (⟨[1, 5], [3, -5]⟩, 6048),
   (⟨[1, 5], [3, -1]⟩, 3024), (⟨[1, 5], [3, 3]⟩, 3024), (⟨[1, 5], [5, -13]⟩, 1008), (⟨[1, 5], [5, -9]⟩, 3024),
   (⟨[1, 5], [5, -5]⟩, 4032), (⟨[1, 5], [5, -1]⟩, 1008), (⟨[1, 5], [7, -1]⟩, 1008), (⟨[2, 2, 2], [-8, 4]⟩, 84),
   (⟨[2, 2, 2], [-4, -20]⟩, 420), (⟨[2, 2, 2], [-4, -12]⟩, 504), (⟨[2, 2, 2], [-4, -4]⟩, 1008),
   (⟨[2, 2, 2], [0, -20]⟩, 1008), (⟨[2, 2, 2], [0, -12]⟩, 1008), (⟨[2, 2, 2], [0, -4]⟩, 1512),
   (⟨[2, 2, 2], [0, 4]⟩, 336), (⟨[2, 2, 2], [0, 28]⟩, 84), (⟨[2, 2, 2], [4, -20]⟩, 420),
   (⟨[2, 2, 2], [4, -12]⟩, 504), (⟨[2, 2, 2], [4, -4]⟩, 1008), (⟨[2, 2, 2], [8, 4]⟩, 84), (⟨[2, 4], [-6, -8]⟩, 1008),
   (⟨[2, 4], [-6, -4]⟩, 1008), (⟨[2, 4], [-6, 0]⟩, 1008), (⟨[2, 4], [-4, -16]⟩, 2016), (⟨[2, 4], [-4, -12]⟩, 1008),
   (⟨[2, 4], [-4, -8]⟩, 2016), (⟨[2, 4], [-4, -4]⟩, 2016), (⟨[2, 4], [-4, 0]⟩, 504), (⟨[2, 4], [-2, -24]⟩, 1008),
   (⟨[2, 4], [-2, -20]⟩, 2016), (⟨[2, 4], [-2, -16]⟩, 2016), (⟨[2, 4], [-2, -12]⟩, 2016), (⟨[2, 4], [-2, -8]⟩, 4032),
   (⟨[2, 4], [-2, -4]⟩, 3024), (⟨[2, 4], [-2, 0]⟩, 1008), (⟨[2, 4], [-2, 4]⟩, 2016), (⟨[2, 4], [-2, 8]⟩, 1008),
   (⟨[2, 4], [0, -24]⟩, 2016), (⟨[2, 4], [0, -20]⟩, 2016), (⟨[2, 4], [0, -12]⟩, 2016), (⟨[2, 4], [0, -8]⟩, 6048),
   (⟨[2, 4], [0, -4]⟩, 2016), (⟨[2, 4], [0, 0]⟩, 504), (⟨[2, 4], [0, 12]⟩, 2016), (⟨[2, 4], [2, -24]⟩, 1008),
   (⟨[2, 4], [2, -20]⟩, 2016), (⟨[2, 4], [2, -16]⟩, 2016), (⟨[2, 4], [2, -12]⟩, 2016), (⟨[2, 4], [2, -8]⟩, 4032),
   (⟨[2, 4], [2, -4]⟩, 3024), (⟨[2, 4], [2, 0]⟩, 1008), (⟨[2, 4], [2, 4]⟩, 2016), (⟨[2, 4], [2, 8]⟩, 1008),
   (⟨[2, 4], [4, -16]⟩, 2016), (⟨[2, 4], [4, -12]⟩, 1008), (⟨[2, 4], [4, -8]⟩, 2016), (⟨[2, 4], [4, -4]⟩, 2016),
   (⟨[2, 4], [4, 0]⟩, 504), (⟨[2, 4], [6, -8]⟩, 1008), (⟨[2, 4], [6, -4]⟩, 1008), (⟨[2, 4], [6, 0]⟩, 1008),
   (⟨[3, 3], [-6, -10]⟩, 504), (⟨[3, 3], [-6, -2]⟩, 672), (⟨[3, 3], [-4, -10]⟩, 3024), (⟨[3, 3], [-4, -2]⟩, 1008),
   (⟨[3, 3], [-2, -26]⟩, 672), (⟨[3, 3], [-2, -18]⟩, 2016), (⟨[3, 3], [-2, -10]⟩, 2016), (⟨[3, 3], [-2, -2]⟩, 2016),
   (⟨[3, 3], [-2, 6]⟩, 1512), (⟨[3, 3], [0, -18]⟩, 3024), (⟨[3, 3], [0, -10]⟩, 2016), (⟨[3, 3], [0, -2]⟩, 4032),
   (⟨[3, 3], [0, 6]⟩, 1008), (⟨[3, 3], [0, 22]⟩, 336), (⟨[3, 3], [2, -26]⟩, 672), (⟨[3, 3], [2, -18]⟩, 2016),
   (⟨[3, 3], [2, -10]⟩, 2016), (⟨[3, 3], [2, -2]⟩, 2016), (⟨[3, 3], [2, 6]⟩, 1512), (⟨[3, 3], [4, -10]⟩, 3024),
   (⟨[3, 3], [4, -2]⟩, 1008), (⟨[3, 3], [6, -10]⟩, 504), (⟨[3, 3], [6, -2]⟩, 672), (⟨[6], [-8, 6]⟩, 504),
   (⟨[6], [-6, -6]⟩, 2016), (⟨[6], [-6, -2]⟩, 1344), (⟨[6], [-4, -18]⟩, 2016), (⟨[6], [-4, -14]⟩, 2016),
   (⟨[6], [-4, -10]⟩, 3024), (⟨[6], [-4, -6]⟩, 2016), (⟨[6], [-4, -2]⟩, 3696), (⟨[6], [-2, -22]⟩, 3024),
   (⟨[6], [-2, -18]⟩, 4032), (⟨[6], [-2, -14]⟩, 4032), (⟨[6], [-2, -10]⟩, 4032), (⟨[6], [-2, -6]⟩, 2016),
   (⟨[6], [-2, -2]⟩, 4032), (⟨[6], [-2, 2]⟩, 2016), (⟨[6], [-2, 6]⟩, 2016), (⟨[6], [-2, 10]⟩, 336),
   (⟨[6], [0, -26]⟩, 2016), (⟨[6], [0, -22]⟩, 3024), (⟨[6], [0, -18]⟩, 2016), (⟨[6], [0, -14]⟩, 4704),
   (⟨[6], [0, -10]⟩, 5040), (⟨[6], [0, -6]⟩, 3024), (⟨[6], [0, -2]⟩, 2016), (⟨[6], [0, 2]⟩, 2016),
   (⟨[6], [0, 6]⟩, 2016), (⟨[6], [0, 10]⟩, 6048), (⟨[6], [0, 18]⟩, 1008), (⟨[6], [2, -22]⟩, 3024),
   (⟨[6], [2, -18]⟩, 4032), (⟨[6], [2, -14]⟩, 4032), (⟨[6], [2, -10]⟩, 4032), (⟨[6], [2, -6]⟩, 2016),
   (⟨[6], [2, -2]⟩, 4032), (⟨[6], [2, 2]⟩, 2016), (⟨[6], [2, 6]⟩, 2016), (⟨[6], [2, 10]⟩, 336),
   (⟨[6], [4, -18]⟩, 2016), (⟨[6], [4, -14]⟩, 2016), (⟨[6], [4, -10]⟩, 3024), (⟨[6], [4, -6]⟩, 2016),
   (⟨[6], [4, -2]⟩, 3696), (⟨[6], [6, -6]⟩, 2016), (⟨[6], [6, -2]⟩, 1344), (⟨[6], [8, 6]⟩, 504)]

/-- The static store after all blocks. -/
def run {p : Nat} [Fact p.Prime] (t : Res (FqElementTable (ZMod p))) (genus packageSize : Nat) (es : List Nat) :
    Res StoreMap := do
  let t ← t
  let rts ← es.mapM (reduction p)
  let bs ← CurveIterator.visits CurveIterator.asBlock 100000 (← CurveIterator.make t genus false packageSize)
  let s ← bs.foldlM (fun (s : Store.Static) b => do
    let m ← Compute.block (poly p coeff1) t rts b
    let r ← Store.flushToStatic s m b
    pure r.1) ⟨[], []⟩
  pure s.store

#guard is (run table5 1 30 [1]) reference51
#guard is (run table7 1 30 [1]) reference71
#guard is (run table7 2 30 [2, 1]) reference72
#guard !is (run table5 1 30 [1]) reference71

/-! ### test/curve_iterator.cc -/

/-- Twice the sum of the multiplicities of the squarefree polynomials that are enumerated. -/
def total {p : Nat} [Fact p.Prime] (t : Res (FqElementTable (ZMod p))) (genus packageSize : Nat) : Res Nat := do
  let t ← t
  let bs ← CurveIterator.visits CurveIterator.asBlock 100000 (← CurveIterator.make t genus false packageSize)
  bs.foldlM (fun n b => do
    let vs ← visit (·.asPosition) (Compute.size b + 1) (← BlockIterator.ofBounds b)
    vs.foldlM (fun n v => do
      let c ← Curve.make t v
      if ← c.hasSquarefreeRhs (poly p coeff1) then do
        let k ← CurveIterator.multiplicity p p c.rhsSupport
        pure (n + k + k)
      else pure n) n) 0

-- `blocks_f13_g2`
#guard is (total table13 2 2500) (13 ^ 7 + 13 ^ 4 - 13 ^ 6 - 13 ^ 5)

end Tests
end Hycu
