import Mathlib.Data.Finmap
import Verif.Model.Ramification

/-!
Memory management of the FLINT objects: the constructor and the destructor of `FqElementTable` (src/fq_element_table.cc),
`compute_incrementation_table` (src/reduction_table.cc), and the functions of `Curve` that make FLINT objects (src/curve.cc).

The functions are those of `Verif.Model.Tables`, `Verif.Model.Curve` and `Verif.Model.Ramification`, now with every FLINT
object in a cell of memory.  A cell is made by `new` or by the declaration of a local variable or member; it is `raw` until the
object is initialised and after it is cleared; and it is given back by `delete` or at the end of the scope.

Simplifications: memory does not run out; what FLINT allocates for an object belongs to the object; an object that is
initialised twice, or whose cell is given back before it is cleared, would lose memory, which counts as undefined behaviour here.
The cell of a local variable is given back when the
variable is cleared, which the code always does shortly before the end of the scope.  The string `"T"`, vectors and maps manage their memory themselves.
-/

namespace Hycu.Memory

/-- What a cell holds: nothing (`raw`), or a FLINT object (`fmpz_t`, `flint_rand_t`, `nmod_poly_t`, `nmod_poly_factor_t`; and
for a field `U i`: its context, elements, polynomials and factorisations). -/
inductive Obj {I : Type} (U : I → Type) where
  | raw
  | fmpz (n : Nat)
  | rand
  | ctx (i : I)
  | fq (i : I) (x : U i)
  | nmodPoly (f : List Nat)
  | nmodFactor (l : List (List Nat × Nat))
  | fqPoly (i : I) (f : List (U i))
  | fqFactor (i : I) (l : List (List (U i) × Nat))

variable {I : Type} {U : I → Type}

/-- Memory: finitely many cells. -/
abbrev Heap (U : I → Type) := Finmap fun _ : Nat => Obj U

/-- Where new cells are; addresses may be used again. -/
structure Allocator (U : I → Type) where
  pick : Heap U → Nat
  fresh : ∀ h, pick h ∉ h

/-- `new`, or a declaration. -/
def new (A : Allocator U) (h : Heap U) : Nat × Heap U := (A.pick h, h.insert (A.pick h) .raw)

/-- `delete`, or the end of a scope. -/
def delete (h : Heap U) (p : Nat) : Res (Heap U) :=
  match h.lookup p with
  | some .raw => .ok (h.erase p)
  | _ => .ub

/-- Initialisation of an object. -/
def init (h : Heap U) (p : Nat) (o : Obj U) : Res (Heap U) :=
  match h.lookup p with
  | some .raw => .ok (h.insert p o)
  | _ => .ub

/-- The functions `.._clear` for objects without context. -/
def clear (h : Heap U) (p : Nat) : Res (Heap U) :=
  match h.lookup p with
  | some (.fmpz _) => .ok (h.insert p .raw)
  | some .rand => .ok (h.insert p .raw)
  | some (.ctx _) => .ok (h.insert p .raw)
  | some (.nmodPoly _) => .ok (h.insert p .raw)
  | some (.nmodFactor _) => .ok (h.insert p .raw)
  | _ => .ub

/-- A new object without context. -/
def make (A : Allocator U) (h : Heap U) (o : Obj U) : Res (Nat × Heap U) := do
  let (p, h) := new A h
  let h ← init h p o
  pure (p, h)

/-- The end of the life of an object without context. -/
def drop (h : Heap U) (p : Nat) : Res (Heap U) := do
  let h ← clear h p
  delete h p

/-- `flint_randinit` was called for `p`. -/
def useRand (h : Heap U) (p : Nat) : Res Unit :=
  match h.lookup p with
  | some .rand => .ok ()
  | _ => .ub

/-- The value of an `fmpz_t`. -/
def fmpzGet (h : Heap U) (p : Nat) : Res Nat :=
  match h.lookup p with
  | some (.fmpz n) => .ok n
  | _ => .ub

/-- The coefficients of an `nmod_poly_t`. -/
def nmodPolyGet (h : Heap U) (p : Nat) : Res (List Nat) :=
  match h.lookup p with
  | some (.nmodPoly f) => .ok f
  | _ => .ub

/-- Assignment to an `nmod_poly_t`. -/
def nmodPolySet (h : Heap U) (p : Nat) (f : List Nat) : Res (Heap U) :=
  match h.lookup p with
  | some (.nmodPoly _) => .ok (h.insert p (.nmodPoly f))
  | _ => .ub

/-- The entries of an `nmod_poly_factor_t`. -/
def nmodFactorGet (h : Heap U) (p : Nat) : Res (List (List Nat × Nat)) :=
  match h.lookup p with
  | some (.nmodFactor l) => .ok l
  | _ => .ub

/-- Assignment to an `nmod_poly_factor_t`. -/
def nmodFactorSet (h : Heap U) (p : Nat) (l : List (List Nat × Nat)) : Res (Heap U) :=
  match h.lookup p with
  | some (.nmodFactor _) => .ok (h.insert p (.nmodFactor l))
  | _ => .ub

section

variable [DecidableEq I]

/-- `ctx` is a context of the field `U i`. -/
def useCtx (i : I) (h : Heap U) (ctx : Nat) : Res Unit :=
  match h.lookup ctx with
  | some (.ctx j) => if j = i then .ok () else .ub
  | _ => .ub

/-- The value of a field element. -/
def fqGet (i : I) (h : Heap U) (ctx p : Nat) : Res (U i) := do
  useCtx i h ctx
  match h.lookup p with
  | some (.fq j x) => if e : j = i then .ok (e ▸ x) else .ub
  | _ => .ub

/-- Assignment to a field element. -/
def fqSet (i : I) (h : Heap U) (ctx p : Nat) (x : U i) : Res (Heap U) := do
  useCtx i h ctx
  match h.lookup p with
  | some (.fq j _) => if j = i then .ok (h.insert p (.fq i x)) else .ub
  | _ => .ub

/-- `fq_nmod_init`, `fq_zech_init`: the value is 0. -/
def fqInit (i : I) [Field (U i)] (h : Heap U) (ctx p : Nat) : Res (Heap U) := do
  useCtx i h ctx
  init h p (.fq i 0)

/-- `fq_nmod_clear`, `fq_zech_clear`. -/
def fqClear (i : I) (h : Heap U) (ctx p : Nat) : Res (Heap U) := do
  useCtx i h ctx
  match h.lookup p with
  | some (.fq j _) => if j = i then .ok (h.insert p .raw) else .ub
  | _ => .ub

/-- The coefficients of an `fq_nmod_poly_t`. -/
def fqPolyGet (i : I) (h : Heap U) (ctx p : Nat) : Res (List (U i)) := do
  useCtx i h ctx
  match h.lookup p with
  | some (.fqPoly j f) => if e : j = i then .ok (e ▸ f) else .ub
  | _ => .ub

/-- Assignment to an `fq_nmod_poly_t`. -/
def fqPolySet (i : I) (h : Heap U) (ctx p : Nat) (f : List (U i)) : Res (Heap U) := do
  useCtx i h ctx
  match h.lookup p with
  | some (.fqPoly j _) => if j = i then .ok (h.insert p (.fqPoly i f)) else .ub
  | _ => .ub

/-- `fq_nmod_poly_clear`. -/
def fqPolyClear (i : I) (h : Heap U) (ctx p : Nat) : Res (Heap U) := do
  useCtx i h ctx
  match h.lookup p with
  | some (.fqPoly j _) => if j = i then .ok (h.insert p .raw) else .ub
  | _ => .ub

/-- The entries of an `fq_nmod_poly_factor_t`. -/
def fqFactorGet (i : I) (h : Heap U) (p : Nat) : Res (List (List (U i) × Nat)) :=
  match h.lookup p with
  | some (.fqFactor j l) => if e : j = i then .ok (e ▸ l) else .ub
  | _ => .ub

/-- Assignment to an `fq_nmod_poly_factor_t`. -/
def fqFactorSet (i : I) (h : Heap U) (ctx p : Nat) (l : List (List (U i) × Nat)) : Res (Heap U) := do
  useCtx i h ctx
  match h.lookup p with
  | some (.fqFactor j _) => if j = i then .ok (h.insert p (.fqFactor i l)) else .ub
  | _ => .ub

/-- `fq_nmod_poly_factor_clear`. -/
def fqFactorClear (i : I) (h : Heap U) (ctx p : Nat) : Res (Heap U) := do
  useCtx i h ctx
  match h.lookup p with
  | some (.fqFactor j _) => if j = i then .ok (h.insert p .raw) else .ub
  | _ => .ub

variable {i : I} [Field (U i)] [DecidableEq (U i)]

/-- `fq_nmod_mul(r, x, y, ctx)`. -/
def fqMul (i : I) [Field (U i)] (h : Heap U) (ctx r x y : Nat) : Res (Heap U) := do
  let x ← fqGet i h ctx x
  let y ← fqGet i h ctx y
  fqSet i h ctx r (x * y)

/-- `fq_nmod_add(r, x, y, ctx)`. -/
def fqAdd (i : I) [Field (U i)] (h : Heap U) (ctx r x y : Nat) : Res (Heap U) := do
  let x ← fqGet i h ctx x
  let y ← fqGet i h ctx y
  fqSet i h ctx r (x + y)

/-- `fq_nmod_pow_ui(r, x, n, ctx)`. -/
def fqPow (i : I) [Field (U i)] (h : Heap U) (ctx r x n : Nat) : Res (Heap U) := do
  let x ← fqGet i h ctx x
  fqSet i h ctx r (x ^ n)

/-- Declaration and initialisation of a field element. -/
def fqMake (A : Allocator U) (i : I) [Field (U i)] (h : Heap U) (ctx : Nat) : Res (Nat × Heap U) := do
  let (p, h) := new A h
  let h ← fqInit i h ctx p
  pure (p, h)

/-- `fq_nmod_clear` and `delete` or the end of the scope. -/
def fqDrop (i : I) (h : Heap U) (ctx p : Nat) : Res (Heap U) := do
  let h ← fqClear i h ctx p
  delete h p

/-! ### FqElementTable -/

/-- A new element of the table with the value of `x` (src/fq_element_table.cc l.67-70 and l.84-88; `fq_nmod_reduce` has no
effect on the value). -/
def copyNew (A : Allocator U) (i : I) [Field (U i)] (h : Heap U) (ctx x : Nat) : Res (Nat × Heap U) := do
  let (b, h) ← fqMake A i h ctx
  let v ← fqGet i h ctx x
  let h ← fqSet i h ctx b v
  pure (b, h)

/-- `for ( auto fq : fq_elements ) { fq_nmod_clear(fq, fq_ctx); delete fq; }` (src/fq_element_table.cc l.78-81 and
l.111-114). -/
def dropAll (i : I) (h : Heap U) (ctx : Nat) : List Nat → Res (Heap U)
  | [] => .ok h
  | p :: ps => do
    let h ← fqDrop i h ctx p
    dropAll i h ctx ps

/-- Inner loop of the constructor (src/fq_element_table.cc l.75-92), `n` iterations left: `is_gen` and `fq_elements`. -/
def fill (A : Allocator U) (i : I) [Field (U i)] [DecidableEq (U i)] (ctx gen a : Nat) :
    Nat → Heap U → List Nat → Res (Bool × List Nat × Heap U)
  | 0, h, es => .ok (true, es, h)
  | n + 1, h, es => do
    let front ← rd es 0
    let x ← fqGet i h ctx a
    let y ← fqGet i h ctx front
    if x = y then do
      let h ← dropAll i h ctx es
      pure (false, es, h)
    else do
      let (b, h) ← copyNew A i h ctx a
      let h ← fqMul i h ctx a a gen
      fill A i ctx gen a n h (es ++ [b])

/-- Outer loop of the constructor (src/fq_element_table.cc l.62-93); `cand (k + 1)` is what `fq_nmod_randtest` gives. -/
def search (A : Allocator U) (i : I) [Field (U i)] [DecidableEq (U i)] (cand : Nat → U i) (pred ctx gen a state : Nat) :
    Nat → Nat → Heap U → Res (List Nat × Heap U)
  | 0, _, _ => .diverge
  | fuel + 1, k, h => do
    let (b, h) ← copyNew A i h ctx a
    let h ← fqMul i h ctx a a gen
    let (isGen, es, h) ← fill A i ctx gen a (pred - 1) h [b]
    useRand h state
    let h ← fqSet i h ctx gen (cand (k + 1))
    if isGen then pure (es, h) else search A i cand pred ctx gen a state fuel (k + 1) h

/-- A table in memory: the cells of `fq_ctx` and of `fq_elements` (src/fq_element_table.hh). -/
structure Table where
  prime : Nat
  primeExponent : Nat
  primePower : Nat
  primePowerPred : Nat
  ctx : Nat
  elements : List Nat

/-- `fq_nmod_ctx_init` with its number (src/fq_element_table.cc l.43-46, src/reduction_table.cc l.116-121, src/curve.cc
l.323-327 and l.447-450): the number is initialised and cleared again. -/
def makeCtx (A : Allocator U) (i : I) (h : Heap U) (prime : Nat) : Res (Nat × Heap U) := do
  let (c, h) := new A h
  let (p, h) ← make A h (.fmpz prime)
  let _ ← fmpzGet h p
  let h ← init h c (.ctx i)
  let h ← drop h p
  pure (c, h)

/-- Constructor (src/fq_element_table.cc l.30-106). -/
def makeTable (A : Allocator U) (i : I) [Field (U i)] [DecidableEq (U i)] (cand : Nat → U i)
    (prime primeExponent fuel : Nat) (h : Heap U) : Res (Table × Heap U) := do
  let primePower ← primePowerOf prime primeExponent
  let pred := primePower - 1
  let (ctx, h) ← makeCtx A i h prime
  let (gen, h) ← fqMake A i h ctx
  let h ← fqSet i h ctx gen (cand 0)
  let (a, h) ← fqMake A i h ctx
  let h ← fqSet i h ctx a 1
  let (state, h) ← make A h .rand
  let (es, h) ← search A i cand pred ctx gen a state fuel 0 h
  let (b, h) ← fqMake A i h ctx
  let h ← fqSet i h ctx b 0
  let h ← drop h state
  let h ← fqDrop i h ctx gen
  let h ← fqDrop i h ctx a
  pure (⟨prime, primeExponent, primePower, pred, ctx, es ++ [b]⟩, h)

/-- Destructor (src/fq_element_table.cc l.108-117). -/
def destroyTable (i : I) (t : Table) (h : Heap U) : Res (Heap U) := do
  let h ← dropAll i h t.ctx t.elements
  drop h t.ctx

/-! ### ReductionTable -/

/-- Inner loop of the generator search (src/reduction_table.cc l.144-159), `n` iterations left. -/
def fillPowers (i : I) [Field (U i)] (coeffSum : U i → Nat) (ctx gen a : Nat) :
    Nat → Nat → Heap U → OMap Nat Nat → Res (Bool × OMap Nat Nat × Heap U)
  | 0, _, h, m => .ok (true, m, h)
  | n + 1, ix, h, m => do
    let x ← fqGet i h ctx a
    if m.contains (coeffSum x) then pure (false, m, h)
    else do
      let h ← fqMul i h ctx a a gen
      fillPowers i coeffSum ctx gen a n (ix + 1) h (m.set (coeffSum x) ix)

/-- Outer loop of the generator search (src/reduction_table.cc l.137-160). -/
def searchPowers (i : I) [Field (U i)] (coeffSum : U i → Nat) (cand : Nat → U i) (pred ctx gen a state : Nat) :
    Nat → Nat → Heap U → Res (OMap Nat Nat × Heap U)
  | 0, _, _ => .diverge
  | fuel + 1, k, h => do
    let h ← fqSet i h ctx a 1
    let (isGen, m, h) ← fillPowers i coeffSum ctx gen a pred 0 h (OMap.set [] 0 pred)
    useRand h state
    let h ← fqSet i h ctx gen (cand (k + 1))
    if isGen then pure (m, h) else searchPowers i coeffSum cand pred ctx gen a state fuel (k + 1) h

/-- `compute_incrementation_table` (src/reduction_table.cc l.108-179). -/
def computeIncrementationTable (A : Allocator U) (i : I) [Field (U i)] (coeff : U i → Nat → Nat) (cand : Nat → U i)
    (prime primeExponent primePower fuel : Nat) (h : Heap U) : Res (List Nat × Heap U) := do
  let (ctx, h) ← makeCtx A i h prime
  let (gen, h) ← fqMake A i h ctx
  let h ← fqSet i h ctx gen (cand 0)
  let (a, h) ← fqMake A i h ctx
  let (state, h) ← make A h .rand
  let (m, h) ← searchPowers i (ReductionTable.coeffSum coeff prime primeExponent) cand (primePower - 1) ctx gen a state fuel 0 h
  let v ← ReductionTable.setAt (List.replicate primePower 0) (primePower - 1) 0
  let v ← (ReductionTable.incPairs prime primePower).foldlM
    (fun v ij => ReductionTable.setAtInt v (ReductionTable.lookup m ij.1) (ReductionTable.lookup m ij.2)) v
  let h ← drop h state
  let h ← fqDrop i h ctx gen
  let h ← fqDrop i h ctx a
  let h ← drop h ctx
  pure (v, h)

/-! ### Curve -/

/-- The loop of `rhs_nmod_polynomial` (src/curve.cc l.709-710). -/
def setNmodCoeffs (i : I) (fl : FlintPoly (U i)) (t : Table) (p : Nat) : List Nat → Heap U → Res (Heap U)
  | [], h => .ok h
  | e :: es, h => do
    let q ← rdAt t.elements e
    let a ← fqGet i h t.ctx q
    let f ← nmodPolyGet h p
    let h ← nmodPolySet h p (f ++ [fl.coeff a 0])
    setNmodCoeffs i fl t p es h

/-- `rhs_nmod_polynomial` (src/curve.cc l.696-713); the polynomial is returned by value, that is, its memory goes to the
caller. -/
def rhsNmodPolynomial (A : Allocator U) (i : I) (fl : FlintPoly (U i)) (t : Table) (coeffs : List Nat) (h : Heap U) :
    Res (Nat × Heap U) :=
  if t.primeExponent ≠ 1 then .abort
  else do
    let (p, h) ← make A h (.nmodPoly [])
    let h ← setNmodCoeffs i fl t p coeffs h
    pure (p, h)

/-- The loop of `rhs_polynomial` (src/curve.cc l.723-724). -/
def setFqCoeffs (i : I) (t : Table) (p : Nat) : List Nat → Heap U → Res (Heap U)
  | [], h => .ok h
  | e :: es, h => do
    let q ← rd t.elements e
    let a ← fqGet i h t.ctx q
    let f ← fqPolyGet i h t.ctx p
    let h ← fqPolySet i h t.ctx p (f ++ [a])
    setFqCoeffs i t p es h

/-- `rhs_polynomial` (src/curve.cc l.715-727). -/
def rhsPolynomial (A : Allocator U) (i : I) (t : Table) (coeffs : List Nat) (h : Heap U) : Res (Nat × Heap U) := do
  let (p, h) := new A h
  useCtx i h t.ctx
  let h ← init h p (.fqPoly i [])
  let h ← setFqCoeffs i t p coeffs h
  pure (p, h)

/-- `has_squarefree_rhs` (src/curve.cc l.110-128). -/
def hasSquarefreeRhs (A : Allocator U) (i : I) (fl : FlintPoly (U i)) (t : Table) (coeffs : List Nat) (h : Heap U) :
    Res (Bool × Heap U) :=
  if t.primeExponent = 1 then do
    let (p, h) ← rhsNmodPolynomial A i fl t coeffs h
    let f ← nmodPolyGet h p
    let h ← drop h p
    pure (fl.nmodIsSquarefree f, h)
  else do
    let (p, h) ← rhsPolynomial A i t coeffs h
    let f ← fqPolyGet i h t.ctx p
    let h ← fqPolyClear i h t.ctx p
    let h ← delete h p
    pure (fl.fqIsSquarefree f, h)

/-- The degrees of the factors of the right hand side in `ramification_type` (src/curve.cc l.663-691). -/
def rhsFactorDegrees (A : Allocator U) (i : I) [Field (U i)] (fl : FlintPoly (U i)) (t : Table) (coeffs : List Nat)
    (h : Heap U) : Res (List Nat × Heap U) :=
  if t.primeExponent = 1 then do
    let (p, h) ← rhsNmodPolynomial A i fl t coeffs h
    let (q, h) ← make A h (.nmodFactor [])
    let f ← nmodPolyGet h p
    let h ← nmodFactorSet h q (fl.nmodFactor f)
    let l ← nmodFactorGet h q
    let h ← drop h q
    let h ← drop h p
    pure (Curve.factorDegreeList l, h)
  else do
    let (p, h) ← rhsPolynomial A i t coeffs h
    let (lead, h) ← fqMake A i h t.ctx
    let (q, h) := new A h
    useCtx i h t.ctx
    let h ← init h q (.fqFactor i [])
    let f ← fqPolyGet i h t.ctx p
    let lc ← rd f (f.length - 1)
    let h ← fqSet i h t.ctx lead lc
    let h ← fqFactorSet i h t.ctx q (fl.fqFactor f)
    let l ← fqFactorGet i h q
    let h ← fqFactorClear i h t.ctx q
    let h ← delete h q
    let h ← fqPolyClear i h t.ctx p
    let h ← delete h p
    let h ← fqDrop i h t.ctx lead
    pure (Curve.factorDegreeList l, h)

/-- The vector `poly_coefficients` (src/curve.cc l.341-349 and l.464-472). -/
def naiveCoeffs (A : Allocator U) (i : I) [Field (U i)] (ctx subGen pred : Nat) :
    List Nat → Heap U → Res (List Nat × Heap U)
  | [], h => .ok ([], h)
  | e :: es, h => do
    let (a, h) ← fqMake A i h ctx
    let h ← if e = pred then fqSet i h ctx a 0 else fqPow i h ctx a subGen e
    let (ps, h) ← naiveCoeffs A i ctx subGen pred es h
    pure (a :: ps, h)

/-- The local variables of the naive counting functions. -/
structure Locals where
  ctx : Nat
  gen : Nat
  subGen : Nat
  tmp : Nat
  x : Nat
  xpw : Nat
  rhs : Nat
  m : Nat

/-- `is_square_nonzero` (src/curve.cc l.356-362 and l.479-485). -/
def naiveSquare (i : I) [Field (U i)] [DecidableEq (U i)] (v : Locals) (pred p : Nat) (h : Heap U) : Res (Bool × Heap U) := do
  let h ← fqPow i h v.ctx v.tmp p (pred / 2)
  let y ← fqGet i h v.ctx v.tmp
  pure (decide (y = 1), h)

/-- The loop of `update_count` (src/curve.cc l.380-384 and l.503-507). -/
def naiveEval (i : I) [Field (U i)] (v : Locals) : List Nat → Heap U → Res (Heap U)
  | [], h => .ok h
  | c :: cs, h => do
    let h ← fqMul i h v.ctx v.m c v.xpw
    let h ← fqAdd i h v.ctx v.rhs v.rhs v.m
    let h ← fqMul i h v.ctx v.xpw v.xpw v.x
    naiveEval i v cs h

/-- `update_count` (src/curve.cc l.373-390 and l.496-513). -/
def naiveUpdate (i : I) [Field (U i)] [DecidableEq (U i)] (v : Locals) (pred : Nat) (cs : List Nat) (n : Nat × Nat)
    (h : Heap U) : Res ((Nat × Nat) × Heap U) := do
  let h ← fqSet i h v.ctx v.xpw 1
  let h ← fqSet i h v.ctx v.rhs 0
  let h ← naiveEval i v cs h
  let y ← fqGet i h v.ctx v.rhs
  if y = 0 then pure ((n.1, u32 (n.2 + 1)), h)
  else do
    let (sq, h) ← naiveSquare i v pred v.rhs h
    pure (if sq then (u32 (n.1 + 2), n.2) else n, h)

/-- The loop over the powers of the generator (src/curve.cc l.394-398 and l.517-521). -/
def naiveLoop (i : I) [Field (U i)] [DecidableEq (U i)] (v : Locals) (pred : Nat) (cs : List Nat) :
    Nat → Nat × Nat → Heap U → Res ((Nat × Nat) × Heap U)
  | 0, n, h => .ok (n, h)
  | k + 1, n, h => do
    let (n, h) ← naiveUpdate i v pred cs n h
    let h ← fqMul i h v.ctx v.x v.x v.gen
    naiveLoop i v pred cs k n h

/-- The points at infinity (src/curve.cc l.401-407 and l.524-530). -/
def naiveInfinity {F : Type} (i : I) [Field (U i)] [DecidableEq (U i)] (v : Locals) (pred : Nat) (c : Curve F) (cs : List Nat)
    (n : Nat × Nat) (h : Heap U) : Res ((Nat × Nat) × Heap U) :=
  if c.degree < u32 (2 * c.genus + 2) then pure ((n.1, u32 (n.2 + 1)), h)
  else do
    let back ← rd cs (cs.length - 1)
    let (sq, h) ← naiveSquare i v pred back h
    pure (if sq then (u32 (n.1 + 2), n.2) else n, h)

/-- `count_naive_nmod` (src/curve.cc l.297-419) and `count_naive_zech` (l.421-542) after their checks: the numbers of points.
The elements of `poly_coefficients` are neither cleared nor deleted. -/
def countNaive {F : Type} (A : Allocator U) (i : I) [Field (U i)] [DecidableEq (U i)] (c : Curve F) (gen : U i)
    (primeExponent : Nat) (h : Heap U) : Res ((Nat × Nat) × Heap U) := do
  let pred := c.table.prime ^ primeExponent - 1
  let (ctx, h) ← makeCtx A i h c.table.prime
  let (g, h) ← fqMake A i h ctx
  let h ← fqSet i h ctx g gen
  let (subGen, h) ← fqMake A i h ctx
  let h ← fqPow i h ctx subGen g (pred / c.table.primePowerPred)
  let (cs, h) ← naiveCoeffs A i ctx subGen c.table.primePowerPred c.coeffs h
  let (tmp, h) ← fqMake A i h ctx
  let (x, h) ← fqMake A i h ctx
  let (xpw, h) ← fqMake A i h ctx
  let (rhs, h) ← fqMake A i h ctx
  let (m, h) ← fqMake A i h ctx
  let v : Locals := ⟨ctx, g, subGen, tmp, x, xpw, rhs, m⟩
  let h ← fqSet i h ctx x 0
  let (n, h) ← naiveUpdate i v pred cs (0, 0) h
  let h ← fqSet i h ctx x 1
  let (n, h) ← naiveLoop i v pred cs pred n h
  let (n, h) ← naiveInfinity i v pred c cs n h
  let h ← fqDrop i h ctx g
  let h ← fqDrop i h ctx subGen
  let h ← fqDrop i h ctx x
  let h ← fqDrop i h ctx xpw
  let h ← fqDrop i h ctx rhs
  let h ← fqDrop i h ctx m
  let h ← fqDrop i h ctx tmp
  let h ← drop h ctx
  pure (n, h)

end

end Hycu.Memory
