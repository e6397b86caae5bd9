import Verif.Cpp.Sort

/-
Model of src/block_iterator.hh and src/block_iterator.cc.

Vectors and maps are lists; `size_t` values are natural numbers (no wrap, they only count container
elements); `unsigned int` arithmetic is reduced mod 2^32 where the code adds or subtracts.
`std::sort` is `sortBy` (all sorted tuples are different, so every correct sort agrees).
-/

namespace Hycu

/-- `class BlockIterator`, block_iterator.hh l.76-87.  `deps` is `dependent_sets`. -/
structure BlockIterator where
  length : Nat
  orderBlocks : List Nat
  orderSets : List Nat
  orderDeps : List Nat
  blocks : OMap Nat (Nat × Nat × Nat)
  sets : OMap Nat (List Nat)
  deps : OMap Nat (Nat × OMap Nat (List Nat))
  position : List Nat
  hasReachedEnd : Bool
  deriving DecidableEq, Repr

namespace BlockIterator

/-- The first loop of `initialize_blocks`, block_iterator.cc l.83-95. -/
def blockSizes : OMap Nat (Nat × Nat) → Res (List (Nat × Nat))
  | [] => .ok []
  | (ix, lbd, ubd) :: rest =>
    if lbd ≥ ubd then .abort
    else do
      let l ← blockSizes rest
      .ok ((u32sub ubd lbd, ix) :: l)

/-- The comparison under which `sort(rbegin, rend)` of `tuple<size_t,unsigned int>`, l.96, is ascending
when read from the front: the larger tuple comes first. -/
def sizeOrder (a b : Nat × Nat) : Bool := CppLess.lt b a

/-- The second loop of `initialize_blocks`, l.99-109.  Returns `update_order_blocks` and `blocks`.
Division by a zero step is undefined, `blocks.at` throws. -/
def assignSteps (input : OMap Nat (Nat × Nat)) :
    List (Nat × Nat) → Nat → List Nat → OMap Nat (Nat × Nat × Nat) →
      Res (List Nat × OMap Nat (Nat × Nat × Nat))
  | [], _, order, blocks => .ok (order, blocks)
  | (size, ix) :: rest, package, order, blocks =>
    let step := if package ≥ size then size else package
    if step = 0 then .ub
    else
      match input.find? ix with
      | none => .abort
      | some (lbd, ubd) =>
        assignSteps input rest (package / step) (order ++ [ix]) (blocks.set ix (lbd, ubd, step))

/-- `initialize_blocks`, l.76-110. -/
def initializeBlocks (input : OMap Nat (Nat × Nat)) (package : Nat) :
    Res (List Nat × OMap Nat (Nat × Nat × Nat)) := do
  let sizes ← blockSizes input
  assignSteps input (sortBy sizeOrder sizes) package [] []

/-- `position[ix] = ...` for a list of coordinates; a write out of range is undefined. -/
def writeAll (value : Nat → Nat) : List Nat → List Nat → Res (List Nat)
  | [], pos => .ok pos
  | ix :: rest, pos => if ix < pos.length then writeAll value rest (pos.set ix (value ix)) else .ub

/-- `set_initial_position`, l.112-129.  `this->blocks[ix]` inserts a zero tuple if there is none. -/
def setInitialPosition (it : BlockIterator) : Res BlockIterator := do
  let pos := List.replicate it.length 0
  let pos ← writeAll (fun ix => ((it.blocks.find? ix).getD (0, 0, 0)).1) it.orderBlocks pos
  let pos ← writeAll (fun _ => 0) it.orderSets pos
  let pos ← writeAll (fun _ => 0) it.orderDeps pos
  .ok { it with position := pos, hasReachedEnd := !decide (it.length > 0) }

/-- The general constructor, l.49-74. -/
def make (length : Nat) (blocks : OMap Nat (Nat × Nat)) (package : Nat)
    (sets : OMap Nat (List Nat)) (deps : OMap Nat (Nat × OMap Nat (List Nat))) :
    Res BlockIterator := do
  let (order, bl) ← initializeBlocks blocks package
  setInitialPosition
    { length := length
      orderBlocks := order
      orderSets := sets.map Prod.fst
      orderDeps := deps.map Prod.fst
      blocks := bl
      sets := sets
      deps := deps
      position := []
      hasReachedEnd := false }

/-- `blocks[ix] = bounds[ix]` for `ix = 0 .. length-1`, l.40-42. -/
def boundsMap : Nat → List (Nat × Nat) → OMap Nat (Nat × Nat)
  | _, [] => []
  | ix, b :: rest => (ix, b) :: boundsMap (ix + 1) rest

/-- The constructor from a list of ranges, l.34-47. -/
def ofBounds (bounds : List (Nat × Nat)) : Res BlockIterator := do
  let (order, bl) ← initializeBlocks (boundsMap 0 bounds) 1
  setInitialPosition
    { length := bounds.length
      orderBlocks := order
      orderSets := []
      orderDeps := []
      blocks := bl
      sets := []
      deps := []
      position := []
      hasReachedEnd := false }

/-- First loop of `as_position`, l.137-143.  `map_set[..]` inserts an empty vector if there is none,
so that the following `[..]` is out of range. -/
def resolveDeps : OMap Nat (Nat × OMap Nat (List Nat)) → List Nat → Res (List Nat)
  | [], pos => .ok pos
  | (ix, jx, mapSet) :: rest, pos => do
    let pj ← rd pos jx
    let pi ← rd pos ix
    let v ← rd ((mapSet.find? pj).getD []) pi
    resolveDeps rest (pos.set ix v)

/-- Second loop of `as_position`, l.145-148. -/
def resolveSets : OMap Nat (List Nat) → List Nat → Res (List Nat)
  | [], pos => .ok pos
  | (ix, s) :: rest, pos => do
    let pi ← rd pos ix
    let v ← rd s pi
    resolveSets rest (pos.set ix v)

/-- `as_position`, l.131-151. -/
def asPosition (it : BlockIterator) : Res (List Nat) := do
  let pos ← resolveDeps it.deps it.position
  resolveSets it.sets pos

/-- The loop of `as_block`, l.164-173. -/
def widenBlocks : OMap Nat (Nat × Nat × Nat) → List (Nat × Nat) → Res (List (Nat × Nat))
  | [], bounds => .ok bounds
  | (ix, _, hi, step) :: rest, bounds => do
    let b ← rd bounds ix
    let lbd := b.1
    let ubd := u32 (lbd + step)
    let ubd := if ubd > hi then hi else ubd
    widenBlocks rest (bounds.set ix (lbd, ubd))

/-- `as_block`, l.153-176. -/
def asBlock (it : BlockIterator) : Res (List (Nat × Nat)) := do
  let pos ← it.asPosition
  widenBlocks it.blocks (pos.map fun c => (c, u32 (c + 1)))

/-- First loop of `as_block_enumerator`, l.187-198. -/
def enumeratorBlocks (pos : List Nat) :
    OMap Nat (Nat × Nat × Nat) → OMap Nat (Nat × Nat) → OMap Nat (List Nat) →
      Res (OMap Nat (Nat × Nat) × OMap Nat (List Nat))
  | [], blocks, sets => .ok (blocks, sets)
  | (ix, _, hi, step) :: rest, blocks, sets => do
    let lbd ← rd pos ix
    let ubd := u32 (lbd + step)
    let ubd := if ubd > hi then hi else ubd
    if u32sub ubd lbd > 1 then enumeratorBlocks pos rest (blocks.set ix (lbd, ubd)) sets
    else enumeratorBlocks pos rest blocks (sets.set ix [lbd])

/-- Remaining loops of `as_block_enumerator`, l.200-203. -/
def enumeratorSets (pos : List Nat) : List Nat → OMap Nat (List Nat) → Res (OMap Nat (List Nat))
  | [], sets => .ok sets
  | ix :: rest, sets => do
    let v ← rd pos ix
    enumeratorSets pos rest (sets.set ix [v])

/-- `as_block_enumerator`, l.178-206. -/
def asBlockEnumerator (it : BlockIterator) : Res BlockIterator := do
  let pos ← it.asPosition
  let (blocks, sets) ← enumeratorBlocks pos it.blocks [] []
  let sets ← enumeratorSets pos (it.sets.map Prod.fst) sets
  let sets ← enumeratorSets pos (it.deps.map Prod.fst) sets
  make it.length blocks 1 sets []

/-- `step_(2, step_ix)`, l.274-288, with the list of `update_order_blocks` from `step_ix` on. -/
def stepBlocks (it : BlockIterator) : List Nat → Res BlockIterator
  | [] => .ub
  | px :: rest => do
    let pos ← rd it.position px
    let b := (it.blocks.find? px).getD (0, 0, 0)
    let next := u32 (pos + b.2.2)
    if next ≥ b.2.1 then
      let it := { it with position := it.position.set px b.1 }
      if rest.isEmpty then .ok { it with hasReachedEnd := true }
      else stepBlocks it rest
    else .ok { it with position := it.position.set px next }

/-- `step_(1, step_ix)`, l.256-271, with the list of `update_order_sets` from `step_ix` on. -/
def stepSets (it : BlockIterator) : List Nat → Res BlockIterator
  | [] => .ub
  | px :: rest => do
    let pos ← rd it.position px
    let next := u32 (pos + 1)
    if next ≥ ((it.sets.find? px).getD []).length then
      let it := { it with position := it.position.set px 0 }
      if !rest.isEmpty then stepSets it rest
      else if !it.orderBlocks.isEmpty then stepBlocks it it.orderBlocks
      else .ok { it with hasReachedEnd := true }
    else .ok { it with position := it.position.set px next }

/-- `step_(0, step_ix)`, l.234-253, with the list of `update_order_dependend_sets` from `step_ix` on.
`px_set[..]` inserts an empty vector if there is none; this does not change later lookups that are
not themselves undefined, and the inserted vector is not recorded here. -/
def stepDeps (it : BlockIterator) : List Nat → Res BlockIterator
  | [] => .ub
  | px :: rest => do
    let pos ← rd it.position px
    let next := u32 (pos + 1)
    let position := it.position.set px next
    let d := (it.deps.find? px).getD (0, [])
    let coupled ← rd position d.1
    if next ≥ ((d.2.find? coupled).getD []).length then
      let it := { it with position := position.set px 0 }
      if !rest.isEmpty then stepDeps it rest
      else if !it.orderSets.isEmpty then stepSets it it.orderSets
      else if !it.orderBlocks.isEmpty then stepBlocks it it.orderBlocks
      else .ok { it with hasReachedEnd := true }
    else .ok { it with position := position }

/-- `step`, l.208-224. -/
def step (it : BlockIterator) : Res BlockIterator :=
  if it.hasReachedEnd then .ok it
  else if !it.deps.isEmpty then stepDeps it it.orderDeps
  else if !it.sets.isEmpty then stepSets it it.orderSets
  else stepBlocks it it.orderBlocks

/-- `is_end`, block_iterator.hh l.65. -/
def isEnd (it : BlockIterator) : Bool := it.hasReachedEnd

/-- The loop `for (; !it.is_end(); it.step()) use(visit(it))` that all users of the iterator run
(threaded/thread.cc l.87, executables/threaded.cc l.146, executables/mpi.cc l.155); `n` bounds the number of evaluations of the loop condition.
Returns the visited values in order. -/
def visits {α : Type} (visit : BlockIterator → Res α) : Nat → BlockIterator → Res (List α)
  | 0, _ => .diverge
  | n + 1, it =>
    if it.isEnd then .ok []
    else do
      let a ← visit it
      let it' ← it.step
      let l ← visits visit n it'
      .ok (a :: l)

end BlockIterator
end Hycu
