import Mathlib.Logic.Function.Basic
import Verif.Model.Curve

/-!
Host and device in the count with OpenCL (src/opencl/buffer_evaluation.cc, src/opencl/kernel_evaluation.cc,
src/opencl/kernel_reduction.cc, the OpenCL members of src/reduction_table.cc).

The queue of an interface (src/opencl/interface.cc l.42) works in order.  A write with `CL_FALSE` only puts a command into
the queue; the device reads the memory of the host when it comes to this command, at any time before a later command that
the host waits for.  A read with `CL_TRUE` waits until all commands before it are done.  The work items of a kernel run in
any order; one work item is one step (it writes its own places of two buffers and reads other buffers only).

Simplifications: programs are built and kernels are made without failing; memory is not used up; the code is taken as if
it type checked (see `Curve.countOpencl`); the destructors of buffers are left out (OpenCL keeps a buffer as long as it is
used by a command).
-/

namespace Hycu
namespace OpenCL

/-- Vectors in the memory of the host: `exponent_reduction_table` and `incrementation_table` of a table, and the parameter
of `enqueue`, which is a copy (src/opencl/kernel_evaluation.cc l.85-89).  Tables are numbered. -/
inductive Addr
  | ert (t : Nat)
  | inc (t : Nat)
  | arg
  deriving DecidableEq

/-- Buffers on the device: those of `OpenCLBufferEvaluation` (src/opencl/buffer_evaluation.cc l.40-48) and
`buffer_poly_coeff_exponents` of the kernel for a table and a degree (src/opencl/kernel_evaluation.cc l.48-49). -/
inductive Buf
  | ert (t : Nat)
  | inc (t : Nat)
  | unramified (t : Nat)
  | ramified (t : Nat)
  | coeffs (t degree : Nat)
  deriving DecidableEq

/-- Arguments of the kernel `evaluate` (src/opencl/kernel_evaluation.cc l.54-82 and l.106) and the constant `POLY_SIZE`
(src/opencl/program_evaluation.hh l.62-67). -/
structure Kernel where
  coeffs : Buf
  ert : Buf
  inc : Buf
  unramified : Buf
  ramified : Buf
  pred : Nat
  polySize : Nat

/-- Commands in the queue: to write `n` numbers from the memory of the host into a buffer, or to run a kernel; `items` are
the work items that are left. -/
inductive Cmd
  | write (b : Buf) (a : Addr) (n : Nat)
  | kernel (k : Kernel) (items : List Nat)

/-- What is allocated in the memory of the host. -/
abbrev Heap := Addr → Option (List Nat)

/-- The buffers that have been made. -/
abbrev Bufs := Buf → Option (List Nat)

/-- Access to a buffer; the pointer to a buffer that has not been made is null. -/
def get (bufs : Bufs) (b : Buf) : Res (List Nat) :=
  match bufs b with
  | some v => .ok v
  | none => .ub

/-- Assignment to one place of a buffer. -/
def store (bufs : Bufs) (b : Buf) (i x : Nat) : Res Bufs := do
  let v ← get bufs b
  if i < v.length then .ok (Function.update bufs b (some (v.set i x))) else .ub

/-- One work item (src/opencl/evaluation.cl l.26-82). -/
def item (k : Kernel) (bufs : Bufs) (x : Nat) : Res Bufs := do
  let coeffs ← get bufs k.coeffs
  let ert ← get bufs k.ert
  let inc ← get bufs k.inc
  let cs ← (List.range k.polySize).mapM fun i => rd coeffs i
  let f ← Curve.evalKernel ert inc k.pred cs x
  let bufs ← store bufs k.unramified x (Curve.kernelOut k.pred f).1
  store bufs k.ramified x (Curve.kernelOut k.pred f).2

/-- The device carries out a write: to read memory that has been freed is undefined. -/
def transfer (heap : Heap) (bufs : Bufs) (b : Buf) (a : Addr) (n : Nat) : Res Bufs := do
  let v ← match heap a with
    | some v => .ok v
    | none => Res.ub
  let w ← get bufs b
  if n ≤ v.length then .ok (Function.update bufs b (some (v.take n ++ w.drop n))) else .ub

/-- What the host does, in the order of the program. -/
inductive Op
  | alloc (a : Addr) (v : List Nat)
  | free (a : Addr)
  | create (b : Buf) (n : Nat)
  | enqueue (c : Cmd)
  | read (b : Buf) (n : Nat)

/-- Host and device; `out` has the vectors that the host has read. -/
structure State where
  heap : Heap
  bufs : Bufs
  queue : List Cmd
  todo : List Op
  out : List (List Nat)

/-- The checks at the time when a command is put into the queue: a write that does not fit into the buffer has a status
other than `CL_SUCCESS`, after which the code executes `throw;`; the arguments of a kernel are references to buffers. -/
def check (bufs : Bufs) : Cmd → Res Unit
  | .write b _ n => do
    let v ← get bufs b
    if n ≤ v.length then .ok () else .abort
  | .kernel k _ => do
    let _ ← get bufs k.coeffs
    let _ ← get bufs k.ert
    let _ ← get bufs k.inc
    let _ ← get bufs k.unramified
    let _ ← get bufs k.ramified
    .ok ()

/-- The next step of the host; `none` while it waits.  New memory and new buffers are such that are not in use (`abort`
does not occur there).  The content of a new buffer is arbitrary (`junk`). -/
def host (junk : Buf → Nat → Nat) (s : State) : Res (Option State) :=
  match s.todo with
  | [] => .ok none
  | .alloc a v :: r =>
    if (s.heap a).isSome then .abort
    else .ok (some { s with heap := Function.update s.heap a (some v), todo := r })
  | .free a :: r =>
    if (s.heap a).isSome then .ok (some { s with heap := Function.update s.heap a none, todo := r })
    else .ub
  | .create b n :: r =>
    if (s.bufs b).isSome then .abort
    else .ok (some { s with bufs := Function.update s.bufs b (some ((List.range n).map (junk b))), todo := r })
  | .enqueue c :: r => do
    check s.bufs c
    .ok (some { s with queue := s.queue ++ [c], todo := r })
  | .read b n :: r =>
    match s.queue with
    | [] => do
      let v ← get s.bufs b
      if n ≤ v.length then .ok (some { s with out := s.out ++ [v.take n], todo := r }) else .abort
    | _ :: _ => .ok none

/-- The next step of the device: it carries out the first command of the queue, or one work item (number `i` of those that
are left) of a kernel. -/
def device (i : Nat) (s : State) : Res (Option State) :=
  match s.queue with
  | [] => .ok none
  | .write b a n :: q => do
    let bufs ← transfer s.heap s.bufs b a n
    .ok (some { s with bufs := bufs, queue := q })
  | .kernel _ [] :: q => .ok (some { s with queue := q })
  | .kernel k (y :: ys) :: q =>
    match (y :: ys)[i]? with
    | none => .ok none
    | some x => do
      let bufs ← item k s.bufs x
      .ok (some { s with bufs := bufs, queue := .kernel k ((y :: ys).eraseIdx i) :: q })

/-- Who makes a step. -/
inductive Action
  | host
  | device (i : Nat)

def step (junk : Buf → Nat → Nat) (s : State) : Action → Res (Option State)
  | .host => host junk s
  | .device i => device i s

/-- Life of tables with an OpenCL interface.
* `table t moved`: constructor of table `t` (src/reduction_table.cc l.41-82); `moved` for the constructor that takes a
  reference to an rvalue: the test of its parameter after `move` (l.51 and l.55) finds a null pointer, so that no buffers
  are made although the table has an interface
* `count t cs`: `count_opencl` for the converted coefficients `cs` (src/curve.cc l.210-243)
* `drop t`: destructor of table `t` -/
inductive Event
  | table (t : Nat) (moved : Bool)
  | count (t : Nat) (cs : List Nat)
  | drop (t : Nat)

/-- The kernel for table `t` and degree `d`. -/
def kernelFor (rt : ReductionTable) (t d : Nat) : Kernel where
  coeffs := .coeffs t d
  ert := .ert t
  inc := .inc t
  unramified := .unramified t
  ramified := .ramified t
  pred := rt.primePowerPred
  polySize := d + 1

/-- What the host does for an event; `kernels` are the tables and degrees for which there is a kernel already
(src/reduction_table.hh l.86-95).
* tables: src/opencl/buffer_evaluation.cc l.40-67
* counts: src/opencl/kernel_evaluation.cc l.48-49 and l.85-119; src/opencl/kernel_reduction.cc l.44 and l.79-94, where both
  buffers are read -/
def Event.ops (rts : Nat → ReductionTable) (kernels : List (Nat × Nat)) : Event → List Op
  | .table t moved =>
    [.alloc (.ert t) (rts t).exponentReductionTable, .alloc (.inc t) (rts t).incrementationTable] ++
    if moved then []
    else
      [.create (.ert t) (rts t).exponentReductionTable.length, .create (.inc t) (rts t).incrementationTable.length,
       .create (.unramified t) (rts t).primePowerPred, .create (.ramified t) (rts t).primePowerPred,
       .enqueue (.write (.ert t) (.ert t) (rts t).exponentReductionTable.length),
       .enqueue (.write (.inc t) (.inc t) (rts t).incrementationTable.length)]
  | .count t cs =>
    (if (t, cs.length - 1) ∈ kernels then [] else [.create (.coeffs t (cs.length - 1)) (cs.length - 1 + 1)]) ++
    [.alloc .arg cs, .enqueue (.write (.coeffs t (cs.length - 1)) .arg (cs.length - 1 + 1)),
     .enqueue (.kernel (kernelFor (rts t) t (cs.length - 1)) (List.range (rts t).primePowerPred)), .free .arg,
     .read (.unramified t) (rts t).primePowerPred, .read (.ramified t) (rts t).primePowerPred]
  | .drop t => [.free (.ert t), .free (.inc t)]

/-- The kernels after an event. -/
def Event.kernels (kernels : List (Nat × Nat)) : Event → List (Nat × Nat)
  | .count t cs => (t, cs.length - 1) :: kernels
  | _ => kernels

/-- What the host does for a list of events. -/
def ops (rts : Nat → ReductionTable) : List (Nat × Nat) → List Event → List Op
  | _, [] => []
  | kernels, e :: es => e.ops rts kernels ++ ops rts (e.kernels kernels) es

/-- The state before the first event. -/
def initial (rts : Nat → ReductionTable) (es : List Event) : State where
  heap _ := none
  bufs _ := none
  queue := []
  todo := ops rts [] es
  out := []

/-- `reduce` (src/opencl/kernel_reduction.cc l.129-141) for the two vectors that have been read, where the counts are `0`
before: sums of signed numbers that are added to unsigned ones. -/
def reduce (unramified ramified : List Nat) : Res (Nat × Nat) := do
  let u ← Curve.accumulate unramified
  let r ← Curve.accumulate ramified
  pure (u32 u, u32 r)

end OpenCL
end Hycu
