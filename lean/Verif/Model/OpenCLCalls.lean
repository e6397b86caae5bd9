import Verif.Model.OpenCL

/-!
The count with OpenCL, where calls of OpenCL may fail (src/opencl/interface.cc, src/opencl/program.cc,
src/opencl/buffer_evaluation.cc, src/opencl/kernel_evaluation.cc, src/opencl/kernel_reduction.cc).

`Model/OpenCL` takes all calls to succeed.  Here each call of OpenCL is a step of its own that may fail.
* Constructors of the wrapper classes (CL/cl.hpp without exceptions) have a status that the code does not ask for.  If they
  fail the object has a null handle.
* The status of all other calls is compared with `CL_SUCCESS`, and `throw;` is executed if it differs.  There is no
  exception at this place, so that `throw;` ends the program.
* Calls with a null handle fail, with one exception: the OpenCL specification (`clSetKernelArg`) allows an argument that is
  declared as a pointer to global memory to be a null buffer, and the kernel then gets a null pointer.

Simplifications: there is one interface; commands do not fail after they have been put into the queue; for the other
simplifications see `Model/OpenCL`.
-/

namespace Hycu
namespace Calls

open OpenCL (Addr Buf Kernel Cmd Event)

/-- Objects of OpenCL that are made by the code: `context`, `queue` and the program of `_program_reduction` of the
interface (src/opencl/interface.cc l.41-44), `program_cl` for a degree (src/opencl/program.cc l.42), `kernel_cl` for a table
and a degree (src/opencl/kernel_evaluation.cc l.42-44), and the buffers. -/
inductive Obj
  | context
  | queue
  | reduction
  | program (degree : Nat)
  | kernel (t degree : Nat)
  | buffer (b : Buf)
  deriving DecidableEq

/-- The object that a constructor gets. -/
def Obj.needs : Obj → Option Obj
  | .context => none
  | .queue => some .context
  | .reduction => some .context
  | .program _ => some .context
  | .kernel _ d => some (.program d)
  | .buffer _ => some .context

/-- Arguments of kernels. -/
inductive Arg
  | value (n : Nat)
  | buffer (b : Buf)

/-- What the host does, in the order of the program.
* `alloc`, `free`: memory of the host
* `make o n`: constructor of an object; `n` is the size of a buffer
* `build o`: `build` of a program
* `set t d i v`: `setArg` of the kernel for a table and a degree
* `write`, `run`, `read`: `enqueueWriteBuffer`, `enqueueNDRangeKernel`, `enqueueReadBuffer` -/
inductive Call
  | alloc (a : Addr) (v : List Nat)
  | free (a : Addr)
  | make (o : Obj) (n : Nat)
  | build (o : Obj)
  | set (t degree i : Nat) (v : Arg)
  | write (b : Buf) (a : Addr) (n : Nat)
  | run (t degree n : Nat)
  | read (b : Buf) (n : Nat)

/-- Arguments that have been set: table, degree, and index. -/
abbrev Args := Nat → Nat → Nat → Option Arg

/-- Host and device.  `base` has memory, buffers, the queue and what has been read; its list of operations is not used.
`objs` has the objects that have been made: `some false` for a null handle. -/
structure State where
  base : OpenCL.State
  objs : Obj → Option Bool
  args : Args
  todo : List Call

/-- Access to an object: whether its handle is valid.  The pointer to an object that has not been made is null. -/
def valid (objs : Obj → Option Bool) (o : Obj) : Res Bool :=
  match objs o with
  | some v => .ok v
  | none => .ub

/-- The same for what a constructor gets, if it gets anything. -/
def validNeeds (objs : Obj → Option Bool) (o : Obj) : Res Bool :=
  match o.needs with
  | none => .ok true
  | some o' => valid objs o'

/-- The buffers after the constructor of an object has succeeded.  The content of a new buffer is arbitrary. -/
def newBufs (junk : Buf → Nat → Nat) (bufs : OpenCL.Bufs) (n : Nat) : Obj → OpenCL.Bufs
  | .buffer b => Function.update bufs b (some ((List.range n).map (junk b)))
  | _ => bufs

/-- The arguments after the constructor of an object: a new kernel has none. -/
def newArgs (args : Args) : Obj → Args
  | .kernel t d => Function.update args t (Function.update (args t) d fun _ => none)
  | _ => args

/-- Constructor of an object. -/
def makeStep (junk : Buf → Nat → Nat) (fault : Bool) (s : State) (o : Obj) (n : Nat) (r : List Call) : Res State := do
  let v ← validNeeds s.objs o
  if (s.objs o).isSome then .abort
  else if v && !fault then
    .ok { s with
      base := { s.base with bufs := newBufs junk s.base.bufs n o }
      objs := Function.update s.objs o (some true), args := newArgs s.args o, todo := r }
  else .ok { s with objs := Function.update s.objs o (some false), args := newArgs s.args o, todo := r }

/-- Access to the buffer of an argument, by its pointer. -/
def validArg (objs : Obj → Option Bool) : Arg → Res Bool
  | .value _ => .ok true
  | .buffer b => valid objs (.buffer b)

/-- `setArg`: a null buffer is no error. -/
def setStep (fault : Bool) (s : State) (t d i : Nat) (v : Arg) (r : List Call) : Res State := do
  let ok ← valid s.objs (.kernel t d)
  let _ ← validArg s.objs v
  if ok && !fault then
    .ok { s with
      args := Function.update s.args t (Function.update (s.args t) d (Function.update (s.args t d) i (some v))), todo := r }
  else .abort

/-- `enqueueWriteBuffer`, which also fails if the buffer is too small. -/
def writeStep (fault : Bool) (s : State) (b : Buf) (a : Addr) (n : Nat) (r : List Call) : Res State := do
  let q ← valid s.objs .queue
  let v ← valid s.objs (.buffer b)
  if q && v && !fault then do
    OpenCL.check s.base.bufs (.write b a n)
    .ok { s with base := { s.base with queue := s.base.queue ++ [.write b a n] }, todo := r }
  else .abort

/-- The kernel with the arguments that have been set; the size of the polynomial is a constant of the program
(src/opencl/program_evaluation.hh l.62-67).  Without all arguments there is `CL_INVALID_KERNEL_ARGS`. -/
def kernelOf (args : Args) (t d : Nat) : Option Kernel :=
  match args t d 0, args t d 1, args t d 2, args t d 3, args t d 4, args t d 5 with
  | some (.buffer coeffs), some (.value pred), some (.buffer ert), some (.buffer inc), some (.buffer unramified),
    some (.buffer ramified) => some ⟨coeffs, ert, inc, unramified, ramified, pred, d + 1⟩
  | _, _, _, _, _, _ => none

/-- `enqueueNDRangeKernel`, which keeps the arguments of this moment. -/
def runStep (fault : Bool) (s : State) (t d n : Nat) (r : List Call) : Res State := do
  let q ← valid s.objs .queue
  let v ← valid s.objs (.kernel t d)
  if q && v && !fault then
    match kernelOf s.args t d with
    | some k => .ok { s with base := { s.base with queue := s.base.queue ++ [.kernel k (List.range n)] }, todo := r }
    | none => .abort
  else .abort

/-- `enqueueReadBuffer` with `CL_TRUE`; `none` while the host waits. -/
def readStep (fault : Bool) (s : State) (b : Buf) (n : Nat) (r : List Call) : Res (Option State) := do
  let q ← valid s.objs .queue
  let v ← valid s.objs (.buffer b)
  if q && v && !fault then
    match s.base.queue with
    | [] => do
      let w ← OpenCL.get s.base.bufs b
      if n ≤ w.length then .ok (some { s with base := { s.base with out := s.base.out ++ [w.take n] }, todo := r })
      else .abort
    | _ :: _ => .ok none
  else .abort

/-- The next step of the host; `fault` tells whether OpenCL fails. -/
def host (junk : Buf → Nat → Nat) (fault : Bool) (s : State) : Res (Option State) :=
  match s.todo with
  | [] => .ok none
  | .alloc a v :: r =>
    if (s.base.heap a).isSome then .abort
    else .ok (some { s with base := { s.base with heap := Function.update s.base.heap a (some v) }, todo := r })
  | .free a :: r =>
    if (s.base.heap a).isSome then
      .ok (some { s with base := { s.base with heap := Function.update s.base.heap a none }, todo := r })
    else .ub
  | .make o n :: r => do
    let s ← makeStep junk fault s o n r
    .ok (some s)
  | .build o :: r => do
    let v ← valid s.objs o
    if v && !fault then .ok (some { s with todo := r }) else .abort
  | .set t d i v :: r => do
    let s ← setStep fault s t d i v r
    .ok (some s)
  | .write b a n :: r => do
    let s ← writeStep fault s b a n r
    .ok (some s)
  | .run t d n :: r => do
    let s ← runStep fault s t d n r
    .ok (some s)
  | .read b n :: r => readStep fault s b n r

/-- The next step of the device.  A null pointer among the arguments of a kernel is a buffer that does not exist. -/
def device (i : Nat) (s : State) : Res (Option State) := do
  let o ← OpenCL.device i s.base
  .ok (o.map fun b => { s with base := b })

/-- Who makes a step. -/
inductive Action
  | host (fault : Bool)
  | device (i : Nat)

def step (junk : Buf → Nat → Nat) (s : State) : Action → Res (Option State)
  | .host fault => host junk fault s
  | .device i => device i s

/-- The constructor of the interface (src/opencl/interface.cc l.35-45, src/opencl/program.cc l.30-48). -/
def interface : List Call := [.make .context 0, .make .queue 0, .make .reduction 0, .build .reduction]

/-- The constructor of a kernel (src/opencl/kernel_evaluation.cc l.32-83); `programs` are the degrees for which there is a
program already (src/opencl/interface.hh l.54-63). -/
def newKernel (rts : Nat → ReductionTable) (programs : List Nat) (t d : Nat) : List Call :=
  (if d ∈ programs then [] else [.make (.program d) 0, .build (.program d)]) ++
  [.make (.kernel t d) 0, .make (.buffer (.coeffs t d)) (d + 1), .set t d 1 (.value (rts t).primePowerPred),
   .set t d 2 (.buffer (.ert t)), .set t d 3 (.buffer (.inc t)), .set t d 4 (.buffer (.unramified t)),
   .set t d 5 (.buffer (.ramified t))]

/-- What the host does for an event; `kernels` are the tables and degrees for which there is a kernel already
(src/reduction_table.hh l.86-95).
* tables: src/opencl/buffer_evaluation.cc l.33-68
* counts: `newKernel`; src/opencl/kernel_evaluation.cc l.85-119; src/opencl/kernel_reduction.cc l.79-94, where both buffers
  are read -/
def eventCalls (rts : Nat → ReductionTable) (programs : List Nat) (kernels : List (Nat × Nat)) : Event → List Call
  | .table t moved =>
    [.alloc (.ert t) (rts t).exponentReductionTable, .alloc (.inc t) (rts t).incrementationTable] ++
    if moved then []
    else
      [.make (.buffer (.ert t)) (rts t).exponentReductionTable.length,
       .make (.buffer (.inc t)) (rts t).incrementationTable.length,
       .make (.buffer (.unramified t)) (rts t).primePowerPred, .make (.buffer (.ramified t)) (rts t).primePowerPred,
       .write (.ert t) (.ert t) (rts t).exponentReductionTable.length,
       .write (.inc t) (.inc t) (rts t).incrementationTable.length]
  | .count t cs =>
    (if (t, cs.length - 1) ∈ kernels then [] else newKernel rts programs t (cs.length - 1)) ++
    [.alloc .arg cs, .write (.coeffs t (cs.length - 1)) .arg (cs.length - 1 + 1),
     .set t (cs.length - 1) 0 (.buffer (.coeffs t (cs.length - 1))), .run t (cs.length - 1) (rts t).primePowerPred,
     .free .arg, .read (.unramified t) (rts t).primePowerPred, .read (.ramified t) (rts t).primePowerPred]
  | .drop t => [.free (.ert t), .free (.inc t)]

/-- The programs after an event. -/
def eventPrograms (programs : List Nat) : Event → List Nat
  | .count _ cs => (cs.length - 1) :: programs
  | _ => programs

/-- What the host does for a list of events. -/
def calls (rts : Nat → ReductionTable) : List Nat → List (Nat × Nat) → List Event → List Call
  | _, _, [] => []
  | programs, kernels, e :: es =>
    eventCalls rts programs kernels e ++ calls rts (eventPrograms programs e) (e.kernels kernels) es

/-- The state before the interface is made. -/
def initial (rts : Nat → ReductionTable) (es : List Event) : State where
  base := ⟨fun _ => none, fun _ => none, [], [], []⟩
  objs _ := none
  args _ _ _ := none
  todo := interface ++ calls rts [] [] es

end Calls
end Hycu
