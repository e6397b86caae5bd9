import Verif.Model.OpenCL

/-!
The work items of the evaluation kernel, one access to memory after the other (src/opencl/evaluation.cl).  In
`Verif.Model.OpenCL` a work item is one step; here the steps of all work items of a kernel are mixed in any order, with each
other and with those of the host.

Work items are not synchronised, so that two accesses to the same place by different work items, at least one of them a
write, are undefined.  The parameters are `restrict`: it is also undefined if a work item writes to a place that it accesses
by another parameter.

Simplification: the counter of the loop does not overflow (`POLY_SIZE` is an `int`).
-/

namespace Hycu
namespace Items

open OpenCL

/-- The parameters that are pointers (src/opencl/evaluation.cl l.28-35). -/
inductive Param
  | coeffs
  | ert
  | inc
  | unramified
  | ramified
  deriving DecidableEq

/-- The argument for a parameter (src/opencl/kernel_evaluation.cc l.54-82 and l.106). -/
def arg (k : Kernel) : Param → Buf
  | .coeffs => k.coeffs
  | .ert => k.ert
  | .inc => k.inc
  | .unramified => k.unramified
  | .ramified => k.ramified

/-- An access to a buffer: the place, by whom and by which parameter it was made, and whether it was a write. -/
structure Access where
  buf : Buf
  place : Nat
  item : Nat
  param : Param
  write : Bool
  deriving DecidableEq

/-- Two accesses to the same place that must not be in one run of a kernel. -/
def Access.conflict (a b : Access) : Bool :=
  a.buf == b.buf && a.place == b.place && (a.write || b.write) && (a.item != b.item || a.param != b.param)

/-- Where a work item is in the kernel, and its variables (src/opencl/evaluation.cl):
* `start`: before l.42;
* `head dx xpw f`: at the head of the loop (l.45);
* `power dx i f`: before the access to `exponent_reduction_table` in l.47, where `xpw` is `i`;
* `test dx xpw f`: before the access in l.48;
* `coeff dx xpw f`: before the access to `poly_coeffs_exponents` in l.50 or l.52;
* `term dx xpw f i`: before the access to `exponent_reduction_table` in the same line, at the place `i`;
* `add dx xpw lo hi`: before l.62, where `f` is `lo` and `tmp` is `hi`;
* `sum dx xpw j`: before l.65, where `f` is `j`;
* `put f`: before the assignment to `nmbs_unramified[x]` (l.73, l.76 or l.79);
* `put2 f`: before the assignment to `nmbs_ramified[x]` (l.74, l.77 or l.80);
* `done`: the work item has returned. -/
inductive Pc
  | start
  | head (dx xpw f : Nat)
  | power (dx i f : Nat)
  | test (dx xpw f : Nat)
  | coeff (dx xpw f : Nat)
  | term (dx xpw f i : Nat)
  | add (dx xpw lo hi : Nat)
  | sum (dx xpw j : Nat)
  | put (f : Nat)
  | put2 (f : Nat)
  | done
  deriving DecidableEq

/-- Host and device; where the work items of the first command of the queue are, and the accesses that they have made. -/
structure State where
  base : OpenCL.State
  pc : Nat → Pc
  log : List Access

/-- A work item goes on. -/
def State.goto (s : State) (x : Nat) (pc : Pc) : State := { s with pc := Function.update s.pc x pc }

/-- An access is made. -/
def note (s : State) (a : Access) : Res State :=
  if s.log.any a.conflict then .ub else .ok { s with log := a :: s.log }

/-- Work item `x` reads place `i` by parameter `p`; places outside of the buffer are undefined. -/
def read (k : Kernel) (s : State) (x : Nat) (p : Param) (i : Nat) : Res (State × Nat) := do
  let v ← get s.base.bufs (arg k p)
  let a ← rd v i
  let s ← note s ⟨arg k p, i, x, p, false⟩
  .ok (s, a)

/-- Work item `x` writes to place `i` by parameter `p`. -/
def write (k : Kernel) (s : State) (x : Nat) (p : Param) (i a : Nat) : Res State := do
  let bufs ← store s.base.bufs (arg k p) i a
  let s ← note s ⟨arg k p, i, x, p, true⟩
  .ok { s with base := { s.base with bufs := bufs } }

/-- The next step of work item `x` (src/opencl/evaluation.cl l.40-82).  The difference of `tmp` and `f` in l.62 is not
negative; a negative one would be a place outside of the buffer, as it is here. -/
def itemStep (k : Kernel) (x : Nat) (s : State) : Res (Option State) :=
  match s.pc x with
  | .start => do
    let (s, f) ← read k s x .coeffs 0
    .ok (some (s.goto x (.head 1 0 f)))
  | .head dx xpw f =>
    if dx < k.polySize then do
      let i ← Curve.addI32 xpw x
      .ok (some (s.goto x (.power dx i f)))
    else .ok (some (s.goto x (.put f)))
  | .power dx i f => do
    let (s, xpw) ← read k s x .ert i
    .ok (some (s.goto x (.test dx xpw f)))
  | .test dx xpw f => do
    let (s, c) ← read k s x .coeffs dx
    .ok (some (s.goto x (if c ≠ k.pred then .coeff dx xpw f else .head (dx + 1) xpw f)))
  | .coeff dx xpw f => do
    let (s, c) ← read k s x .coeffs dx
    let i ← Curve.addI32 c xpw
    .ok (some (s.goto x (.term dx xpw f i)))
  | .term dx xpw f i => do
    let (s, tmp) ← read k s x .ert i
    .ok (some (s.goto x (if f = k.pred then .head (dx + 1) xpw tmp
      else if tmp ≤ f then .add dx xpw tmp f else .add dx xpw f tmp)))
  | .add dx xpw lo hi => do
    let (s, tmp2) ← read k s x .inc (u32sub hi lo)
    if tmp2 ≠ k.pred then do
      let j ← Curve.addI32 lo tmp2
      .ok (some (s.goto x (.sum dx xpw j)))
    else .ok (some (s.goto x (.head (dx + 1) xpw k.pred)))
  | .sum dx xpw j => do
    let (s, f) ← read k s x .ert j
    .ok (some (s.goto x (.head (dx + 1) xpw f)))
  | .put f => do
    let s ← write k s x .unramified x (Curve.kernelOut k.pred f).1
    .ok (some (s.goto x (.put2 f)))
  | .put2 f => do
    let s ← write k s x .ramified x (Curve.kernelOut k.pred f).2
    .ok (some (s.goto x .done))
  | .done => .ok none

/-- Who makes a step: the host, a work item of the first command of the queue, or the device, which carries out a write or
ends a kernel. -/
inductive Action
  | host
  | item (x : Nat)
  | next

/-- The device takes the next command when a write has been carried out, or when all work items of a kernel have returned
(the queue works in order, src/opencl/interface.cc l.42). -/
def next (s : State) : Res (Option State) :=
  match s.base.queue with
  | [] => .ok none
  | .write b a n :: q => do
    let bufs ← transfer s.base.heap s.base.bufs b a n
    .ok (some { s with base := { s.base with bufs := bufs, queue := q } })
  | .kernel _ items :: q =>
    if ∀ x ∈ items, s.pc x = .done then
      .ok (some { base := { s.base with queue := q }, pc := fun _ => .start, log := [] })
    else .ok none

/-- A work item of the kernel that is running. -/
def item (x : Nat) (s : State) : Res (Option State) :=
  match s.base.queue with
  | .kernel k items :: _ => if x ∈ items then itemStep k x s else .ok none
  | _ => .ok none

/-- One step; `none` if there is nothing to do. -/
def step (junk : Buf → Nat → Nat) (s : State) : Action → Res (Option State)
  | .host => do
    let o ← host junk s.base
    .ok (o.map fun b => { s with base := b })
  | .item x => item x s
  | .next => next s

/-- The state before the first event. -/
def initial (rts : Nat → ReductionTable) (es : List Event) : State where
  base := OpenCL.initial rts es
  pc _ := .start
  log := []

end Items
end Hycu
