import Mathlib.Logic.Function.Basic
import Verif.Cpp.Basic

/-!
The kernel that adds numbers on the device (src/opencl/reduction.cl), and the branches of src/opencl/kernel_reduction.cc
with it.  They are compiled if `SIZE_PARTIAL_REDUCTION` (src/opencl/program_reduction.hh l.41) is not zero; the text of the
kernel is part of the program in any case, with the macro replaced (src/opencl/program.hh l.32-33), and built for every
device.

The work items of all groups run in any order, one access to local memory after the other.  Two accesses to the same place
by different work items, at least one of them a write, are undefined unless there is a barrier between them.
-/

namespace Hycu
namespace Reduction

/-- The text that replaces `SIZE_PARTIAL_REDUCTION`: one token or an expression in parentheses with value `n`, or a shift
without parentheses as in src/opencl/program_reduction.hh l.41. -/
inductive Macro
  | value (n : Nat)
  | shl (a n : Nat)
  | shr (a n : Nat)

/-- The value in `offset>=SIZE_PARTIAL_REDUCTION`, `lix < SIZE_PARTIAL_REDUCTION`, and `SIZE_PARTIAL_REDUCTION == 0`
(src/opencl/reduction.cl l.46 and l.52, src/opencl/kernel_reduction.cc l.43 and l.87); shifts bind more tightly than
comparisons. -/
def Macro.val : Macro → Nat
  | .value n => n
  | .shl a n => a <<< n
  | .shr a n => a >>> n

/-- The value of `SIZE_PARTIAL_REDUCTION*get_group_id(0)+lix` (src/opencl/reduction.cl l.53); shifts bind less tightly than
products and sums.  In OpenCL the number of bits to shift by is reduced modulo 32.  A shift to the left is not reduced to 32
bits here; all places from `2 ^ 31` on are outside of the buffers. -/
def Macro.place (g l : Nat) : Macro → Nat
  | .value n => n * g + l
  | .shl a n => a <<< ((n * g + l) % 32)
  | .shr a n => a >>> ((n * g + l) % 32)

/-- The value of `k*SIZE_PARTIAL_REDUCTION` (src/opencl/kernel_reduction.cc l.47). -/
def Macro.times (k : Nat) : Macro → Nat
  | .value n => k * n
  | .shl a n => (k * a) <<< n
  | .shr a n => (k * a) >>> n

/-- A launch of the kernel (src/opencl/kernel_reduction.cc l.96-104): `as` is the buffer to be added, `len` the second
parameter, `scratch` the number of places of the local memory, `nsums` the number of places of `sum_a`. -/
structure Launch where
  size : Macro
  as : List Int
  len : Nat
  groups : Nat
  lsz : Nat
  scratch : Nat
  nsums : Nat

/-- `get_global_size(0)` -/
def Launch.gsz (L : Launch) : Nat := L.groups * L.lsz

/-- Where a work item is in the kernel (src/opencl/reduction.cl):
* `acc ix a`: at the head of the first loop (l.41);
* `put a`: before the assignment of l.43;
* `wait o`: at a barrier, after which the second loop is continued with `offset = o` (l.45-46 and l.49-46);
* `loop o`: at the head of the second loop (l.46);
* `load o`: before the read of `partial_sum_a[lix+offset]` (l.48);
* `store o v`: before the rest of l.48;
* `last`: before l.52;
* `done`: the work item has returned. -/
inductive Pc
  | acc (ix : Nat) (a : Int)
  | put (a : Int)
  | wait (o : Nat)
  | loop (o : Nat)
  | load (o : Nat)
  | store (o : Nat) (v : Int)
  | last
  | done
  deriving DecidableEq

/-- An access to local memory: the place, the work item, and whether it was a write. -/
structure Access where
  place : Nat
  item : Nat
  write : Bool
  deriving DecidableEq

/-- Two accesses to the same place by different work items, at least one of them a write. -/
def Access.conflict (a b : Access) : Bool := a.place == b.place && a.item != b.item && (a.write || b.write)

/-- A group: where its work items are, `partial_sum_a`, and the accesses to it since the last barrier. -/
structure Group where
  pc : Nat → Pc
  mem : Nat → Option Int
  log : List Access

/-- All groups, `sum_a`, and by whom (group and work item) its places were written. -/
structure State where
  group : Nat → Group
  sums : Nat → Option Int
  log : List (Nat × Nat × Nat)

/-- Access to local memory. -/
def access (L : Launch) (G : Group) (a : Access) : Res Group :=
  if L.scratch ≤ a.place then .ub
  else if G.log.any a.conflict then .ub
  else .ok { G with log := a :: G.log }

/-- Read from local memory; what has not been written is undefined. -/
def read (L : Launch) (G : Group) (l i : Nat) : Res (Group × Int) := do
  let G ← access L G ⟨i, l, false⟩
  match G.mem i with
  | some v => .ok (G, v)
  | none => .ub

/-- Write to local memory. -/
def write (L : Launch) (G : Group) (l i : Nat) (v : Int) : Res Group := do
  let G ← access L G ⟨i, l, true⟩
  .ok { G with mem := Function.update G.mem i (some v) }

/-- The value of an `int`; others are overflows. -/
def int (v : Int) : Res Int := if -2147483648 ≤ v ∧ v < 2147483648 then .ok v else .ub

/-- A work item goes on. -/
def Group.goto (G : Group) (l : Nat) (pc : Pc) : Group := { G with pc := Function.update G.pc l pc }

/-- One step of a work item inside of its group (src/opencl/reduction.cl l.40-50). -/
def itemStep (L : Launch) (l : Nat) (G : Group) : Res (Option Group) :=
  match G.pc l with
  | .acc ix a =>
    if ix < L.len then
      match L.as[ix]? with
      | none => .ub
      | some v => do
        let a ← int (a + v)
        let _ ← int (ix + L.gsz)
        .ok (some (G.goto l (.acc (ix + L.gsz) a)))
    else .ok (some (G.goto l (.put a)))
  | .put a => do
    let G ← write L G l l a
    .ok (some (G.goto l (.wait (L.lsz / 2))))
  | .loop o =>
    if L.size.val ≤ o then
      if l < o then .ok (some (G.goto l (.load o))) else .ok (some (G.goto l (.wait (o / 2))))
    else .ok (some (G.goto l .last))
  | .load o => do
    let (G, v) ← read L G l (l + o)
    .ok (some (G.goto l (.store o v)))
  | .store o v => do
    let (G, w) ← read L G l l
    let s ← int (w + v)
    let G ← write L G l l s
    .ok (some (G.goto l (.wait (o / 2))))
  | .wait _ | .last | .done => .ok none

/-- The end of a work item (src/opencl/reduction.cl l.52-53). -/
def lastStep (L : Launch) (g l : Nat) (st : State) : Res (Option State) :=
  if l < L.size.val then do
    let (G, v) ← read L (st.group g) l l
    let i := L.size.place g l
    if L.nsums ≤ i then .ub
    else if st.log.any (fun w => w.1 == i && w.2 != (g, l)) then .ub
    else .ok (some { group := Function.update st.group g (G.goto l .done), sums := Function.update st.sums i (some v),
                     log := (i, g, l) :: st.log })
  else .ok (some { st with group := Function.update st.group g ((st.group g).goto l .done) })

/-- A work item waits at a barrier, or has returned. -/
def Pc.stopped : Pc → Bool
  | .wait _ | .done => true
  | _ => false

/-- A barrier (src/opencl/reduction.cl l.45 and l.49): the work items go on when all of them have come to it.  If some of
them wait at different barriers, or have returned, then the behaviour is undefined. -/
def barrierStep (L : Launch) (G : Group) : Res (Option Group) :=
  if ∀ l < L.lsz, (G.pc l).stopped = true then
    if ∀ l < L.lsz, G.pc l = .done then .ok none
    else match G.pc 0 with
      | .wait o =>
        if ∀ l < L.lsz, G.pc l = .wait o then .ok (some { G with pc := fun _ => .loop o, log := [] }) else .ub
      | _ => .ub
  else .ok none

/-- What happens next: a step of a work item, or a barrier of a group. -/
inductive Label
  | item (g l : Nat)
  | barrier (g : Nat)

/-- One step; `none` if there is nothing to do. -/
def step (L : Launch) (st : State) : Label → Res (Option State)
  | .item g l =>
    if g < L.groups ∧ l < L.lsz then
      if (st.group g).pc l = .last then lastStep L g l st
      else do
        let o ← itemStep L l (st.group g)
        .ok (o.map fun G => { st with group := Function.update st.group g G })
    else .ok none
  | .barrier g =>
    if g < L.groups then do
      let o ← barrierStep L (st.group g)
      .ok (o.map fun G => { st with group := Function.update st.group g G })
    else .ok none

/-- The beginning (src/opencl/reduction.cl l.34-41); `get_global_id(0)` is `g * lsz + l`.  `sum_a` is a new buffer
(src/opencl/kernel_reduction.cc l.54-55). -/
def initial (L : Launch) : State where
  group g := { pc := fun l => .acc (g * L.lsz + l) 0, mem := fun _ => none, log := [] }
  sums _ := none
  log := []

/-- States of executions. -/
inductive Reachable (L : Launch) : State → Prop
  | start : Reachable L (initial L)
  | step {st st' : State} (l : Label) : Reachable L st → Reduction.step L st l = .ok (some st') → Reachable L st'

/-- All work items have returned. -/
def Finished (L : Launch) (st : State) : Prop := ∀ g < L.groups, ∀ l < L.lsz, (st.group g).pc l = .done

/-- The launch in `OpenCLKernelReduction::_reduce` (src/opencl/kernel_reduction.cc l.47, l.54-75, l.96-104;
src/opencl/kernel_reduction.hh l.62-64), where the buffer has `prime_power_pred` places. -/
def launch (size : Macro) (as : List Int) : Launch where
  size := size
  as := as
  len := as.length
  groups := 8192 / 256
  lsz := 256
  scratch := 256
  nsums := size.times (8192 / 256)

end Reduction
end Hycu
