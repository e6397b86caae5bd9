import Verif.Cpp.OMap
import Verif.Cpp.Stream
import Verif.Model.OpenCL
import Verif.Model.Pool

/-!
Devices and programs of OpenCL (src/opencl/interface.*, src/opencl/program.cc, src/opencl/program_evaluation.hh), and the
threads made for devices (src/threaded/thread_pool.cc l.36-70).

Handles of OpenCL are values of a type `D`.  Answers of OpenCL that are errors are `none`; the code does not look at the
error codes of these calls.
-/

namespace Hycu
namespace OpenCL

/-- What OpenCL tells about a platform: its vendor, and the devices of types `CL_DEVICE_TYPE_GPU` and
`CL_DEVICE_TYPE_ACCELERATOR`; for `none` the call fails. -/
structure Platform (D : Type) where
  vendor : Option (List Char)
  gpus : Option (List D)
  accelerators : Option (List D)

/-- The loop over all platforms (src/opencl/interface.cc l.53-63).  `vendor` is the variable declared in front of the loop
(l.55), which keeps its value if `getInfo` fails; `vendors` are those seen before. -/
def pickPlatforms {D : Type} : List (Platform D) → List Char → List (List Char) → List (Platform D)
  | [], _, _ => []
  | p :: ps, vendor, vendors =>
    let vendor := p.vendor.getD vendor
    if vendor ∈ vendors then pickPlatforms ps vendor vendors
    else p :: pickPlatforms ps vendor (vendors ++ [vendor])

/-- `getDevices`, which assigns to the vector if it does not fail (CL/cl.hpp). -/
def getDevices {D : Type} (answer : Option (List D)) (v : List D) : List D :=
  answer.getD v

/-- The loop over the platforms that are used (src/opencl/interface.cc l.66-74): `devices` and `platform_devices` before
and after. -/
def addDevices {D : Type} : List (Platform D) → List D × List D → List D × List D
  | [], s => s
  | p :: ps, (devices, _) =>
    let v := getDevices p.gpus []
    let devices := devices ++ v
    let v := getDevices p.accelerators []
    let devices := devices ++ v
    addDevices ps (devices, v)

/-- `OpenCLInterface::devices` (src/opencl/interface.cc l.45-77). -/
def devices {D : Type} (ps : List (Platform D)) : List D := (addDevices (pickPlatforms ps [] []) ([], [])).1

/-- The threads made by `spark_threads` (src/threaded/thread_pool.cc l.47-63) with their devices; `none` for threads
without OpenCL. -/
def sparkThreads {D : Type} (ds : List D) (threadsPerGpu hardware : Nat) (nmbWorking : Int) : List (Option D) :=
  let nmb := if nmbWorking < 0 then hardware else nmbWorking.toNat
  let gpu := ds.flatMap fun d => List.replicate threadsPerGpu (some d)
  gpu ++ List.replicate (nmb - gpu.length / 8) none

/-- A program that has been built for a polynomial degree; the code is that of evaluation.cl. -/
structure Program where
  degree : Nat
  options : List Char
deriving DecidableEq

/-- `build_options` (src/opencl/program_evaluation.hh l.62-67). -/
def buildOptions (degree : Nat) : List Char := "-DPOLY_SIZE=".toList ++ showNat (u32 (degree + 1))

/-- Construction of a program (src/opencl/program_evaluation.hh l.48-52, src/opencl/program.cc l.30-46); `builds` tells
whether the compiler succeeds. -/
def makeProgram (builds : List Char → Bool) (degree : Nat) : Res Program :=
  if builds (buildOptions degree) then .ok ⟨degree, buildOptions degree⟩ else .abort

/-- `OpenCLInterface::program_evaluation` (src/opencl/interface.hh l.54-63): the programs of the interface after the
call, and the program that is returned. -/
def programEvaluation (builds : List Char → Bool) (cache : OMap Nat Program) (degree : Nat) :
    Res (OMap Nat Program × Program) :=
  match cache.find? degree with
  | none => do
    let p ← makeProgram builds degree
    let cache := cache.set degree p
    match cache.find? degree with
    | some p => .ok (cache, p)
    | none => .ub
  | some p => .ok (cache, p)

end OpenCL
end Hycu
