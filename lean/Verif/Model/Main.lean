import Verif.Model.Mpi

/-!
Model of the main functions of `hycu-threaded` and `hycu-mpi` up to the construction of the pool
(src/executables/threaded.cc l.46-134, src/executables/mpi.cc l.47-142), of what they return, and of the start of the
workers of `hycu-mpi`.  What happens in between is modelled by the machines in `Verif.Model.Pool` and `Verif.Model.Mpi`.

Command lines are given by the values of their options; unknown options and values that are not numbers make
`boost::program_options` throw, which is not modelled.  Messages are not modelled.
-/

namespace Hycu
namespace Main

/-- A YAML document. -/
inductive YamlNode where
  | null
  | scalar (text : List Char)
  | seq (items : List YamlNode)
  | map (entries : List (List Char × YamlNode))

/-- A node as a value that is converted to a number, a truth value or a string. -/
def YamlNode.value : YamlNode → YamlValue
  | .scalar text => .scalar text
  | _ => .other

/-- `node[key]`, `none` for an undefined node. -/
def lookup (key : List Char) : List (List Char × YamlNode) → Option YamlNode
  | [] => none
  | e :: es => if e.1 = key then some e.2 else lookup key es

/-- The part of a map that is read by `decode`. -/
def entries (es : List (List Char × YamlNode)) : YamlMap := es.map fun e => (e.1, e.2.value)

/-- `as<ConfigNode>()`: yaml-cpp throws if `decode` returns false, and if the node is not a map. -/
def config : YamlNode → Res ConfigNode
  | .map es => do
    match ← Yaml.decode (entries es) with
    | some c => pure c
    | none => .abort
  | _ => .abort

/-- The type of the store (src/executables/threaded.cc l.109-120): whether it is accepted. -/
def storeType (es : List (List Char × YamlNode)) : Res Bool :=
  match lookup "StoreType".toList es with
  | none => .ok true
  | some v => do
    let s ← Yaml.as some (some v.value)
    pure (s = "EC".toList)

/-- The configurations (src/executables/threaded.cc l.123-128).  Iteration over a node that is neither a sequence nor a
map gives nothing; the items of an iteration over a map are pairs, which cannot be converted. -/
def configs (es : List (List Char × YamlNode)) : Res (List ConfigNode) :=
  match lookup "Moduli".toList es with
  | none => do
    let c ← config (.map es)
    pure [c]
  | some (.seq items) => items.mapM config
  | some (.map []) => .ok []
  | some (.map _) => .abort
  | some _ => .ok []

/-- The options (src/executables/threaded.cc l.55-67). -/
structure Options where
  help : Bool
  configFile : Option (List Char)
  outputPath : Option (List Char)
  nmbThreads : Int
  threadsPerGpu : Nat

/-- What the main function finds: the result of `canonical` for a path, the directories (by their canonical path),
whether `create_directories` succeeds, which paths are regular files, and the documents in them (`abort` if yaml-cpp
throws). -/
structure World where
  canonical : List Char → List Char
  fs : FileSystem
  create : Res Bool
  isFile : List Char → Bool
  load : List Char → Res YamlNode

/-- How the main function goes on: it returns a value, or it works on configurations. -/
inductive Start where
  | exit (code : Nat)
  | run (configs : List ConfigNode)

/-- The document is read (src/executables/threaded.cc l.106-128, l.137).  The output path is prepended to a configuration
immediately before it is used.  A document that is not a map makes yaml-cpp throw. -/
def read (out : List Char) : YamlNode → Res Start
  | .map es => do
    if ← storeType es then
      let cs ← configs es
      pure (.run (cs.map fun c => c.prependOutputPath out))
    else pure (.exit 1)
  | _ => .abort

/-- The output directory is made unless it is there (src/executables/threaded.cc l.94-95). -/
def makeOutput (w : World) (out : List Char) : Res (FileSystem × Bool) :=
  if (w.fs (w.canonical out)).isSome then .ok (w.fs, true)
  else do
    let made ← w.create
    pure (if made then w.fs.set (w.canonical out) [] else w.fs, made)

/-- The main function up to the construction of the pool (src/executables/threaded.cc l.78-128, src/executables/mpi.cc
l.86-136): the directories afterwards, and how it goes on. -/
def start (w : World) (o : Options) : Res (FileSystem × Start) :=
  if o.help then .ok (w.fs, .exit 0)
  else match o.configFile, o.outputPath with
    | none, _ => .ok (w.fs, .exit 1)
    | _, none => .ok (w.fs, .exit 1)
    | some file, some out => do
      let made ← makeOutput w out
      if made.2 then
        if w.isFile file then do
          let doc ← w.load file
          let s ← read (w.canonical out) doc
          pure (made.1, s)
        else pure (made.1, .exit 1)
      else pure (made.1, .exit 1)

/-- The value that is returned by a run that has ended (src/executables/threaded.cc l.136-150, src/executables/mpi.cc
l.144-159). -/
def exitCode (todo : List Run.Cmd) : Nat := if todo = [] then 0 else 1

/-! ### The start of several processes -/

/-- The processes before their loops (src/worker_pool/mpi.cc l.57-59, l.83-97, src/worker_pool/mpi_worker.cc l.40-44). -/
structure Boot where
  /-- number of processes -/
  nprocs : Nat
  /-- how the main function of the master goes on (src/executables/mpi.cc l.60-136) -/
  master : Start
  /-- the values that the master has to send: the type of the store, and the two numbers of threads -/
  values : List Int
  /-- the values that the master has sent -/
  sent : List Int
  /-- the values that the processes have received -/
  received : Nat → List Int

/-- Steps before the loops: the master sends a value if it constructs a pool (src/worker_pool/mpi.cc l.57-59, l.94-96), a
worker, which has not read any options, receives one (src/worker_pool/mpi_worker.cc l.43-44).  A broadcast may return in
the master before the workers take part. -/
inductive Boot.Step : Boot → Boot → Prop
  | send (b : Boot) (cs : List ConfigNode) (v : Int) (vs : List Int) (h : b.master = .run cs)
      (hv : b.values = v :: vs) : Boot.Step b { b with values := vs, sent := b.sent ++ [v] }
  | receive (b : Boot) (ix : Nat) (v : Int) (vs : List Int) (h0 : 0 < ix) (hx : ix < b.nprocs)
      (h : b.sent = b.received ix ++ v :: vs) :
      Boot.Step b { b with received := Function.update b.received ix (b.received ix ++ [v]) }

/-- The processes in the beginning; `EC` is the only type of stores. -/
def Boot.initial (nprocs : Nat) (s : Start) (o : Options) : Boot :=
  ⟨nprocs, s, [0, o.nmbThreads, o.threadsPerGpu], [], fun _ => []⟩

/-- The state after some steps. -/
inductive Boot.Reachable (b₀ : Boot) : Boot → Prop
  | refl : Boot.Reachable b₀ b₀
  | step {b b' : Boot} (h : Boot.Reachable b₀ b) (hs : Boot.Step b b') : Boot.Reachable b₀ b'

/-- A worker is in its loop. -/
def Boot.Up (b : Boot) (ix : Nat) : Prop := (b.received ix).length = 3

/-- The threads that a worker starts with the values it received (src/worker_pool/mpi_worker.cc l.46-47). -/
def Boot.kinds (b : Boot) (devices hardware : Nat → Nat) (ix : Nat) : Option (List Bool) :=
  match b.received ix with
  | [_, n, g] => some (Run.sparkKinds (devices ix) g.toNat (hardware ix) n)
  | _ => none

end Main
end Hycu
