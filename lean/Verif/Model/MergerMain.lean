import Verif.Model.Config

/-!
Model of the main function of `hycu-merger` (src/executables/merger.cc l.54-129) and of the files that `merge` writes
(src/executables/merger.cc l.159-163).

The command line is given by the values of its options; unknown or repeated options make `boost::program_options` throw,
which is not modelled.  Messages are not modelled.
-/

namespace Hycu
namespace Merger

/-- The options (src/executables/merger.cc l.62-83). -/
structure Options where
  help : Bool
  inputPath : Option (List Char)
  outputFile : Option (List Char)

/-- What a path leads to: nothing, something that is not a directory, or the directory with the given canonical path. -/
inductive PathKind where
  | missing
  | other
  | directory (canonical : List Char)
deriving DecidableEq

/-- The file system: directories by their canonical paths, what paths lead to, and the canonical path of the directory
and the last component of a path to a file.  The last component is the stem of the names of the output files: extensions
are appended to the string (src/executables/merger.cc l.117-120), which does not change the directory. -/
structure World where
  fs : FileSystem
  kind : List Char → PathKind
  locate : List Char → List Char × List Char

/-- `fstream(path, ios_base::out) << content`: nothing happens if the directory does not exist. -/
def writeFile (fs : FileSystem) (dir name content : List Char) : FileSystem :=
  match fs dir with
  | some d => fs.set dir (d.write name content)
  | none => fs

/-- A run up to its exit code, without the effect of its writes: the directory of the output files, the contents that
are written one after the other to names in this directory, and the exit code. -/
structure Plan where
  dir : List Char
  writes : List (List Char × List Char)
  exitCode : Nat

/-- A run that writes nothing. -/
def Plan.stop (exitCode : Nat) : Plan := ⟨[], [], exitCode⟩

/-- `main` (src/executables/merger.cc l.54-129 and l.159-163).  `directory_iterator` throws for a directory that cannot
be read. -/
def plan (w : World) (o : Options) : Res Plan :=
  if o.help then .ok (.stop 0)
  else
    match o.inputPath with
    | none => .ok (.stop 1)
    | some input =>
      match o.outputFile with
      | none => .ok (.stop 1)
      | some output =>
        match w.kind input with
        | .missing => .ok (.stop 1)
        | .other => .ok (.stop 1)
        | .directory dir =>
          match w.fs dir with
          | none => .abort
          | some d => do
            let out ← merge d
            match out.written with
            | none => pure (.stop out.exitCode)
            | some (store, record) =>
              let target := w.locate output
              pure ⟨target.1, [(target.2 ++ FileStore.storeExtension, store),
                (target.2 ++ FileStore.recordExtension, record)], out.exitCode⟩

/-- The file system after the writes of `plan`, and the exit code. -/
def main (w : World) (o : Options) : Res (FileSystem × Nat) := do
  let p ← plan w o
  pure (p.writes.foldl (fun fs x => writeFile fs p.dir x.1 x.2) w.fs, p.exitCode)

end Merger
end Hycu
