import Verif.Model.MergerLive
import Verif.Spec.Mpi

/-!
Merging while runs go on.
-/

namespace Hycu
namespace Live

open Run (Env Sect program)

/-- A run that is going on: of `hycu-threaded` or of `hycu-mpi`. -/
inductive Now where
  | threaded (st : Run.State)
  | mpi (st : Mpi.State)

/-- The files. -/
def Now.fs : Now → FileSystem
  | .threaded st => st.fs
  | .mpi st => st.fs

/-- The writes that are about to be done, and the directory. -/
def Now.pending : Now → Option ((List Char × List Char) × List Char)
  | .threaded st =>
    match st.pc, st.fileStore with
    | .write (w :: _) _, some f => some (w, f.config.resultPath)
    | _, _ => none
  | .mpi st =>
    match st.pc, st.fileStore with
    | .write (w :: _) _ _, some f => some (w, f.config.resultPath)
    | _, _ => none

/-- What a run that dies may leave behind. -/
def Now.Leaves : Now → FileSystem → Prop
  | .threaded st, fs => Run.Dies st fs
  | .mpi st, fs => Mpi.Dies st fs

/-- What another program may see: the files between two writes, or a file in the course of a write with a part of its
content (but not a record file in the course of its write). -/
inductive Sees (w : Now) : FileSystem → Prop
  | between : Sees w w.fs
  | inside (n c part path : List Char) (d : Dir) (hw : w.pending = some ((n, c), path)) (hd : w.fs path = some d)
      (hp : part <+: c) (hn : ¬ ∃ s, n = s ++ ".hycu_record".toList) : Sees w (w.fs.set path (d.write n part))

/-- A run is started with the given files. -/
inductive Starts (ss : List Sect) (fs : FileSystem) : Now → Prop
  | threaded (kinds : List Bool) (hk : kinds.length < 4294967296) :
      Starts ss fs (.threaded (Run.initial kinds fs (program ss)))
  | mpi (kinds : List (List Bool)) (h0 : kinds ≠ []) (hk : ∀ k ∈ kinds, k.length < 4294967296) :
      Starts ss fs (.mpi (Mpi.initial kinds fs (program ss)))

/-- What happens: the run makes a step, or it ends or dies and another one is started. -/
inductive Next (env : Env) (ss : List Sect) : Now → Now → Prop
  | threaded {st st' : Run.State} (l : Run.Label) (h : Run.step env st l = .ok (some st')) :
      Next env ss (.threaded st) (.threaded st')
  | mpi {st st' : Mpi.State} (l : Mpi.Label) (h : Mpi.step env st l = .ok (some st')) : Next env ss (.mpi st) (.mpi st')
  | again {w w' : Now} {fs : FileSystem} (h : w.Leaves fs) (hs : Starts ss fs w') : Next env ss w w'

/-- The runs that can be going on, after any number of runs over the same input. -/
inductive Ongoing (env : Env) (ss : List Sect) : Now → Prop
  | start {fs : FileSystem} {w : Now} (h : Run.Untouched ss fs) (hs : Starts ss fs w) : Ongoing env ss w
  | next {w w' : Now} (h : Ongoing env ss w) (hn : Next env ss w w') : Ongoing env ss w'

/-- A merger for the directory `path` was started in the situation `w₀`; now the situation is the given one, and the merger
is in the given state. -/
inductive Merging (env : Env) (ss : List Sect) (path : List Char) (w₀ : Now) : Now → Merger.Live → Prop
  | start : Merging env ss path w₀ w₀ .opening
  | next {w w' : Now} {m : Merger.Live} (h : Merging env ss path w₀ w m) (hn : Next env ss w w') :
      Merging env ss path w₀ w' m
  | merge {w : Now} {m m' : Merger.Live} {fs : FileSystem} {d : Dir} (h : Merging env ss path w₀ w m) (hs : Sees w fs)
      (hd : fs path = some d) (hm : Merger.LiveStep d m (.ok m')) : Merging env ss path w₀ w m'

/-- The merger works on a directory that does not change. -/
inductive Alone (d : Dir) : Merger.Live → Merger.Live → Prop
  | refl (m : Merger.Live) : Alone d m m
  | head {m m' m'' : Merger.Live} (h : Merger.LiveStep d m (.ok m')) (h' : Alone d m' m'') : Alone d m m''

end Live
end Hycu
