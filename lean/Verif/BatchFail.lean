import Verif.Glob
import Verif.Access

/-!
# The batch runner when results cannot be saved

experimental.py as in `Glob`, where a directory may refuse to be listed and saving a result may
fail. A circuit file that cannot be read is one that `process` fails on. Simplifications: as in `Glob`, apart from that; which
accesses fail does not change during a run.
-/

namespace QuDiet.Tools
open QuDiet.Qasm

/-- How saving a result fails (experimental.py:110-111). -/
inductive SaveFault
  /-- `open` raises. The file is as before. -/
  | refused
  /-- `pickle.dump` or closing the file raises (no space left, say). So many characters have reached the file. -/
  | stopped (n : Nat)

/-- experimental.py:67-69: what `glob` returns. `glob._iterdir` swallows the exception of a directory that cannot be listed and goes
on as if it were empty. -/
def Dir.globIf (acc : Access) (disk : Dir) (cwd : List Text) (path mode : Text) : List Text :=
  match disk.at cwd (globBase path) with
  | some top => match disk.get top with
    | some (.dir d) =>
      (([] :: (if acc.closed top then Dir.nil else d.seen acc top).rlist).map (joinPath (globBase path))).flatMap fun dn =>
        match disk.at cwd dn with
        | some ns => match disk.get ns with
          | some (.dir e) =>
            if acc.closed ns then []
            else (e.names.filter fun n => !globHidden n && (lit "." ++ mode).isSuffixOf n).map (joinPath dn)
          | _ => []
        | none => []
    | _ => []
  | none => []

/-- experimental.py:93-122 `routine`. The exception of a result that cannot be saved is swallowed as well. -/
def Dir.routineIf (fault : List Text → Option SaveFault) (process : Text → Text → PyM Text) (cwd : List Text)
    (suffix file : Text) (disk : Dir) : Dir :=
  match disk.look cwd file with
  | some (.file t) => match process file t with
    | .ok result => match disk.at cwd (outputName suffix file) with
      | some ns => match fault ns with
        | none => disk.save ns result
        | some .refused => disk
        | some (.stopped n) => disk.save ns (result.take n)
      | none => disk
    | .error _ => disk
  | _ => disk

/-- experimental.py:11-63, 65-81 `arguments` and `main`, for the options `-m mode -b backend path` where the mode is `txt` or `qasm`
(see `batchMain` for the others): the disk afterwards, or an exception. -/
def batchMainIf (acc : Access) (fault : List Text → Option SaveFault) (process : Text → Text → Text → PyM Text) (cuda : Bool)
    (cwd : List Text) (mode backend path : Text) (disk : Dir) : PyM Dir :=
  if backend ∉ [lit "sparse", lit "numpy", lit "cuda", lit "sparse-cuda"] then .error .exception
  else if backend ∈ [lit "cuda", lit "sparse-cuda"] ∧ cuda = false then .error .assertion
  else
    let files := disk.globIf acc cwd path mode
    .ok (files.foldl (fun disk file => disk.routineIf fault (process backend) cwd backend file) disk)

/-- experimental.py:84-89, the modes `pkl` and `pickle`, as `Dir.pickles`, where opening or reading a file may raise. -/
def Dir.picklesIf (acc : Access) (load : Text → PyM Text) (disk : Dir) (cwd : List Text) :
    List Text → List (Text × Text) × PyM Unit
  | [] => ([], .ok ())
  | f :: fs => match disk.at cwd f with
    | some ns => match disk.get ns with
      | some (.file t) => match acc.load ns with
        | some e => ([], .error e)
        | none => match load t with
          | .ok result => (((splitCh '/' f).getLastD [], result) :: (disk.picklesIf acc load cwd fs).1,
              (disk.picklesIf acc load cwd fs).2)
          | .error e => ([], .error e)
      | _ => ([], .error .os)
    | none => ([], .error .os)

/-- experimental.py:11-63, 65-72, 84-91 `arguments` and `main`, for the options `-m mode -b backend path` where the mode is `pkl` or
`pickle`: what is shown, and how it ends. The disk is only read. -/
def batchShowIf (acc : Access) (load : Text → PyM Text) (cuda : Bool) (cwd : List Text) (mode backend path : Text) (disk : Dir) :
    List (Text × Text) × PyM Unit :=
  if backend ∉ [lit "sparse", lit "numpy", lit "cuda", lit "sparse-cuda"] then ([], .error .exception)
  else if backend ∈ [lit "cuda", lit "sparse-cuda"] ∧ cuda = false then ([], .error .assertion)
  else disk.picklesIf acc load cwd (disk.globIf acc cwd path mode)

end QuDiet.Tools
