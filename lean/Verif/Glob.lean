import Verif.Walk

/-!
# The batch runner on a disk

experimental.py from the command line: `glob.glob(path + "/**/*." + mode, recursive=True)`, then one circuit file after the
other, with the result files written beside them, or one result file after the other, which is shown. Simplifications: as in
`Walk`; `path` has none of glob's magic characters `*`, `?`, `[`; printing does not raise (rich would, for a path with `[/` and
`]` after it, unless it closes one of its tags); only what is printed of saved results is modelled.
-/

namespace QuDiet.Tools
open QuDiet.Qasm

/-- How the system follows the names of a path, from the directory `here`. All but the last must be directories. -/
def Dir.follow (disk : Dir) : List Text → List Text → Option (List Text)
  | here, [] => some here
  | here, n :: ns => match disk.get here with
    | some (.dir _) =>
      if n = [] ∨ n = lit "." then disk.follow here ns
      else if n = lit ".." then disk.follow here.dropLast ns
      else disk.follow (here ++ [n]) ns
    | _ => none

/-- Where a path leads, from the working directory `cwd`. The last name need not exist. -/
def Dir.at (disk : Dir) (cwd : List Text) (path : Text) : Option (List Text) :=
  disk.follow (if (lit "/").isPrefixOf path then [] else cwd) (splitCh '/' path)

/-- What a path leads to. -/
def Dir.look (disk : Dir) (cwd : List Text) (path : Text) : Option Entry :=
  match disk.at cwd path with
  | some ns => disk.get ns
  | none => none

/-- Write a file, which may be new, into a directory that exists. Opening a directory for writing raises, and nothing
changes. -/
def Dir.save : Dir → List Text → Text → Dir
  | .nil, ns, u => match ns with
    | [n] => .file n u .nil
    | _ => .nil
  | .file n t r, ns, u => if ns = [n] then .file n u r else .file n t (r.save ns u)
  | .dir n s r, ns, u =>
    if ns = [n] then .dir n s r
    else if ns.head? = some n then .dir n (s.save ns.tail u) r
    else .dir n s (r.save ns u)

/-- The names in a directory, as `os.scandir` lists them. -/
def Dir.names : Dir → List Text
  | .nil => []
  | .file n _ r => n :: r.names
  | .dir n _ r => n :: r.names

/-- `glob._ishidden`. -/
def globHidden (n : Text) : Bool := (lit ".").isPrefixOf n

/-- `glob._rlistdir(dirname, dironly=True)`: the directories below, by their paths from here. -/
def Dir.rlist : Dir → List Text
  | .nil => []
  | .file _ _ r => r.rlist
  | .dir n s r => (if globHidden n then [] else n :: s.rlist.map (joinPath n)) ++ r.rlist

/-- `os.path.split(path + "/**")[0]`: without the slashes at the end, unless there is nothing else. -/
def globBase (path : Text) : Text :=
  let p := path ++ lit "/"
  if p.all (· = '/') then p else (p.reverse.dropWhile (· = '/')).reverse

/-- experimental.py:67-69: what `glob` returns. In each directory, the names that end in `.mode` and do not begin with a
dot, be they files or directories. -/
def Dir.glob (disk : Dir) (cwd : List Text) (path mode : Text) : List Text :=
  match disk.look cwd (globBase path) with
  | some (.dir d) => (([] :: d.rlist).map (joinPath (globBase path))).flatMap fun dn =>
      match disk.look cwd dn with
      | some (.dir e) => (e.names.filter fun n => !globHidden n && (lit "." ++ mode).isSuffixOf n).map (joinPath dn)
      | _ => []
  | _ => []

/-- experimental.py:93-122 `routine`: as `Tools.routine`; opening a directory to read or to write it raises, and that is
swallowed like any other exception. -/
def Dir.routine (process : Text → Text → PyM Text) (cwd : List Text) (suffix file : Text) (disk : Dir) : Dir :=
  match disk.look cwd file with
  | some (.file t) => match process file t with
    | .ok result => match disk.at cwd (outputName suffix file) with
      | some ns => disk.save ns result
      | none => disk
    | .error _ => disk
  | _ => disk

/-- experimental.py:84-89, the modes `pkl` and `pickle`: what is printed for the files, name and result, and how the loop
ends. `load` is what `pickle.load` makes of the bytes of a file, as it is printed; it may raise anything. `open` raises for a
directory. -/
def Dir.pickles (load : Text → PyM Text) (disk : Dir) (cwd : List Text) : List Text → List (Text × Text) × PyM Unit
  | [] => ([], .ok ())
  | f :: fs => match disk.look cwd f with
    | some (.file t) => match load t with
      | .ok result =>
        (((splitCh '/' f).getLastD [], result) :: (disk.pickles load cwd fs).1, (disk.pickles load cwd fs).2)
      | .error e => ([], .error e)
    | _ => ([], .error .os)

/-- experimental.py:11-63, 65-91 `arguments` and `main`, for the options `-m mode -b backend path`: the disk afterwards,
or an exception. `cuda` says whether CUDA is there (`CUDA_HOME`; without it the modules of its backends raise when they
are imported). `process` gets the name of the backend. -/
def batchMain (process : Text → Text → Text → PyM Text) (load : Text → PyM Text) (cuda : Bool) (cwd : List Text)
    (mode backend path : Text) (disk : Dir) : PyM Dir :=
  if backend ∉ [lit "sparse", lit "numpy", lit "cuda", lit "sparse-cuda"] then .error .exception
  else if backend ∈ [lit "cuda", lit "sparse-cuda"] ∧ cuda = false then .error .assertion
  else
    let files := disk.glob cwd path mode
    if mode ∈ [lit "txt", lit "qasm"] then
      .ok (files.foldl (fun disk file => disk.routine (process backend) cwd backend file) disk)
    else if mode ∈ [lit "pkl", lit "pickle"] then
      match (disk.pickles load cwd files).2 with
      | .ok _ => .ok disk
      | .error e => .error e
    else .ok disk

/-- experimental.py:84-89: the results that `experimental.py -m mode path` shows, before it ends or raises. -/
def batchShown (load : Text → PyM Text) (cwd : List Text) (mode path : Text) (disk : Dir) : List (Text × Text) :=
  if mode ∈ [lit "pkl", lit "pickle"] then (disk.pickles load cwd (disk.glob cwd path mode)).1 else []

end QuDiet.Tools
