import Verif.Tools

/-!
# The licence header script on a disk

scripts/license-headers.py from the command line: the arguments are made absolute, directories are walked, files are read and
written on a disk with directories. Simplifications: no links, every file can be read and written, nothing else changes the disk
meanwhile, POSIX path names.
-/

namespace QuDiet.Tools
open QuDiet.Qasm

/-- The entries of a directory, in the order in which the system lists them. -/
inductive Dir where
  | nil
  | file (name text : Text) (rest : Dir)
  | dir (name : Text) (sub rest : Dir)

/-- A file with its contents, or a directory. -/
inductive Entry where
  | file (text : Text)
  | dir (d : Dir)

/-- The entry with a name. -/
def Dir.find : Dir → Text → Option Entry
  | .nil, _ => none
  | .file n t r, m => if n = m then some (.file t) else r.find m
  | .dir n s r, m => if n = m then some (.dir s) else r.find m

/-- What is at a path, given as the list of its names. -/
def Dir.get (d : Dir) : List Text → Option Entry
  | [] => some (.dir d)
  | n :: ns => match d.find n with
    | none => none
    | some (.dir s) => s.get ns
    | some (.file t) => if ns = [] then some (.file t) else none

/-- Write the contents of a file that exists. -/
def Dir.put : Dir → List Text → Text → Dir
  | .nil, _, _ => .nil
  | .file n t r, ns, u => if ns = [n] then .file n u r else .file n t (r.put ns u)
  | .dir n s r, ns, u => if ns.head? = some n then .dir n (s.put ns.tail u) r else .dir n s (r.put ns u)

/-- The names in a path: the system skips empty ones. -/
def namesOf (path : Text) : List Text := (splitCh '/' path).filter fun n => !n.isEmpty

/-- `os.path.join(a, b)`. -/
def joinPath (a b : Text) : Text :=
  if (lit "/").isPrefixOf b then b
  else if a.isEmpty || (lit "/").isSuffixOf a then a ++ b
  else a ++ lit "/" ++ b

/-- One turn of the loop of `posixpath.normpath` on an absolute path. -/
def normStep (acc : List Text) (c : Text) : List Text :=
  if c.isEmpty || c = lit "." then acc
  else if c = lit ".." then acc.dropLast
  else acc ++ [c]

/-- The slashes that `posixpath.normpath` leaves at the start of an absolute path: two if there are exactly two. -/
def slashes (p : Text) : Text :=
  if (lit "//").isPrefixOf p && !(lit "///").isPrefixOf p then lit "//" else lit "/"

/-- `os.path.abspath(x)`. -/
def absPath (cwd x : Text) : Text :=
  let p := if (lit "/").isPrefixOf x then x else joinPath cwd x
  slashes p ++ ['/'].intercalate ((splitCh '/' p).foldl normStep [])

/-- The names of the files in a directory, as in the third component of what `os.walk` yields. -/
def Dir.fileNames : Dir → List Text
  | .nil => []
  | .file n _ r => n :: r.fileNames
  | .dir _ _ r => r.fileNames

/-- `os.walk` below the directories of `root`, with license-headers.py:92-94. -/
def Dir.walkSubs (root : Text) : Dir → List Text
  | .nil => []
  | .file _ _ r => r.walkSubs root
  | .dir n s r => s.fileNames.map (joinPath (joinPath root n)) ++ s.walkSubs (joinPath root n) ++ r.walkSubs root

/-- license-headers.py:92-94: the paths of the files that `os.walk(root)` comes across, parents first. -/
def Dir.walk (root : Text) (d : Dir) : List Text := d.fileNames.map (joinPath root) ++ d.walkSubs root

/-- license-headers.py:99-122 `does_file_need_fix`. In the last case `open` would raise; it does not occur. -/
def Dir.needsFix (year : Nat) (disk : Dir) (path : Text) : Bool :=
  pathChecked path && match disk.get (namesOf path) with
    | some (.file t) => needsFixLines (header year) (fileLines t)
    | _ => false

/-- license-headers.py:84-96: the files that one source names or contains, before `does_file_need_fix`. -/
def Dir.sourceFiles (disk : Dir) (source : Text) : List Text :=
  match disk.get (namesOf source) with
  | some (.file _) => [source]
  | some (.dir d) => d.walk source
  | none => []

/-- license-headers.py:125-135 `add_header_to_file`. -/
def Dir.addHeader (year : Nat) (disk : Dir) (path : Text) : Dir :=
  match disk.get (namesOf path) with
  | some (.file t) => disk.put (namesOf path) (Tools.addHeader year t)
  | _ => disk

/-- license-headers.py:145-147 with 84-96: the generator looks at each source, and at each file, when its turn comes. -/
def fixDisk (year : Nat) (sources : List Text) (disk : Dir) : Dir :=
  sources.foldl (fun disk s =>
    (disk.sourceFiles s).foldl (fun disk p => if disk.needsFix year p then disk.addHeader year p else disk) disk) disk

/-- license-headers.py:149 with 84-96: the files reported. -/
def checkDisk (year : Nat) (sources : List Text) (disk : Dir) : List Text :=
  sources.flatMap fun s => (disk.sourceFiles s).filter (disk.needsFix year)

/-- license-headers.py:138-160 `main`: the disk afterwards and the exit status, or an exception. -/
def headersMain (year : Nat) (cwd : Text) (argv : List Text) (disk : Dir) : PyM (Dir × Nat) :=
  match argv with
  | _ :: mode :: args =>
    let sources := args.map (absPath cwd)
    if mode = lit "fix" then .ok (fixDisk year sources disk, 0)
    else if mode = lit "check" then .ok (disk, if checkDisk year sources disk = [] then 0 else 1)
    else .error .assertion
  | _ => .error .index

end QuDiet.Tools
