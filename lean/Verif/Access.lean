import Verif.Walk

/-!
# The licence header script on files that cannot be read or written

scripts/license-headers.py as in `Walk`, where reading or writing a file may raise and a directory may refuse to be listed.
Simplifications: as in `Walk`, apart from that; the kind of every entry can be found out; which accesses fail does not
change during a run; a failing write has not changed the file (`open` with mode "w" raises before it truncates).
-/

namespace QuDiet.Tools
open QuDiet.Qasm

/-- Which accesses fail, for files and directories given by their names from the root. -/
structure Access where
  /-- The directory cannot be listed. `os.walk` then goes on as if it were empty. -/
  closed : List Text → Bool
  /-- What opening the file and reading the lines that license-headers.py:109-121 look at raises: `OSError`, or
  `UnicodeDecodeError` if what has been read is no text. -/
  peek : List Text → Option Err
  /-- What opening and reading the whole file raises (license-headers.py:126-127). A file may be text where
  `does_file_need_fix` looks, and none further down. The text of such a file in the model is any that agrees on the former. -/
  load : List Text → Option Err
  /-- What opening the file for writing raises (license-headers.py:133). -/
  save : List Text → Option Err

/-- Every access works. -/
def Access.all : Access := ⟨fun _ => false, fun _ => none, fun _ => none, fun _ => none⟩

/-- The directory `here` as `os.walk` sees it: directories that cannot be listed look empty. -/
def Dir.seen (acc : Access) (here : List Text) : Dir → Dir
  | .nil => .nil
  | .file n t r => .file n t (r.seen acc here)
  | .dir n s r => .dir n (if acc.closed (here ++ [n]) then .nil else s.seen acc (here ++ [n])) (r.seen acc here)

/-- license-headers.py:84-96: the files that one source names or contains, before `does_file_need_fix`. -/
def Dir.sourceFilesIf (acc : Access) (disk : Dir) (source : Text) : List Text :=
  match disk.get (namesOf source) with
  | some (.file _) => [source]
  | some (.dir d) => (if acc.closed (namesOf source) then .nil else d.seen acc (namesOf source)).walk source
  | none => []

/-- license-headers.py:99-122 `does_file_need_fix`. In the last case `open` would raise; it does not occur. -/
def Dir.needsFixIf (year : Nat) (acc : Access) (disk : Dir) (path : Text) : PyM Bool :=
  if pathChecked path then
    match disk.get (namesOf path) with
    | some (.file t) => match acc.peek (namesOf path) with
      | some e => .error e
      | none => .ok (needsFixLines (header year) (fileLines t))
    | _ => .ok false
  else .ok false

/-- license-headers.py:125-135 `add_header_to_file`. -/
def Dir.addHeaderIf (year : Nat) (acc : Access) (disk : Dir) (path : Text) : PyM Dir :=
  match acc.load (namesOf path) with
  | some e => .error e
  | none => match acc.save (namesOf path) with
    | some e => .error e
    | none => .ok (disk.addHeader year path)

/-- license-headers.py:146-147 on the files that are listed: the disk afterwards, and what is raised, if anything. -/
def fixFilesIf (year : Nat) (acc : Access) : List Text → Dir → Dir × PyM Unit
  | [], disk => (disk, .ok ())
  | p :: ps, disk => match disk.needsFixIf year acc p with
    | .error e => (disk, .error e)
    | .ok false => fixFilesIf year acc ps disk
    | .ok true => match disk.addHeaderIf year acc p with
      | .error e => (disk, .error e)
      | .ok disk' => fixFilesIf year acc ps disk'

/-- license-headers.py:145-147 with 84-96: each source is looked at when its turn comes. -/
def fixDiskIf (year : Nat) (acc : Access) : List Text → Dir → Dir × PyM Unit
  | [], disk => (disk, .ok ())
  | s :: ss, disk => match fixFilesIf year acc (disk.sourceFilesIf acc s) disk with
    | (disk', .error e) => (disk', .error e)
    | (disk', .ok ()) => fixDiskIf year acc ss disk'

/-- license-headers.py:149 with 84-96 on the files that are listed: those reported. -/
def checkFilesIf (year : Nat) (acc : Access) (disk : Dir) : List Text → PyM (List Text)
  | [] => .ok []
  | p :: ps => do
    let b ← disk.needsFixIf year acc p
    let qs ← checkFilesIf year acc disk ps
    .ok (if b then p :: qs else qs)

/-- license-headers.py:138-160 `main`: the disk afterwards, and the exit status or an exception. -/
def headersMainIf (year : Nat) (acc : Access) (cwd : Text) (argv : List Text) (disk : Dir) : Dir × PyM Nat :=
  match argv with
  | _ :: mode :: args =>
    let sources := args.map (absPath cwd)
    if mode = lit "fix" then
      let r := fixDiskIf year acc sources disk
      (r.1, r.2.map fun _ => 0)
    else if mode = lit "check" then
      (disk, (checkFilesIf year acc disk (sources.flatMap (disk.sourceFilesIf acc))).map fun qs => if qs = [] then 0 else 1)
    else (disk, .error .assertion)
  | _ => (disk, .error .index)

end QuDiet.Tools
