import Verif.Walk

/-!
# What the licence header script prints

scripts/license-headers.py:136, 149-159. Names that cannot be printed are not modelled.
-/

namespace QuDiet.Tools
open QuDiet.Qasm

/-- The length of `os.path.commonprefix` of two lists. -/
def commonLen : List Text → List Text → Nat
  | a :: as, b :: bs => if a = b then commonLen as bs + 1 else 0
  | _, _ => 0

/-- `os.path.relpath(path, cwd)` (of a path that is not empty) in the working directory `cwd`. -/
def relPath (cwd path : Text) : Text :=
  let start := namesOf (absPath cwd cwd)
  let p := namesOf (absPath cwd path)
  let i := commonLen start p
  match List.replicate (start.length - i) (lit "..") ++ p.drop i with
  | [] => lit "."
  | n :: ns => ns.foldl joinPath n

/-- license-headers.py:146-147 with 125-136 for one file: the disk, and the lines printed so far. -/
def fixStepPrint (year : Nat) (cwd : Text) (st : Dir × List Text) (path : Text) : Dir × List Text :=
  if st.1.needsFix year path then (st.1.addHeader year path, st.2 ++ [lit "Fixed " ++ relPath cwd path]) else st

/-- license-headers.py:145-147 with 84-96. -/
def fixPrint (year : Nat) (cwd : Text) (sources : List Text) (disk : Dir) : Dir × List Text :=
  sources.foldl (fun st s => (st.1.sourceFiles s).foldl (fixStepPrint year cwd) st) (disk, [])

/-- license-headers.py:149-159. -/
def checkPrint (year : Nat) (cwd : Text) (sources : List Text) (disk : Dir) : List Text :=
  match checkDisk year sources disk with
  | [] => [lit "All files had license header"]
  | files => lit "No license header found in:" :: files.map fun p => lit " - " ++ relPath cwd p

/-- license-headers.py:139-159 `main`: the lines it prints. -/
def headersPrint (year : Nat) (cwd : Text) (argv : List Text) (disk : Dir) : PyM (List Text) :=
  match argv with
  | _ :: mode :: args =>
    let sources := args.map (absPath cwd)
    if mode = lit "fix" then .ok (fixPrint year cwd sources disk).2
    else if mode = lit "check" then .ok (checkPrint year cwd sources disk)
    else .error .assertion
  | _ => .error .index

end QuDiet.Tools
