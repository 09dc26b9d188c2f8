import Verif.Tools

/-!
# The scripts running at the same time

Several invocations of experimental.py and scripts/license-headers.py on one file system. The operating system runs them in any
order, a piece at a time: each `read` returns the next piece of the file as it is at that moment, `open` with mode `"w"` or
`"wb"` empties the file, and each `write` puts a piece at the position that this invocation has reached in its own open file,
whatever others did to the file since. Simplification: the names of the files to look at are given (the directories were listed
before), and no file is removed.
-/

namespace QuDiet.Tools
open QuDiet.Qasm

/-- What remains of an invocation: its accesses to files, and what it reports in the end. -/
inductive Prog where
  | stop (report : List Text)
  /-- read the whole file, in pieces, and go on with what was read -/
  | read (p : Text) (k : Text → Prog)
  /-- make the file empty -/
  | empty (p : Text) (k : Prog)
  /-- write a text from the start of the file on, in pieces -/
  | put (p t : Text) (k : Prog)

/-- license-headers.py:145-147 with 84-135: `fix`, given the files in order. Each is read once to see if it needs a header (lines
109-122; the script stops reading when it knows, with the same result), and if so a second time (126-127), emptied by `open` (132)
and by `truncate` (133), and written (134). -/
def fixProg (year : Nat) : List Text → Prog
  | [] => .stop []
  | p :: ps =>
    if pathChecked p then
      .read p fun t =>
        if needsFixLines (header year) (fileLines t) then
          .read p fun t => .empty p (.empty p (.put p (addHeader year t) (fixProg year ps)))
        else fixProg year ps
    else fixProg year ps

/-- license-headers.py:149: `check`, given the files in order; `found` are those already found. -/
def checkProg (year : Nat) : List Text → List Text → Prog
  | [], found => .stop found
  | p :: ps, found =>
    if pathChecked p then
      .read p fun t => checkProg year ps (if needsFixLines (header year) (fileLines t) then found ++ [p] else found)
    else checkProg year ps found

/-- experimental.py:65-81 with 93-122: the modes `txt` and `qasm`, given the files in order. The circuit file is read (line 96), the
result file is emptied by `open` (110) and written (111). -/
def batchProg (process : Text → Text → PyM Text) (suffix : Text) : List Text → Prog
  | [] => .stop []
  | f :: fs =>
    .read f fun t =>
      match process f t with
      | .ok r => .empty (outputName suffix f) (.put (outputName suffix f) r (batchProg process suffix fs))
      | .error _ => batchProg process suffix fs

/-- The contents after a `write` at a position: behind the end, the gap is filled with zeros; writing nothing changes nothing. -/
def patch (c : Text) (n : Nat) (t : Text) : Text :=
  if t = [] then c else c.take n ++ List.replicate (n - c.length) (Char.ofNat 0) ++ t ++ c.drop (n + t.length)

/-- An invocation between two steps. -/
inductive Proc where
  | at (g : Prog)
  /-- reading a file, with what was read so far -/
  | reading (p got : Text) (k : Text → Prog)
  /-- writing a file, with the position and what is still to be written -/
  | putting (p : Text) (n : Nat) (rest : Text) (k : Prog)

/-- One step of an invocation. -/
inductive Step : Proc → FS → Proc → FS → Prop
  | open {p k fs} : Step (.at (.read p k)) fs (.reading p [] k) fs
  | more {p got k fs} {piece : Text} (h : piece <+: (fs p).drop got.length) :
      Step (.reading p got k) fs (.reading p (got ++ piece) k) fs
  | eof {p got k fs} (h : (fs p).drop got.length = []) : Step (.reading p got k) fs (.at (k got)) fs
  | empty {p k fs} : Step (.at (.empty p k)) fs (.at k) (fs.write p [])
  | start {p t k fs} : Step (.at (.put p t k)) fs (.putting p 0 t k) fs
  | write {p n k fs} {a b : Text} :
      Step (.putting p n (a ++ b) k) fs (.putting p (n + a.length) b k) (fs.write p (patch (fs p) n a))
  | close {p n k fs} : Step (.putting p n [] k) fs (.at k) fs

/-- Steps of any number of invocations, in any order: from one state of all of them and of the files to another. -/
inductive AtOnce {ι : Type} [DecidableEq ι] : (ι → Proc) → FS → (ι → Proc) → FS → Prop
  | refl {ps fs} : AtOnce ps fs ps fs
  | step {ps fs ps' fs' fs''} {i : ι} {pr : Proc} (h : AtOnce ps fs ps' fs') (hs : Step (ps' i) fs' pr fs'') :
      AtOnce ps fs (Function.update ps' i pr) fs''

end QuDiet.Tools
