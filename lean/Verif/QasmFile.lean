import Verif.QasmSpec

/-!
# Reading QASM files

qasm/qasm_parser.py:35-38. A file is the list of its decoded characters (the encoding is not modelled, nor a file that cannot be
read).
-/

namespace QuDiet.Qasm

/-- What `f.read()` returns for a file opened with mode `"r"` (qasm_parser.py:36-37): Python replaces the line ends
`\r\n` and `\r` by `\n`. -/
def universal : Text → Text
  | [] => []
  | '\r' :: '\n' :: t => '\n' :: universal t
  | '\r' :: t => '\n' :: universal t
  | c :: t => c :: universal t

/-- qasm_parser.py:35-38 `parse_qasm`. -/
def parseQasm {R : Type} [CommRing R] (file : Text) : PyM (Circuit R) := circuitFromQasm (universal file)

/-- Specification: `f` is the text `t` with each line end written in one of the three ways. A line end `\r` cannot be
followed by a line end `\n`: that would be one line end. -/
inductive Written : Text → Text → Prop
  | nil : Written [] []
  | char {c : Char} {t f : Text} (hr : c ≠ '\r') (hn : c ≠ '\n') (h : Written t f) : Written (c :: t) (c :: f)
  | lf {t f : Text} (h : Written t f) : Written ('\n' :: t) ('\n' :: f)
  | crlf {t f : Text} (h : Written t f) : Written ('\n' :: t) ('\r' :: '\n' :: f)
  | cr {t f : Text} (hf : f.head? ≠ some '\n') (h : Written t f) : Written ('\n' :: t) ('\r' :: f)

/-- The text with the same line end everywhere. -/
def withEnds (e t : Text) : Text := t.flatMap fun c => if c = '\n' then e else [c]

end QuDiet.Qasm
