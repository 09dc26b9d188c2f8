import Verif.Qasm

/-! # Specification: the QASM programs and what they mean -/

namespace QuDiet

namespace Qasm

/-- A number in decimal notation. -/
abbrev num (n : Nat) : Text := Nat.toDigits 10 n

/-- Each text on a new line. -/
def below (ls : List Text) : Text := ls.flatMap fun l => '\n' :: l

/-- A line that can stand in a section: it is one line, and does not begin with a dot. -/
structure Line (l : Text) : Prop where
  one : '\n' ∉ l
  noDot : l.head? ≠ some '.'

/-- A line of the gate section that stands for no gate: it begins with none of `X`, `H`, `Z`, `CX`, `CNOT`, `Toffoli`, and if it
begins with `RX` it does not end with `180`. Examples are blank lines, comments, and names of gates in lower case. -/
def Ignored (l : Text) : Prop :=
  (∀ p ∈ ["X", "H", "Z", "CX", "CNOT", "Toffoli"], ¬ p.toList <+: l) ∧ ¬ ("RX".toList <+: l ∧ "180".toList <:+ l)

/-- The word that introduces the declarations. -/
inductive Word where | qudit | qubit | qutrit
  deriving DecidableEq, Repr

def Word.text : Word → Text
  | .qudit => lit "qudit"
  | .qubit => lit "qubit"
  | .qutrit => lit "qutrit"

/-- A text with three sections: some lines (`first`, `more`), the marker `.qudit n` (or `.qubit n`, `.qutrit n`) and perhaps
blanks, lines, `.begin`, lines, `.end`, and any text. -/
structure Layout where
  first : Text
  more : List Text
  word : Word
  count : Nat
  blanks : Nat
  decls : List Text
  gates : List Text
  tail : Text

def Layout.text (p : Layout) : Text :=
  p.first ++ below p.more ++ lit "\n." ++ p.word.text ++ [' '] ++ num p.count ++ List.replicate p.blanks ' ' ++
    below p.decls ++ lit "\n.begin" ++ below p.gates ++ lit "\n.end" ++ p.tail

structure Layout.Ok (p : Layout) : Prop where
  first : '\n' ∉ p.first
  more : ∀ l ∈ p.more, Line l
  decls : ∀ l ∈ p.decls, Line l
  gates : ∀ l ∈ p.gates, Line l

/-- A line of the declaration section. A note has no `q` and no parenthesis. The number in the name of a register is not
used: the registers are numbered in the order of the declarations. -/
inductive Decl where
  | qudit (name d : Nat)
  | qubit (name : Nat)
  | qutrit (name : Nat)
  | note (l : Text)

def Decl.line : Decl → Text
  | .qudit n d => lit "qudit x" ++ num n ++ lit " (" ++ num d ++ lit ")"
  | .qubit n => lit "qubit x" ++ num n
  | .qutrit n => lit "qutrit x" ++ num n
  | .note l => l

def Decl.Ok : Decl → Prop
  | .note l => Line l ∧ 'q' ∉ l ∧ ')' ∉ l
  | _ => True

/-- The dimension of the declared register, if any. -/
def Decl.dim : Decl → Option Nat
  | .qudit _ d => some d
  | .qubit _ => some 2
  | .qutrit _ => some 3
  | .note _ => none

/-- A line of the gate section. -/
inductive Instr where
  | x (q : Nat)
  | xPlus (q : Nat) (plus : Int)
  | rx (q : Nat)
  | h (q : Nat)
  | z (q : Nat)
  | cx (c t : Nat)
  | cxPlus (c t plus : Nat)
  | cnot (c t : Nat)
  | toffoli (a b c : Nat)
  | note (l : Text)

/-- A register. -/
def reg (q : Nat) : Text := 'x' :: num q

def Instr.line : Instr → Text
  | .x q => lit "X " ++ reg q
  | .xPlus q p => lit "X " ++ reg q ++ lit " " ++ intStr p
  | .rx q => lit "RX " ++ reg q ++ lit " 180"
  | .h q => lit "H " ++ reg q
  | .z q => lit "Z " ++ reg q
  | .cx c t => lit "CX " ++ reg c ++ lit " " ++ reg t
  | .cxPlus c t p => lit "CX " ++ reg c ++ lit " " ++ reg t ++ lit " " ++ num p
  | .cnot c t => lit "CNOT " ++ reg c ++ lit " " ++ reg t
  | .toffoli a b c => lit "Toffoli " ++ reg a ++ lit ", " ++ reg b ++ lit ", " ++ reg c
  | .note l => l

def Instr.Ok : Instr → Prop
  | .note l => Line l ∧ Ignored l
  | _ => True

/-- The method call that the line stands for. -/
def Instr.call {R : Type} : Instr → Option (Call R)
  | .x q => some (.x q none 1)
  | .xPlus q p => some (.x q none p)
  | .rx q => some (.x q none 180)
  | .h q => some (.h q none)
  | .z q => some (.z q none)
  | .cx c t => some (.cx c t 1)
  | .cxPlus c t p => some (.cx c t p)
  | .cnot c t => some (.cx c t 1)
  | .toffoli a b c => some (.toffoli [a, b] c 1)
  | .note _ => none

/-- The middle register of a Toffoli. -/
def Instr.middle : Instr → Option Nat
  | .toffoli _ b _ => some b
  | _ => none

/-- A program. -/
structure Program where
  first : Text
  more : List Text
  word : Word
  count : Nat
  blanks : Nat
  decls : List Decl
  instrs : List Instr
  tail : Text

def Program.layout (p : Program) : Layout where
  first := p.first
  more := p.more
  word := p.word
  count := p.count
  blanks := p.blanks
  decls := p.decls.map Decl.line
  gates := p.instrs.map Instr.line
  tail := p.tail

/-- Its text. -/
def Program.text (p : Program) : Text := p.layout.text

structure Program.Ok (p : Program) : Prop where
  first : '\n' ∉ p.first
  more : ∀ l ∈ p.more, Line l
  decls : ∀ d ∈ p.decls, d.Ok
  instrs : ∀ i ∈ p.instrs, i.Ok

/-- The declared dimensions. -/
def Program.declared (p : Program) : List Nat := p.decls.filterMap Decl.dim

/-- The dimensions of the circuit: one more than declared for the middle registers of the Toffoli lines. -/
def Program.dims (p : Program) : List Nat :=
  p.declared.zipIdx.map fun di => if di.2 ∈ p.instrs.filterMap Instr.middle then di.1 + 1 else di.1

/-- The calls. -/
def Program.calls {R : Type} (p : Program) : List (Call R) := p.instrs.filterMap Instr.call

/-- A circuit made by the constructor and these calls, then `measure_all()`; the first exception ends it. -/
def build {R : Type} [CommRing R] (dims : List Nat) (ks : List (Call R)) : PyM (Circuit R) := do
  let c ← Circuit.new (R := R) (.list (dims.map Int.ofNat)) []
  (ks ++ [Call.measureAll]).foldlM (fun c k => do .ok (← c.callM k).1) c

/-- Read a text, and `run()` the circuit: the value, or the first exception. -/
def runText {R : Type} [CommRing R] [StarRing R] [DecidableEq R] [UnitaryCheck R] (N : Numerics R) (B : Backend R) (t : Text) :
    PyM (List (Key × R)) := do
  let c ← circuitFromQasm (R := R) t
  (c.run N B).2

/-! ### Section markers -/

/-- `t` begins with `w`, and then a digit. -/
def numAfter (w t : Text) : Bool :=
  w.isPrefixOf t && match t.drop w.length with
    | d :: _ => d.isDigit
    | [] => false

/-- `t` begins with `w`, and then a blank (of any kind) and a digit. -/
def blankNumAfter (w t : Text) : Bool :=
  w.isPrefixOf t && match t.drop w.length with
    | b :: d :: _ => isSpace b && d.isDigit
    | _ => false

/-- `t` begins with the end of a line and a marker at the beginning of the next. -/
def startsSection (t : Text) : Bool :=
  blankNumAfter (lit "\n.qudit") t || numAfter (lit "\n.qubit ") t || numAfter (lit "\n.qutrit ") t ||
    (lit "\n.begin").isPrefixOf t || (lit "\n.end").isPrefixOf t

/-- The number of markers in a text. -/
def markers (t : Text) : Nat := t.tails.countP startsSection

end Qasm

end QuDiet
