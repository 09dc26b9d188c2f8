import Verif.QasmSpec

/-! # Specification: the ways in which a line of the gate section can be written -/

namespace QuDiet

namespace Qasm

/-- The line consists of these words, with blanks (of any kind) between them and perhaps at the end. -/
inductive Spelled : Text → List Text → Prop
  | last {w s : Text} (hw : w ≠ []) (hn : ∀ c ∈ w, isSpace c = false) (hs : ∀ c ∈ s, isSpace c = true) :
      Spelled (w ++ s) [w]
  | cons {w s l : Text} {ws : List Text} (hw : w ≠ []) (hn : ∀ c ∈ w, isSpace c = false) (hs : ∀ c ∈ s, isSpace c = true)
      (hne : s ≠ []) (h : Spelled l ws) : Spelled (w ++ s ++ l) (w :: ws)

/-- The first number in a word: `a`, digits, and no further digit directly behind them. Leading zeros are allowed, and `a` is
anything without digits, for example the name of a register, or a sign. -/
def Names (w : Text) (n : Nat) : Prop :=
  ∃ a ds b, w = a ++ ds ++ b ∧ (∀ c ∈ a, c.isDigit = false) ∧ ds ≠ [] ∧ (∀ c ∈ ds, c.isDigit = true) ∧
    (∀ c ∈ b.head?, c.isDigit = false) ∧ Nat.ofDigitChars 10 ds 0 = n

/-- What the words of a line mean. Only the beginning of the gate name counts. A third word of an `X` line is its increment, with
sign. A fourth word of a `CX` or `CNOT` line is its increment, and its sign does not count. With more words than that the
increment is 1. -/
inductive Reads : List Text → Instr → Prop
  | x {g w rest q} (hg : lit "X" <+: g) (hw : Names w q) (hr : rest.length ≠ 1) : Reads (g :: w :: rest) (.x q)
  | xPlus {g w q} (p : Int) (hg : lit "X" <+: g) (hw : Names w q) : Reads [g, w, intStr p] (.xPlus q p)
  | h {g w rest q} (hg : lit "H" <+: g) (hw : Names w q) : Reads (g :: w :: rest) (.h q)
  | z {g w rest q} (hg : lit "Z" <+: g) (hw : Names w q) : Reads (g :: w :: rest) (.z q)
  | cx {g a b rest c t} (hg : lit "CX" <+: g ∨ lit "CNOT" <+: g) (ha : Names a c) (hb : Names b t) (hr : rest.length ≠ 1) :
      Reads (g :: a :: b :: rest) (.cx c t)
  | cxPlus {g a b v c t p} (hg : lit "CX" <+: g ∨ lit "CNOT" <+: g) (ha : Names a c) (hb : Names b t) (hv : Names v p) :
      Reads [g, a, b, v] (.cxPlus c t p)

/-- The words of a gate line that lacks an operand, or whose operands are not all numbered. -/
inductive Malformed : List Text → Prop
  | one {g : Text} {p : Text} {rest : List Text} (hp : p ∈ [lit "X", lit "H", lit "Z"]) (hg : p <+: g)
      (hr : ∀ w ∈ rest.head?, ∀ c ∈ w, c.isDigit = false) : Malformed (g :: rest)
  | cx {g : Text} {rest : List Text} (hg : lit "CX" <+: g ∨ lit "CNOT" <+: g)
      (hr : 2 ≤ rest.length → ∃ w ∈ rest.take 2, ∀ c ∈ w, c.isDigit = false) : Malformed (g :: rest)

/-- The line stands for no gate. -/
def Instr.isNote : Instr → Bool
  | .note _ => true
  | _ => false

end Qasm

end QuDiet
