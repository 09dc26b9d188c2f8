import Verif.Draw

/-!
# The QASM reader

Models `circuit_from_qasm` (qasm/qasm_parser.py:41-123). `parse_qasm` (35-38) only reads the file. The text is a list
of characters. Simplifications: regular expressions `\d` and `\s`, `str.split()` and `int()` are those of ASCII text
(Python also accepts digits and blanks of other alphabets); `int()` has no limit on the number of digits; the
backend is not part of a circuit of the model (`Circuit.run` takes it as an argument). -/

namespace QuDiet

namespace Qasm

/-- A Python `str`. -/
abbrev Text := List Char

/-- ASCII blanks: `\s` of a regular expression, and the separators of `str.split()`. -/
def isSpace (c : Char) : Bool :=
  (9 ≤ c.toNat && c.toNat ≤ 13) || (28 ≤ c.toNat && c.toNat ≤ 32)

/-- The characters of a string literal. -/
abbrev lit (s : String) : Text := s.toList

/-- A match of `<pat>(\d+)` at the start of `t`: the digits. -/
def matchNum (pat t : Text) : Option Text :=
  if pat.isPrefixOf t then
    let ds := (t.drop pat.length).takeWhile Char.isDigit
    if ds.isEmpty then none else some ds
  else none

/-- `re.sub(r"<pat>(\d+)", r"<new>\1<post>", t)`. The number counts the characters of the last match that are still to
be skipped. -/
def subGo (pat new post : Text) : Nat → Text → Text
  | _, [] => []
  | k + 1, _ :: t => subGo pat new post k t
  | 0, c :: t =>
    match matchNum pat (c :: t) with
    | some ds => new ++ ds ++ post ++ subGo pat new post (pat.length + ds.length - 1) t
    | none => c :: subGo pat new post 0 t

/-- A match of `\n\.(qudit\s\d+|begin|end)` at the start of `t`: its length. -/
def marker (t : Text) : Option Nat :=
  if (lit "\n.qudit").isPrefixOf t then
    match t.drop 7 with
    | s :: r =>
      let ds := r.takeWhile Char.isDigit
      if isSpace s && !ds.isEmpty then some (8 + ds.length) else none
    | [] => none
  else if (lit "\n.begin").isPrefixOf t then some 7
  else if (lit "\n.end").isPrefixOf t then some 5
  else none

/-- `re.split("\n\.(qudit\s\d+|begin|end)", t)`: the texts between the matches, with the groups of the matches
(without `"\n."`) in between. The first text is the first component. -/
def splitGo : Nat → Text → Text × List Text
  | _, [] => ([], [])
  | k + 1, _ :: t => splitGo k t
  | 0, c :: t =>
    match marker (c :: t) with
    | some n =>
      let r := splitGo (n - 1) t
      ([], ((c :: t).take n).drop 2 :: r.1 :: r.2)
    | none =>
      let r := splitGo 0 t
      (c :: r.1, r.2)

/-- `l.pop(i)`, the list afterwards. -/
def popAt {α} (i : Nat) (l : List α) : PyM (List α) :=
  if i < l.length then .ok (l.eraseIdx i) else .error .index

/-- `t.split(sep)` for one character `sep`. -/
def splitCh (sep : Char) : Text → List Text
  | [] => [[]]
  | c :: t =>
    if c = sep then [] :: splitCh sep t
    else match splitCh sep t with
      | [] => [[c]]
      | l :: ls => (c :: l) :: ls

/-- The maximal non-empty runs of characters that are not separators, with the current run. -/
def fieldsGo (sep : Char → Bool) : Text → Text → List Text
  | cur, [] => if cur.isEmpty then [] else [cur]
  | cur, c :: t =>
    if sep c then if cur.isEmpty then fieldsGo sep [] t else cur :: fieldsGo sep [] t
    else fieldsGo sep (cur ++ [c]) t

/-- `t.split()`. -/
def words (t : Text) : List Text := fieldsGo isSpace [] t

/-- `re.findall("\d+", t)`. -/
def numbers (t : Text) : List Text := fieldsGo (fun c => !c.isDigit) [] t

/-- `re.findall("\d+\)", t)`, without the parentheses: the runs of digits that are followed by a parenthesis. The
first argument is the current run. -/
def dimsGo : Text → Text → List Text
  | _, [] => []
  | cur, c :: t =>
    if c.isDigit then dimsGo (cur ++ [c]) t
    else if c = ')' && !cur.isEmpty then cur :: dimsGo [] t
    else dimsGo [] t

/-- `int(ds)` of a run of digits. -/
def digitsVal (ds : Text) : Nat := Nat.ofDigitChars 10 ds 0

/-- `int(t)` after an optional sign: digits, with single underscores between them. -/
def unsignedInt (t : Text) : PyM Nat :=
  let ps := splitCh '_' t
  if ps.all fun p => !p.isEmpty && p.all Char.isDigit then .ok (digitsVal ps.flatten) else .error .value

/-- `int(t)`. -/
def pyInt (t : Text) : PyM Int :=
  match ((t.dropWhile isSpace).reverse.dropWhile isSpace).reverse with
  | '-' :: r => do .ok (-(← unsignedInt r))
  | '+' :: r => do .ok (← unsignedInt r)
  | r => do .ok (← unsignedInt r)

/-- `pat` at the start of `t`: the rest. -/
def eatLit (pat t : Text) : Option Text := if pat.isPrefixOf t then some (t.drop pat.length) else none

/-- At least one character satisfying `p`, greedily: these and the rest. -/
def eatMany (p : Char → Bool) (t : Text) : Option (Text × Text) :=
  let ds := t.takeWhile p
  if ds.isEmpty then none else some (ds, t.dropWhile p)

/-- A match of `Toffoli x\d+[, ]+x(\d+)[, ]+x\d+` at the start of `t`: its group and the rest. -/
def matchTof (t : Text) : Option (Text × Text) := do
  let t ← eatLit (lit "Toffoli x") t
  let (_, t) ← eatMany Char.isDigit t
  let (_, t) ← eatMany (fun c => c == ',' || c == ' ') t
  let t ← eatLit (lit "x") t
  let (m, t) ← eatMany Char.isDigit t
  let (_, t) ← eatMany (fun c => c == ',' || c == ' ') t
  let t ← eatLit (lit "x") t
  let (_, t) ← eatMany Char.isDigit t
  some (m, t)

/-- `re.sub(r"Toffoli x\d+[, ]+x(\d+)[, ]+x\d+", r"\1", t)`. -/
def subTof : Nat → Text → Text
  | _, [] => []
  | k + 1, _ :: t => subTof k t
  | 0, c :: t =>
    match matchTof (c :: t) with
    | some (m, r) => m ++ subTof (t.length - r.length) t
    | none => c :: subTof 0 t

/-- qasm_parser.py:61-77: the registers to enlarge. The order of the `set` does not matter: the numbers are only
tested for membership, and all errors are `ValueError`. -/
def middles (gates : List Text) : PyM (List Int) :=
  -- line 61
  let tofs := gates.filter fun g => (lit "Toffoli").isPrefixOf g
  if tofs.isEmpty then .ok []
  else (splitCh ';' (subTof 0 ([';'].intercalate tofs))).mapM pyInt

/-- `int(re.findall("\d+", t)[0])`. -/
def firstNum (t : Text) : PyM Int :=
  match numbers t with
  | [] => .error .index
  | ds :: _ => .ok (digitsVal ds)

/-- `g.split()[i]`. -/
def word (g : Text) (i : Nat) : PyM Text :=
  match (words g)[i]? with
  | none => .error .index
  | some t => .ok t

section
variable {R : Type}

/-- qasm_parser.py:86-119: the method call of one line of the gate section, if any. -/
def lineCall (g : Text) : PyM (Option (Call R)) :=
  -- lines 86-93
  if (lit "X").isPrefixOf g || ((lit "RX").isPrefixOf g && (lit "180").isSuffixOf g) then do
    let plus ← if (words g).length = 3 then do pyInt (← word g 2) else .ok 1
    let q ← firstNum (← word g 1)
    .ok (some (.x q none plus))
  -- lines 95-97
  else if (lit "H").isPrefixOf g then do
    let q ← firstNum (← word g 1)
    .ok (some (.h q none))
  -- lines 99-101
  else if (lit "Z").isPrefixOf g then do
    let q ← firstNum (← word g 1)
    .ok (some (.z q none))
  -- lines 103-112
  else if (lit "CX").isPrefixOf g || (lit "CNOT").isPrefixOf g then do
    let c ← firstNum (← word g 1)
    let t ← firstNum (← word g 2)
    let plus ← if (words g).length = 4 then do firstNum (← word g 3) else .ok 1
    .ok (some (.cx c t plus))
  -- lines 114-119
  else if (lit "Toffoli").isPrefixOf g then
    let ints := (numbers g).map fun ds => (digitsVal ds : Int)
    match ints.getLast? with
    | none => .error .index
    | some t => .ok (some (.toffoli ints.dropLast t 1))
  else .ok none

variable [CommRing R]

/-- One round of the loop over the gate section. -/
def lineStep (c : Circuit R) (g : Text) : PyM (Circuit R) := do
  match ← lineCall g with
  | none => .ok c
  | some k => do .ok (← c.callM k).1

/-- qasm_parser.py:42-49: the declaration section and the gate section. -/
def sections (t : Text) : PyM (Text × Text) := do
  -- lines 42-44
  let t := subGo (lit ".qubit ") (lit ".qudit ") [] 0 t
  let t := subGo (lit ".qutrit ") (lit ".qudit ") [] 0 t
  let r := splitGo 0 t
  let data := r.1 :: r.2
  -- lines 45-49
  let data ← popAt 6 data
  let data ← popAt 5 data
  let data ← popAt 3 data
  let data ← popAt 1 data
  let data ← popAt 0 data
  match data with
  | decls :: gates :: _ => .ok (decls, gates)
  | _ => .error .index

/-- qasm_parser.py:51-56: the declared dimensions. -/
def declared (decls : Text) : List Int :=
  let decls := subGo (lit "qubit x") (lit "qudit x") (lit " (2)") 0 decls
  let decls := subGo (lit "qutrit x") (lit "qudit x") (lit " (3)") 0 decls
  (dimsGo [] decls).map fun ds => (digitsVal ds : Int)

/-- qasm_parser.py:79-82. -/
def enlarge (mids : List Int) (qregs : List Int) : List Int :=
  qregs.zipIdx.map fun di => if (di.2 : Int) ∈ mids then di.1 + 1 else di.1

/-- qasm_parser.py:51-123: the circuit of a declaration section and a gate section. -/
def fromSections (decls gates : Text) : PyM (Circuit R) := do
  -- line 60
  let gates := (splitCh '\n' gates).filter fun g => !g.isEmpty
  -- lines 61-82
  let mids ← middles gates
  -- line 83
  let c ← Circuit.new (R := R) (.list (enlarge mids (declared decls))) []
  -- lines 85-119
  let c ← gates.foldlM lineStep c
  -- line 121
  .ok (← c.callM .measureAll).1

/-- qasm_parser.py:41-123 `circuit_from_qasm`. -/
def circuitFromQasm (t : Text) : PyM (Circuit R) := do
  let r ← sections t
  fromSections r.1 r.2

end

end Qasm

end QuDiet
