import Verif.Circuit

/-!
# Drawings

Models `QuantumCircuit.__str__` (quantum_circuit.py:449-509) and what `draw('mpl')`
(utility/circuit_draw.py) puts into the figure.
-/

namespace QuDiet

/-- `str(n)` of an integer. -/
def intStr (i : Int) : List Char :=
  if 0 ≤ i then Nat.toDigits 10 i.toNat else '-' :: Nat.toDigits 10 (-i).toNat

/-- quantum_circuit.py:452 `draw_matrix`: a table of `rows` lists of `cols` cells; `none` is Python's `None`. -/
structure Grid where
  rows : Nat
  cols : Nat
  cell : Nat → Nat → Option (List Char)

/-- `draw_matrix[r][j] = s`. A negative `r` counts from the end; `j` is never negative here. -/
def Grid.put (g : Grid) (r : Int) (j : Nat) (s : List Char) : PyM Grid :=
  match pyIndex g.rows r with
  | .error e => .error e
  | .ok k =>
    if j < g.cols then .ok { g with cell := fun a b => if a = k ∧ b = j then some s else g.cell a b }
    else .error .index

section
variable {R : Type}

/-- quantum_circuit.py:460-491: the assignments to the column of the operator's moment, in program order. A custom
gate makes none. -/
def GateObj.marks : GateObj R → List (Int × List Char)
  -- lines 460-461
  | .init dim state q => [(q, '(' :: Nat.toDigits 10 dim ++ [')', '|'] ++ intStr state ++ ['>'])]
  -- lines 462-463
  | .x q _ plus => [(q, ['X', '('] ++ intStr plus ++ [')'])]
  -- lines 464-465
  | .h q _ => [(q, ['H'])]
  -- lines 466-467
  | .z q _ => [(q, ['Z'])]
  -- lines 468-469
  | .meas q => [(q, ['M'])]
  -- lines 470-478
  | .cx _ ctl tgt plus =>
    let stop := if ctl > tgt then ctl else tgt
    let start := if ctl < tgt then ctl else tgt
    [(ctl, ['*']), (tgt, ['X', '('] ++ intStr plus ++ [')'])] ++
      (pyRange (start + 1) stop).map fun x => (x, ['|'])
  -- lines 479-488
  | .toffoli ctls tgt acting _ _ plus =>
    acting.map fun dit =>
      if dit ∈ ctls then (dit, ['*'])
      else if dit = tgt then (dit, ['X', '('] ++ intStr plus ++ [')'])
      else (dit, ['|'])
  | .ident .. => []
  | .arb .. => []

/-- quantum_circuit.py:455-488: the loop over the operators of one moment. -/
def drawMoment (j : Nat) (m : List (GateObj R)) (g : Grid) : PyM Grid :=
  (m.flatMap GateObj.marks).foldlM (fun g w => g.put w.1 j w.2) g

/-- quantum_circuit.py:455: the loop over the moments. -/
def drawMoments (ms : List (List (GateObj R))) (g : Grid) : PyM Grid :=
  ms.zipIdx.foldlM (fun g mj => drawMoment mj.2 mj.1 g) g

/-- quantum_circuit.py:494-503: the `while` loop, left and right in turn; `k` is the number of rounds. -/
def padGo : Nat → Bool → List Char → List Char
  | 0, _, ch => ch
  | k + 1, right, ch => if right then padGo k false (ch ++ ['-']) else padGo k true ('-' :: ch)

/-- quantum_circuit.py:491-505: the text of a cell. -/
def padCell : Option (List Char) → List Char
  | some ch => padGo (5 - ch.length) false ch
  | none => ['-', '-', '-', '-', '-']

/-- The text of `get_circuit_config()['width']`. -/
def Width.text : Width → List Char
  | .num n => Nat.toDigits 10 n
  | .pair n d => '(' :: Nat.toDigits 10 n ++ [',', ' '] ++ Nat.toDigits 10 d ++ [')']

/-- quantum_circuit.py:449-509 `__str__`. -/
def Circuit.str (c : Circuit R) : PyM (List Char) := do
  let g ← drawMoments c.flow.moments
    { rows := c.qregs.seq.length, cols := (c.depth + 2).toNat, cell := fun _ _ => none }
  .ok ((List.range g.rows).flatMap (fun i =>
      (List.range g.cols).flatMap (fun j => padCell (g.cell i j)) ++ ['\n']) ++
    "\ndepth: ".toList ++ intStr c.depth ++ ", width: ".toList ++ c.width.text)

/-! ### circuit_draw.py -/

/-- What is put into the figure. Positions, widths and page breaks are left out. -/
inductive Shape where
  /-- circuit_draw.py:65-92 a box on one line, with an increment and a dimension for `X` -/
  | box (name : Char) (line : Int) (plusDim : Option (Int × Nat))
  /-- circuit_draw.py:16-49 control dots on a line and a box `X` -/
  | ctl (ctls : List Int) (line : Int) (plus : Int) (dim : Nat)
  /-- circuit_draw.py:51-63 the two-level `cx` -/
  | cnot (ctl tgt : Int)
  /-- circuit_draw.py:94-114 a box over several lines -/
  | wide (lines : List Int)
  deriving DecidableEq, Repr

/-- circuit_draw.py:16-49 `_draw_cgate`: `min([])` raises `ValueError`. -/
def drawCgate (ctls : List Int) (tgt plus : Int) (dim : Nat) : PyM Shape :=
  match pyMin ctls with
  | .error e => .error e
  | .ok _ => .ok (.ctl ctls tgt plus dim)

/-- circuit_draw.py:172-227: the shape for one operator; identities and initial states give none. -/
def GateObj.shape : GateObj R → PyM (Option Shape)
  -- lines 187-189
  | .x q d plus => .ok (some (.box 'X' q (some (plus, d))))
  -- lines 191-193
  | .h q _ => .ok (some (.box 'H' q none))
  -- lines 194-196
  | .z q _ => .ok (some (.box 'Z' q none))
  -- lines 179-186: `gate._qreg` holds the dimensions from the lower register on
  | .cx qreg ctl tgt plus => do
    let dim ← pyGet qreg tgt
    let dimC ← pyGet qreg ctl
    if dimC = 2 ∧ dim = 2 then .ok (some (.cnot ctl tgt))
    else do .ok (some (← drawCgate [ctl] tgt plus dim))
  -- lines 172-177: `gate_.dims` holds the dimensions from the lowest register on
  | .toffoli ctls tgt _ dims _ plus => do
    let dim ← pyGet dims tgt
    .ok (some (← drawCgate ctls tgt plus dim))
  -- lines 197-205
  | .arb (.int q) _ _ => .ok (some (.box 'G' q none))
  | .arb (.list [q]) _ _ => .ok (some (.box 'G' q none))
  | .arb (.list []) _ _ => .error .value
  | .arb (.list qs) _ _ => .ok (some (.wide qs))
  -- lines 206-208
  | .meas q => .ok (some (.box 'M' q none))
  | .init .. => .ok none
  | .ident .. => .ok none

/-- circuit_draw.py:210-229 `_draw_layer`. -/
def drawLayer (m : List (GateObj R)) : PyM (List Shape) := do
  let l ← m.mapM GateObj.shape
  .ok (l.filterMap id)

/-- circuit_draw.py:231-281 `draw_circuit_mpl`: `moments[1]` raises `IndexError` when there is only the
initial layer; then all layers are drawn. -/
def Circuit.drawMpl (c : Circuit R) : PyM (List (List Shape)) := do
  let _ ← pyGet c.flow.moments 1
  c.flow.moments.mapM drawLayer

end

end QuDiet
