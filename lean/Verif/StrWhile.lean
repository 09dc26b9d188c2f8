import Verif.InfoWhile
import Verif.Draw

/-! # `str(circuit)` while other threads build the circuit

`__str__` makes a table with a column for each layer there is and one more, goes through the layers where they are,
and looks at the depth once more for the last line. The table is local to the thread that called it. -/

namespace QuDiet

section
variable {R : Type}

/-- Where the thread is that has called `str(circuit)`. -/
inductive Sc (R : Type) where
  /-- quantum_circuit.py:451-488: before and within the loops over the layers, which are those of `get_circuit_info`; the
  number noted is the depth of line 451 -/
  | looping (r : Ic R)
  /-- quantum_circuit.py:508: the depth for the last line has been looked up -/
  | done (d : Int) (seen : List (List (GateObj R))) (d' : Int)

/-- The next access of `str(circuit)` to the shared parts. `get_circuit_config` (quantum_circuit.py:126-144) is one step. -/
def Sc.step (c : Circuit R) : Sc R → Sc R
  -- line 451
  | .looping .start => .looping (.reading c.depth [] [])
  -- lines 455-458
  | .looping (.reading d seen cur) => .looping ((Ic.reading d seen cur).step c.flow)
  -- line 508
  | .looping (.finished d seen) => .done d seen c.depth
  | .done d seen d' => .done d seen d'

/-- quantum_circuit.py:450-452: the empty table. -/
def blank (c : Circuit R) (d : Int) : Grid :=
  { rows := c.qregs.seq.length, cols := (d + 2).toNat, cell := fun _ _ => none }

/-- quantum_circuit.py:490-509: the text of a table. -/
def Grid.text (g : Grid) (depth : Int) (width : List Char) : List Char :=
  (List.range g.rows).flatMap (fun i =>
      (List.range g.cols).flatMap (fun j => padCell (g.cell i j)) ++ ['\n']) ++
    "\ndepth: ".toList ++ intStr depth ++ ", width: ".toList ++ width

/-- What `str(circuit)` has come to, if it has come to an end: it raises where it cannot write into the table, and otherwise
returns a text (quantum_circuit.py:449-509). -/
def Sc.value (c : Circuit R) : Sc R → Option (PyM (List Char))
  | .looping .start => none
  | .looping (.reading d seen cur) => match drawMoments (seen ++ [cur]) (blank c d) with
    | .error e => some (.error e)
    | .ok _ => none
  | .looping (.finished d seen) => match drawMoments seen (blank c d) with
    | .error e => some (.error e)
    | .ok _ => none
  | .done d seen d' => match drawMoments seen (blank c d) with
    | .error e => some (.error e)
    | .ok g => some (.ok (g.text d' c.width.text))

variable [CommRing R]

/-- A step of thread number `i`, or of the thread that has called `str(circuit)` (`none`). -/
def stepStr (s : (Circuit R × List (Thread R)) × Sc R) : Option Nat → (Circuit R × List (Thread R)) × Sc R
  | some i => (stepThread s.1 i, s.2)
  | none => (s.1, s.2.step s.1.1)

/-- Threads that are about to make the calls `ks` run on circuit `c`, and one that is about to call `str(circuit)`, in the
order given by `sched`. -/
def runStr (c : Circuit R) (ks : List (List (Call R))) (sched : List (Option Nat)) :
    (Circuit R × List (Thread R)) × Sc R :=
  sched.foldl stepStr ((c, ks.map fun l => { pc := .idle, todo := l }), .looping .start)

end

end QuDiet
