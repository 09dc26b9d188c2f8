import Verif.Circuit

/-! # Interrupted calls

A call can be interrupted at any point, by `KeyboardInterrupt` (the user presses Ctrl-C) or `MemoryError`. The circuit
then is as the statements that were carried out have left it. What other theorems see of a circuit changes in a few
statements only: an operator is put into the newest layer (moment.py:147), a layer is appended (operator_flow.py:219),
one measurement after the other is counted (operator_flow.py:238-241) and the result is stored
(quantum_circuit.py:388). Each of them is one step of the interpreter. The pointers that layers have to their neighbours
(operator_flow.py:217-218) are read by no code and not modelled. -/

namespace QuDiet

/-- What a user asks a circuit to do: one of the gate or measurement methods, or `run()`. -/
inductive Task (R : Type) where
  | call (k : Call R)
  | run

variable {R : Type} [CommRing R] [StarRing R] [DecidableEq R] [UnitaryCheck R]

/-- The circuit after a task that was not interrupted (quantum_circuit.py:199-361, 382-389). -/
def Circuit.task (N : Numerics R) (B : Backend R) (c : Circuit R) : Task R → Circuit R
  | .call k => (c.call k).1
  | .run => (c.run N B).1

/-- The circuit after several of them. -/
def Circuit.tasks (N : Numerics R) (B : Backend R) (c : Circuit R) (ts : List (Task R)) : Circuit R :=
  ts.foldl (Circuit.task N B) c

/-- The circuits that an interrupted task can leave behind. -/
inductive Circuit.During (N : Numerics R) (B : Backend R) (c : Circuit R) : Task R → Circuit R → Prop
  /-- interrupted before the first statement that changes the circuit -/
  | before (t : Task R) : During N B c t c
  /-- interrupted after the last one (or not at all) -/
  | after (t : Task R) : During N B c t (c.task N B t)
  /-- operator_flow.py:215-219, 227, 231-241: if the call appends layer `m`, this is interrupted after the layer has
  been appended and the first `j` operators have been looked at -/
  | counting {k : Call R} {c' : Circuit R} {b : Bool} {m : List (GateObj R)} (h : c.callM k = .ok (c', b))
      (hm : c'.flow = c.flow.append m) (j : Nat) :
      During N B c (.call k)
        { c with flow := { moments := c.flow.moments ++ [m], measCount := detectMeas c.flow.measCount (m.take j) } }

/-- The circuits that a sequence of tasks can leave behind, each of which can be interrupted at any point. -/
inductive Circuit.Interrupted (N : Numerics R) (B : Backend R) : Circuit R → List (Task R) → Circuit R → Prop
  | nil (c : Circuit R) : Interrupted N B c [] c
  | cons {c c₁ c₂ : Circuit R} {t : Task R} {ts : List (Task R)} (h : c.During N B t c₁)
      (hs : Interrupted N B c₁ ts c₂) : Interrupted N B c (t :: ts) c₂

end QuDiet
