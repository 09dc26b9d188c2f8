import Verif.Readers
import Verif.StrWhile
import Verif.MplWhile

/-! # Any number of threads that run, print and draw a circuit while others build it

One state has the circuit, the threads that build it and the threads that have called `run()`, `get_circuit_info()`,
`str(circuit)` or `draw('mpl')`. -/

namespace QuDiet

section
variable {R : Type} [CommRing R] [StarRing R] [DecidableEq R] [UnitaryCheck R]

/-- Where a call of `run()` is, together with the attribute `circuit_output` of the circuit. -/
inductive Oc (R : Type) where
  /-- quantum_circuit.py:387: within `op_flow.exec` or after it -/
  | reading (r : Rc R)
  /-- quantum_circuit.py:388: the attribute has been set -/
  | stored
  /-- quantum_circuit.py:389: what the attribute was then is returned; or an exception was raised -/
  | ended (v : PyM (Option (List (Key × R))))

/-- The next access of `run()` to the shared parts (quantum_circuit.py:387-389). -/
def Oc.step (N : Numerics R) (B : Backend R) (c : Circuit R) : Oc R → Circuit R × Oc R
  | .reading r => match r.value N B c with
    -- line 387
    | none => (c, .reading (r.step c.flow))
    | some (.error e) => (c, .ended (.error e))
    -- line 388
    | some (.ok l) => ({ c with circuitOutput := some l }, .stored)
  -- line 389
  | .stored => (c, .ended (.ok c.circuitOutput))
  | .ended v => (c, .ended v)

/-- Where a thread is that has called one of the methods. -/
inductive Reader (R : Type) where
  /-- quantum_circuit.py:382-389 -/
  | run (r : Oc R)
  /-- quantum_circuit.py:512-562 -/
  | info (r : Ic R)
  /-- quantum_circuit.py:449-509 -/
  | str (r : Sc R)
  /-- circuit_draw.py:231-281 -/
  | mpl (r : Mc R)

/-- Its next access to the shared parts; the lines are those of `Oc.step`, `Ic.step`, `Sc.step` and `Mc.step`
(operator_flow.py:243-284, quantum_circuit.py:382-389, 451-549, circuit_draw.py:231-281). -/
def Reader.step (N : Numerics R) (B : Backend R) (c : Circuit R) : Reader R → Circuit R × Reader R
  | .run r => ((r.step N B c).1, .run (r.step N B c).2)
  | .info r => (c, .info (r.step c.flow))
  | .str r => (c, .str (r.step c))
  | .mpl r => (c, .mpl (r.step c.flow))

/-- Whose step it is: that of a thread that builds, or of one that has called one of the methods. -/
inductive Turn where
  | builder (i : Nat)
  | reader (j : Nat)
deriving DecidableEq

/-- A step (the lines are those of `stepThread` and `Reader.step`, operator_flow.py:43-284). -/
def stepSeveral (N : Numerics R) (B : Backend R) (s : (Circuit R × List (Thread R)) × List (Reader R)) :
    Turn → (Circuit R × List (Thread R)) × List (Reader R)
  | .builder i => (stepThread s.1 i, s.2)
  | .reader j => match s.2[j]? with
    | none => s
    | some r => (((r.step N B s.1.1).1, s.1.2), s.2.set j (r.step N B s.1.1).2)

/-- Threads that are about to make the calls `ks` run on circuit `c`, and others that are about to call the methods `rs`,
in the order given by `sched`. -/
def runSeveral (N : Numerics R) (B : Backend R) (c : Circuit R) (ks : List (List (Call R))) (rs : List (Reader R))
    (sched : List Turn) : (Circuit R × List (Thread R)) × List (Reader R) :=
  sched.foldl (stepSeveral N B) ((c, ks.map fun l => { pc := .idle, todo := l }), rs)

end

end QuDiet
