import Verif.Semantics

/-!
# `gate` with the classes of the library

quantum_circuit.py:314-333 `gate(gate, qreg, dims)` takes a class and calls it with `qreg`, `dims` and `backend`. In
`Circuit` the class is the user's subclass of `ArbitaryGate`. Here it is one of the library's own. `qreg` is an
integer.
-/

namespace QuDiet

/-- The gate classes of the library. -/
inductive GateClass where
  | h | x | z | i | cx | toffoli | measurement
  deriving DecidableEq, Repr

/-- The statements of a script that may also call `gate` with a class of the library. -/
inductive Step (R : Type) where
  | call (k : Call R)
  | gateOf (cls : GateClass) (q : Int) (dims : Option Nat)

section
variable {R : Type} [CommRing R]

/-- quantum_circuit.py:314-333 with a class of the library. Line 324 evaluates the dimension before the class is
called. -/
def Circuit.gateOf (c : Circuit R) (cls : GateClass) (q : Int) (dims : Option Nat) : PyM (Circuit R × Bool) := do
  c.validate q dims
  let d ← c.gateDims q dims
  match cls with
  -- h.py:38
  | .h => c.addMoment (.int q) (.h q d)
  -- z.py:36
  | .z => c.addMoment (.int q) (.z q d)
  -- i.py:35; if `q` is negative the object is not used
  | .i => c.addMoment (.int q) (.ident q.toNat d)
  -- x.py:38: `plus` is missing
  | .x => .error .type
  -- cx.py:39-46: `acting_on` and `plus` are missing
  | .cx => .error .type
  -- toffoli_utility.py:79-80, 12: `c, t = qreg` for an integer
  | .toffoli => .error .type
  -- measurement.py:32: unexpected `dims`
  | .measurement => .error .type

/-- One statement: the circuit afterwards and the returned value or exception. -/
def Circuit.step (c : Circuit R) : Step R → Circuit R × PyM Bool
  | .call k => c.call k
  | .gateOf cls q dims =>
    match c.gateOf cls q dims with
    | .ok (c', b) => (c', .ok b)
    | .error e => (c, .error e)

/-- Several statements (exceptions are caught by the caller, who carries on). -/
def Circuit.steps (c : Circuit R) (ss : List (Step R)) : Circuit R := ss.foldl (fun c s => (c.step s).1) c

variable [StarRing R] [DecidableEq R] [UnitaryCheck R]

/-- A script of such statements, followed by `measure_all()` and `run()`. -/
def stepScript (N : Numerics R) (B : Backend R) (qregs : RegsArg) (init : List Int) (out : Option Output)
    (ss : List (Step R)) : PyM (List (Key × R)) := do
  let c ← Circuit.new qregs init out
  (((c.steps ss).calls [.measureAll]).run N B).2

end

end QuDiet
