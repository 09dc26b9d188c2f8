import Verif.Threads

/-!
# `utils/debug.py`

`weak_compare` looks at the operators that each layer was made with (`Moment._operations`), which are kept beside the
operators it has now (`Moment._moment_list`). `Circuit` only has the latter; here both are kept.
-/

namespace QuDiet

/-- `type(op).__name__` (debug.py:6). The class of a custom gate is the user's, its name is `cls`. -/
def GateObj.className {R : Type} (cls : String) : GateObj R → String
  | .init .. => "InitState"
  | .ident .. => "IGate"
  | .h .. => "HGate"
  | .x .. => "XGate"
  | .z .. => "ZGate"
  | .cx .. => "CXGate"
  | .toffoli .. => "Toffoli"
  | .arb .. => cls
  | .meas .. => "Measurement"

/-- An operator together with the name of its class. -/
abbrev NamedOp (R : Type) := String × GateObj R

/-- A circuit, and the operators that its layers were made with (moment.py:61, `_operations = list(args)`): a list of
its own for each layer, which no method changes. -/
structure Recorded (R : Type) where
  circuit : Circuit R
  made : List (List (NamedOp R))

section
variable {R : Type} [CommRing R]

/-- The operators of a new layer with the names of their classes. -/
def named (cls : String) (m : List (GateObj R)) : List (NamedOp R) := m.map fun g => (g.className cls, g)

/-- quantum_circuit.py:60-123 `QuantumCircuit.__init__`; lines 379-380 make the first layer. -/
def Recorded.new (qregs : RegsArg) (init : List Int) (out : Option Output) : PyM (Recorded R) := do
  let c ← Circuit.new qregs init out
  .ok { circuit := c, made := c.flow.moments.map (named "") }

/-- A method call; if it is `gate`, with a class of the name `cls`. The layer that the method makes
(quantum_circuit.py:195, 358) is kept exactly if operator_flow.py:219 appends it, that is if the list of layers
becomes longer. -/
def Recorded.call (b : Recorded R) (k : Call R) (cls : String) : Recorded R :=
  let c' := (b.circuit.call k).1
  { circuit := c'
    made := if b.circuit.flow.moments.length < c'.flow.moments.length then
        match b.circuit.layerOf k with
        | .ok m => b.made ++ [named cls m]
        | .error _ => b.made
      else b.made }

/-- A history of calls. -/
def Recorded.calls (b : Recorded R) (ks : List (Call R × String)) : Recorded R :=
  ks.foldl (fun b k => b.call k.1 k.2) b

variable [StarRing R] [DecidableEq R] [UnitaryCheck R]

/-- A backend, and whether its matrices have a method `toarray`: those of `SparseBackend` do, those of `NumpyBackend`
(and of `CUDABackend`) do not. -/
structure Store (R : Type) where
  backend : Backend R
  hasToarray : Bool

/-- debug.py:5-8, one round: name and shape. The matrix of a measurement is `None`, which has no `toarray`. -/
def opRepr (N : Numerics R) (S : Store R) (op : NamedOp R) : PyM (String × Nat × Nat) :=
  if op.2.isMeas then .error .attribute
  else do
    let u ← op.2.unitary N S.backend
    if S.hasToarray then .ok (op.1, (S.backend.toarray u).rows, (S.backend.toarray u).cols)
    else .error .attribute

/-- debug.py:3-9 `moment_to_repr(moment)`. -/
def momentRepr (N : Numerics R) (S : Store R) (m : List (NamedOp R)) : PyM (List (String × Nat × Nat)) :=
  m.mapM (opRepr N S)

/-- debug.py:13-17: the loop over the pairs of layers from number `i` on. -/
def weakLoop (N : Numerics R) (S1 S2 : Store R) : Nat → List (List (NamedOp R) × List (NamedOp R)) → PyM (Option Nat)
  | _, [] => .ok none
  | i, (m1, m2) :: ms => do
    let r1 ← momentRepr N S1 m1
    let r2 ← momentRepr N S2 m2
    -- `np.all` of a truth value is that value
    if r1 = r2 then weakLoop N S1 S2 (i + 1) ms else .ok (some i)

/-- debug.py:11-17 `weak_compare(qc1, qc2)`: the number of the layer that is reported, `none` for `None`. (Both layers
are returned as well; they are the layers of that number.) -/
def weakCompare (N : Numerics R) (S1 S2 : Store R) (b1 b2 : Recorded R) : PyM (Option Nat) :=
  if b1.circuit.flow.moments.length ≠ b2.circuit.flow.moments.length then
    weakLoop N S1 S2 0 (b1.made.zip b2.made)
  else .ok none

/-- Two circuits on the same registers with the same initial levels, built by the calls `ks1` and `ks2` with backends
`S1` and `S2`, are compared. -/
def compareBuilt (N : Numerics R) (S1 S2 : Store R) (qregs : RegsArg) (init : List Int)
    (ks1 ks2 : List (Call R × String)) : PyM (Option Nat) := do
  let b1 ← Recorded.new qregs init none
  let b2 ← Recorded.new qregs init none
  weakCompare N S1 S2 (b1.calls ks1) (b2.calls ks2)

end

end QuDiet
