import Verif.Gates

/-! # What operators say about themselves

The properties `is_controlled` and `is_single_qudit` of the operators in the layers of a circuit (`acting_on` is in
`Gates.lean`). Nothing in the package reads them. -/

namespace QuDiet

variable {R : Type}

/-- `is_controlled`: h.py:50-55, x.py:50-55, z.py:48-53, i.py:47-52, cx.py:67-73, measurement.py:37-42,
circuit_library/__init__.py:54-59 (which `Toffoli` inherits, toffoli_utility.py:79-85). `InitState` (init_states.py:32-66) is no
`QuantumGate` and has no such attribute. -/
def GateObj.isControlled : GateObj R → PyM Bool
  | .init .. => .error .attribute
  | .ident .. => .ok false
  | .h .. => .ok false
  | .x .. => .ok false
  | .z .. => .ok false
  | .cx .. => .ok true
  | .toffoli .. => .ok false
  | .arb .. => .ok false
  | .meas .. => .ok false

/-- `is_single_qudit`: h.py:58-64, x.py:58-63, z.py:56-62, i.py:55-60, cx.py:76-82, measurement.py:45-50,
circuit_library/__init__.py:62-67 (which `Toffoli` inherits). -/
def GateObj.isSingleQudit : GateObj R → PyM Bool
  | .init .. => .error .attribute
  | .ident .. => .ok true
  | .h .. => .ok true
  | .x .. => .ok true
  | .z .. => .ok true
  | .cx .. => .ok false
  | .toffoli .. => .ok true
  | .arb .. => .ok true
  | .meas .. => .ok true

end QuDiet
