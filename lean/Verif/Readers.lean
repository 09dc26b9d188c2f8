import Verif.Threads

/-! # A thread that runs the circuit

One thread has called `run()`, while others call methods of the same circuit. -/

namespace QuDiet

section
variable {R : Type} [CommRing R]

/-- Where a call of `run()` is. -/
inductive Rc (R : Type) where
  /-- quantum_circuit.py:387, operator_flow.py:253 -/
  | start
  /-- operator_flow.py:255: the list of layers has been copied, it had `n` layers -/
  | copied (n : Nat)
  /-- operator_flow.py:267: the layers at the positions `todo` have still to be read, `seen` are those that were read -/
  | reading (todo : List Nat) (seen : List (List (GateObj R)))
  /-- moment.py:207: `g` is the first operator of layer `a`, the others have still to be read -/
  | inside (g : GateObj R) (a : Nat) (todo : List Nat) (seen : List (List (GateObj R)))
  /-- an exception -/
  | raised (e : Err)
  /-- operator_flow.py:284 -/
  | finished (seen : List (List (GateObj R)))

/-- The next access of `run()` to the shared parts (operator_flow.py:243-284, moment.py:199-213). What is computed from the
operators read is local to the thread and left to `Rc.value`. An
empty layer raises when the value is computed. Simplification: the copy of the operators of a layer after
the first (moment.py:207) is one step. -/
def Rc.step (f : Flow R) : Rc R → Rc R
  -- line 253
  | .start => .copied f.moments.length
  -- lines 255-258
  | .copied n =>
    if f.measCount.all (· ≠ 0) then
      if n = 0 then .raised .index else .reading (List.range (n - 1)).reverse []
    else .raised .assertion
  -- lines 267-270, moment.py:205
  | .reading [] seen => .finished seen
  | .reading (a :: as) seen => match f.moments.getD a [] with
    | [] => .reading as (seen ++ [[]])
    | g :: _ => .inside g a as seen
  -- moment.py:207
  | .inside g a as seen => .reading as (seen ++ [g :: (f.moments.getD a []).tail])
  | .raised e => .raised e
  | .finished seen => .finished seen

/-- A step of thread number `i`, or of the thread that has called `run()` (`none`). -/
def stepWhile (s : (Circuit R × List (Thread R)) × Rc R) : Option Nat → (Circuit R × List (Thread R)) × Rc R
  | some i => (stepThread s.1 i, s.2)
  | none => (s.1, s.2.step s.1.1.flow)

/-- Threads that are about to make the calls `ks` run on circuit `c`, and one that is about to call `run()`, in the order
given by `sched`. -/
def runWhile (c : Circuit R) (ks : List (List (Call R))) (sched : List (Option Nat)) :
    (Circuit R × List (Thread R)) × Rc R :=
  sched.foldl stepWhile ((c, ks.map fun l => { pc := .idle, todo := l }), .start)

variable [StarRing R] [DecidableEq R] [UnitaryCheck R]

/-- What `run()` returns or raises, if it has come to an end (operator_flow.py:267-284, quantum_circuit.py:387-389). -/
def Rc.value (N : Numerics R) (B : Backend R) (c : Circuit R) : Rc R → Option (PyM (List (Key × R)))
  | .raised e => some (.error e)
  | .finished seen => some (do
    match ← flowLoop N B seen none with
    | none => .error .attribute
    | some m => c.output.call (B.toarray m))
  | _ => none

/-- The layer of a measurement of a circuit with one register: `Moment.exec` returns `Measurement.unitary`, which is `None`,
and raises nothing (moment.py:205-213, circuit_library/standard_gates/measurement.py:53-58). Every other layer as in `momentExec`. -/
def momentExecOne (N : Numerics R) (B : Backend R) : List (GateObj R) → PyM (Option B.M)
  | [.meas _] => .ok none
  | m => do .ok (some (← momentExec N B m))

/-- operator_flow.py:267-281, for a circuit with one register: line 277 takes a `None` of the layer before for the beginning
of the product, line 280 raises when the layer gives `None`. Simplification: all backends raise a `TypeError`. -/
def flowLoopOne (N : Numerics R) (B : Backend R) :
    List (List (GateObj R)) → Option B.M → PyM (Option B.M)
  | [], acc => .ok acc
  | m :: ms, acc => do
    let k ← momentExecOne N B m
    match acc, k with
    | none, k => flowLoopOne N B ms k
    | some _, none => .error .type
    | some d, some k => do
      let p ← B.dot d k
      flowLoopOne N B ms (some p)

/-- `Rc.value` for a circuit with one register (operator_flow.py:267-284, quantum_circuit.py:387-389). -/
def Rc.valueOne (N : Numerics R) (B : Backend R) (c : Circuit R) : Rc R → Option (PyM (List (Key × R)))
  | .raised e => some (.error e)
  | .finished seen => some (do
    match ← flowLoopOne N B seen none with
    | none => .error .attribute
    | some m => c.output.call (B.toarray m))
  | _ => none

end

end QuDiet
