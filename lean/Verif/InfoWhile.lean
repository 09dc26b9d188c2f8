import Verif.Threads

/-! # `get_circuit_info()` while other threads build the circuit

`get_circuit_info` looks at the list of layers and at the operators of each layer where they are: it copies neither. What
it counts is local to the thread that called it. -/

namespace QuDiet

section
variable {R : Type}

/-- Where the thread is that has called `get_circuit_info()`. `d` is the `depth` it has noted, `seen` are the operators of
the layers it has been through, `cur` those it has read of the next layer. -/
inductive Ic (R : Type) where
  /-- quantum_circuit.py:528: the call has begun -/
  | start
  /-- quantum_circuit.py:530-549: within the loops -/
  | reading (d : Int) (seen : List (List (GateObj R))) (cur : List (GateObj R))
  /-- quantum_circuit.py:555: the loops are done -/
  | finished (d : Int) (seen : List (List (GateObj R)))

/-- The next access of `get_circuit_info()` to the shared parts (quantum_circuit.py:528-549). The loop over the layers and
the loop over the operators of one layer ask for the next element of a list that may have changed; a layer is
known by its position, since layers are never removed. -/
def Ic.step (f : Flow R) : Ic R → Ic R
  -- lines 528-529
  | .start => .reading ((f.moments.length : Int) - 1) [] []
  | .reading d seen cur => match f.moments[seen.length]? with
    -- line 530, no more layers
    | none => .finished d seen
    -- lines 531-533
    | some m => match m[cur.length]? with
      | some g => .reading d seen (cur ++ [g])
      | none => .reading d (seen ++ [cur]) []
  | .finished d seen => .finished d seen

variable [CommRing R]

/-- A step of thread number `i`, or of the thread that has called `get_circuit_info()` (`none`). -/
def stepInfo (s : (Circuit R × List (Thread R)) × Ic R) : Option Nat → (Circuit R × List (Thread R)) × Ic R
  | some i => (stepThread s.1 i, s.2)
  | none => (s.1, s.2.step s.1.1.flow)

/-- Threads that are about to make the calls `ks` run on circuit `c`, and one that is about to call `get_circuit_info()`,
in the order given by `sched`. -/
def runInfo (c : Circuit R) (ks : List (List (Call R))) (sched : List (Option Nat)) :
    (Circuit R × List (Thread R)) × Ic R :=
  sched.foldl stepInfo ((c, ks.map fun l => { pc := .idle, todo := l }), .start)

/-- What `get_circuit_info()` returns, if it has come to an end (quantum_circuit.py:512-562). -/
def Ic.value (c : Circuit R) : Ic R → Option Info
  | .finished d seen =>
    let qudit := c.qregs.seq.length
    let depth := seen.foldl (infoDepthMoment qudit) d
    let count := fun k => (seen.flatten.filter fun g => g.kind = some k).length
    let details := (Kind.order.map fun k => (k, count k)).filter fun p => p.2 ≠ 0
    some { depth := depth, gateCount := (details.map (·.2)).sum, details := details, qudit := qudit }
  | _ => none

end

end QuDiet
