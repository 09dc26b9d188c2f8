import Verif.Circuit

/-! # Threads

Several threads call methods of one circuit. CPython runs one thread at a time and may switch to another between any two
steps of the interpreter, so the shared parts of the circuit can change between any two accesses to them. The registers
are fixed, what threads share is the list of layers, the operators in each layer, and the counts of measurements.
A layer is known by its position, since layers are never removed. -/

namespace QuDiet

section
variable {R : Type} [CommRing R]

/-- The layer that a method builds before it looks at the shared parts (quantum_circuit.py:162-194, 199-361). -/
def Circuit.layerOf (c : Circuit R) : Call R → PyM (List (GateObj R))
  -- lines 199-212
  | .h q dims => do
    c.validate q dims
    let d ← c.gateDims q dims
    c.momentData (.int q) (.h q d)
  -- lines 214-230
  | .x q dims plus => do
    c.validate q dims
    let d ← c.gateDims q dims
    c.momentData (.int q) (.x q d plus)
  -- lines 232-245
  | .z q dims => do
    c.validate q dims
    let d ← c.gateDims q dims
    c.momentData (.int q) (.z q d)
  -- lines 287-312
  | .cx ctl tgt plus =>
    c.momentData (.list [ctl, tgt]) (.cx (if ctl < tgt then pySlice c.regDims ctl (tgt + 1)
      else pySlice c.regDims tgt (ctl + 1)) ctl tgt plus)
  -- lines 247-285
  | .toffoli ctls tgt plus => do
    let (U, lb, ub, ds) ← toffoliDm ctls tgt plus c.qregs.seq
    c.momentData (.list (pyRange lb (ub + 1))) (.toffoli ctls tgt (pyRange lb (ub + 1)) ds U plus)
  -- lines 314-333
  | .gate U (.int q) dims => do
    c.validate q dims
    let d ← c.gateDims q dims
    c.momentData (.int q) (.arb (.int q) (.int d) U)
  | .gate U (.list qs) dims => do
    qs.forM fun q => c.validate q dims
    let d : DimArg ← match dims with
      | some (k + 1) => .ok (.int (k + 1))
      | _ => do .ok (.list (← qs.mapM (pyGet c.regDims)))
    c.momentData (.list qs) (.arb (.list qs) d U)
  -- lines 335-343
  | .measure _ => .error .notImplemented
  -- lines 345-361
  | .measureAll => .ok ((List.range c.regLength).map .meas)

/-- Where a thread is. -/
inductive Pc (R : Type) where
  /-- between two calls -/
  | idle
  /-- operator_flow.py:157: the call has built the layer `m` -/
  | begun (m : List (GateObj R))
  /-- operator_flow.py:186: the layer has the gate `g` on register `q` which may join another layer -/
  | choosing (m : List (GateObj R)) (g : GateObj R) (q : Int)
  /-- operator_flow.py:193: layer `a` has been chosen -/
  | looking (m : List (GateObj R)) (g : GateObj R) (q : Int) (a : Nat)
  /-- operator_flow.py:203, moment.py:144: register `q` was found idle in layer `a` -/
  | replacing (m : List (GateObj R)) (g : GateObj R) (q : Int) (a : Nat)
  /-- moment.py:146: the operator on register `q` is an identity, at position `i` of layer `a` -/
  | writing (g : GateObj R) (q : Int) (a i : Nat)
  /-- operator_flow.py:216 -/
  | appending (m : List (GateObj R))
  /-- operator_flow.py:239: the layer `m` has been appended, its first `j` operators have been looked at -/
  | counting (m : List (GateObj R)) (j : Nat)

/-- The next access of a thread to the shared parts (operator_flow.py:150-241, moment.py:78-88, 135-149).
Simplifications: the look at the operators of one layer is one step (193-197, moment.py:80-88), as operators on other
registers do not matter for its outcome; the circuit has been constructed, so its flow is not empty (lines 221-225). If
layer `a` had no operator for the register, lines 144-145 of moment.py would raise; the call then ends. -/
def Pc.step (f : Flow R) : Pc R → Flow R × Pc R
  | .idle => (f, .idle)
  -- lines 161-178
  | .begun m =>
    if f.measCount.all (· ≠ 0) then (f, .idle)
    else match m.find? (·.isHXZ) with
      | none => (f, .appending m)
      | some g => match g.actingOn with
        | .ok (.int q) => (f, .choosing m g q)
        | _ => (f, .idle)
  -- line 186
  | .choosing m g q => (f, .looking m g q (f.moments.length - 1))
  -- lines 193-201
  | .looking m g q a =>
    if q ∈ identRegs (f.moments.getD a []) then (f, .replacing m g q a) else (f, .appending m)
  -- moment.py:144-149
  | .replacing m g q a =>
    match getQregMoment q (f.moments.getD a []) 0 with
    | .ok (some (g', i)) => if g'.isIdent then (f, .writing g q a i) else (f, .appending m)
    | _ => (f, .idle)
  -- moment.py:147
  | .writing g _ a i => ({ f with moments := f.moments.set a ((f.moments.getD a []).set i g) }, .idle)
  -- lines 216-219
  | .appending m => ({ f with moments := f.moments ++ [m] }, .counting m 0)
  -- lines 238-241
  | .counting m j =>
    match m[j]? with
    | none => (f, .idle)
    | some g => (if g.isMeas then { f with measCount := f.measCount.set j 1 } else f, .counting m (j + 1))

/-- A thread: where it is, and the calls it has still to make. -/
structure Thread (R : Type) where
  pc : Pc R
  todo : List (Call R)

/-- The next step of a thread. An exception is caught by the thread, which carries on. -/
def Thread.step (c : Circuit R) (t : Thread R) : Circuit R × Thread R :=
  match t.pc with
  | .idle => match t.todo with
    | [] => (c, t)
    | k :: ks => match c.layerOf k with
      | .ok m => (c, { pc := .begun m, todo := ks })
      | .error _ => (c, { pc := .idle, todo := ks })
  | pc => ({ c with flow := (pc.step c.flow).1 }, { t with pc := (pc.step c.flow).2 })

/-- The step of the thread number `i`. -/
def stepThread (s : Circuit R × List (Thread R)) (i : Nat) : Circuit R × List (Thread R) :=
  match s.2[i]? with
  | none => s
  | some t => ((t.step s.1).1, s.2.set i (t.step s.1).2)

/-- Threads that are about to make the calls `ks` run on circuit `c` in the order given by `sched`, a list of numbers of
threads. -/
def runThreads (c : Circuit R) (ks : List (List (Call R))) (sched : List Nat) : Circuit R × List (Thread R) :=
  sched.foldl stepThread (c, ks.map fun l => { pc := .idle, todo := l })

/-- The thread has made all its calls. -/
def Thread.Done (t : Thread R) : Prop := t.pc = .idle ∧ t.todo = []

end

end QuDiet
