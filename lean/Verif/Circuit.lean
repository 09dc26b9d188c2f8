import Verif.Gates

/-!
# Circuits

Models `src/qudiet/core/quantum_circuit.py`, `moment.py`, `operator_flow.py` and `output.py` as a
state machine. A `Moment` is the list of its operators; names and prev/next pointers are never
read and are left out, as is the debugger (never filled: operator_flow.py:164-165 is commented out).

Not modelled: a negative `dims` argument (`dims` is a natural number), `cregs` other than an integer,
and the caller changing the `qregs` list after construction (`self._reg_dims` is that list).
-/

namespace QuDiet

/-! ### Output (output.py) -/

/-- output.py:33-35 -/
inductive OutputType where | print | state
  deriving DecidableEq, Repr

/-- output.py:38-40 -/
inductive OutputMethod where | probability | amplitude
  deriving DecidableEq, Repr

/-- output.py:43-52 -/
structure Output where
  base : List Nat
  type : OutputType
  method : OutputMethod
  deriving DecidableEq, Repr

/-- A dictionary key of the result: a printed label or a tuple of levels. -/
inductive Key where
  | str (s : List Char)
  | tup (s : List Nat)
  deriving DecidableEq, Repr

/-- output.py:70: `f"|{''.join([str(s) for s in state])}>"`. -/
def label (s : List Nat) : List Char :=
  '|' :: (s.flatMap (Nat.toDigits 10) ++ ['>'])

/-- output.py:69-73: key for a list of levels. -/
def Output.key (o : Output) (s : List Nat) : Key :=
  match o.type with
  | .print => .str (label s)
  | .state => .tup s

section
variable {R : Type} [CommRing R] [DecidableEq R]

/-- output.py:73: `d**2` or `d`. -/
def Output.val (o : Output) (d : R) : R :=
  match o.method with
  | .probability => d ^ 2
  | .amplitude => d

/-- output.py:57: `result.nonzero()[0]`, the row numbers of the non-zero entries in row-major
order. -/
def nonzeroRows (m : Mat R) : List Nat :=
  (List.range m.rows).flatMap fun i =>
    ((List.range m.cols).filter fun j => m.e i j ≠ 0).map fun _ => i

/-- output.py:54-76 `Output.__call__` on the dense result (`IndexError` from `Nbase_to_bin`
when the row number exceeds the base). Each dictionary has one key. -/
def Output.call (o : Output) (m : Mat R) : PyM (List (Key × R)) :=
  (nonzeroRows m).mapM fun v =>
    match nbaseToBin v o.base with
    | .ok s => .ok (o.key s, o.val (m.e v 0))
    | .error e => .error e

end

/-! ### Operator flow (operator_flow.py, moment.py) -/

/-- operator_flow.py:51-53: the fields of `OperatorFlow` that are read. -/
structure Flow (R : Type) where
  moments : List (List (GateObj R))
  measCount : List Nat

section
variable {R : Type}

/-- moment.py:78-88 `get_qreg_moment(qreg, index=True)`: the first operator acting on `q`. -/
def getQregMoment (q : Int) : List (GateObj R) → Nat → PyM (Option (GateObj R × Nat))
  | [], _ => .ok none
  | g :: gs, i => do
    match ← g.actingOn with
    | .int q' => if q = q' then .ok (some (g, i)) else getQregMoment q gs (i + 1)
    | .list qs => if q ∈ qs then .ok (some (g, i)) else getQregMoment q gs (i + 1)

/-- moment.py:135-149 `replace_igate(gate_obj)`. Unpacking `None` is a `TypeError`. -/
def replaceIgate (m : List (GateObj R)) (q : Int) (g : GateObj R) :
    PyM (List (GateObj R) × Bool) := do
  match ← getQregMoment q m 0 with
  | none => .error .type
  | some (g', i) => if g'.isIdent then .ok (m.set i g, true) else .ok (m, false)

/-- operator_flow.py:193-197: registers of the identity operators of a moment. -/
def identRegs (m : List (GateObj R)) : List Int :=
  m.filterMap fun g => match g with
    | .ident q _ => some (q : Int)
    | _ => none

/-- operator_flow.py:231-241 `__detect_measurement_and_add_count`. -/
def detectMeas (mc : List Nat) (m : List (GateObj R)) : List Nat :=
  m.zipIdx.foldl (fun mc gi => if gi.1.isMeas then mc.set gi.2 1 else mc) mc

/-- operator_flow.py:215-219, 227: append the moment and count its measurements. -/
def Flow.append (f : Flow R) (cur : List (GateObj R)) : Flow R :=
  { moments := f.moments ++ [cur], measCount := detectMeas f.measCount cur }

/-- operator_flow.py:150-229 `populate_opflow_test` with one moment (the only use).
The `break` of line 207 leaves the loop over the arguments, so lines 210 and 227 are skipped
when the gate went into the newest moment. -/
def Flow.populate (f : Flow R) (cur : List (GateObj R)) : PyM (Flow R × Bool) :=
  match f.moments.getLast? with
  -- lines 221-225
  | none => .ok ({ moments := [cur], measCount := detectMeas (List.replicate cur.length 0) cur }, true)
  | some last =>
    -- lines 161-162
    if f.measCount.all (· ≠ 0) then .ok (f, false)
    else
      -- lines 169-178
      match cur.find? (·.isHXZ) with
      | none => .ok (f.append cur, true)
      | some g => do
        -- lines 198-200
        let (q, gateQreg) := match ← g.actingOn with
          | .int q => (q, [q])
          | .list qs => (0, qs)
        -- line 201
        if gateQreg.all (· ∈ identRegs last) then do
          -- lines 202-207
          let (last', added) ← replaceIgate last q g
          if added then .ok ({ f with moments := f.moments.dropLast ++ [last'] }, true)
          else .ok (f.append cur, true)
        else .ok (f.append cur, true)

end

/-! ### QuantumCircuit (quantum_circuit.py) -/

/-- The `qregs` argument: `(n, d)` or a list of dimensions. -/
inductive RegsArg where
  | tuple (n : Nat) (d : Int)
  | list (ds : List Int)
  deriving DecidableEq, Repr

/-- `self.qregs` of a constructed circuit. -/
inductive Regs where
  | tuple (n d : Nat)
  | list (ds : List Nat)
  deriving DecidableEq, Repr

/-- `self.qregs` indexed as a sequence: for the tuple form this is the pair itself. -/
def Regs.seq : Regs → List Nat
  | .tuple n d => [n, d]
  | .list ds => ds

/-- quantum_circuit.py:59-123: the attributes that later methods read. -/
structure Circuit (R : Type) where
  qregs : Regs
  regLength : Nat
  regDims : List Nat
  flow : Flow R
  output : Output
  circuitOutput : Option (List (Key × R)) := none

/-- quantum_circuit.py:112-118: `_reg_dims`. -/
def RegsArg.dims : RegsArg → List Int
  | .tuple n d => List.replicate n d
  | .list ds => ds

/-- `self.qregs` after construction. -/
def RegsArg.toRegs : RegsArg → Regs
  | .tuple n d => .tuple n d.toNat
  | .list ds => .list (ds.map Int.toNat)

/-- quantum_circuit.py:120-121: the states list after `extend`. -/
def extendStates (n : Nat) (init : List Int) : List Int :=
  init ++ List.replicate (n - init.length) 0

/-- quantum_circuit.py:102, 120-121: what the caller's own `init_states` list looks like after the
constructor: an empty list is replaced by a fresh one (`init_states or []`), any other list is the
very object that gets extended. -/
def callerStatesAfter (n : Nat) (init : List Int) : List Int :=
  match init with
  | [] => []
  | _ => extendStates n init

/-- quantum_circuit.py:369-377: the list of `InitState` objects. -/
def initMoment {R} [CommRing R] (dims : List Int) (states : List Int) : PyM (List (GateObj R)) :=
  states.zipIdx.mapM fun si =>
    match dims[si.2]? with
    | none => .error .index
    | some d => initState d si.1 si.2

/-- quantum_circuit.py:60-123 `QuantumCircuit.__init__`. -/
def Circuit.new {R} [CommRing R] (qregs : RegsArg) (init : List Int) (output : Option Output := none) :
    PyM (Circuit R) := do
  let dims := qregs.dims
  let states := extendStates dims.length init
  let m ← initMoment dims states
  let (f, _) ← ({ moments := [], measCount := [0] } : Flow R).populate m
  .ok { qregs := qregs.toRegs
        regLength := dims.length
        regDims := dims.map Int.toNat
        flow := f
        -- lines 90-93
        output := output.getD { base := qregs.toRegs.seq, type := .print, method := .amplitude } }

section
variable {R : Type}

/-- quantum_circuit.py:145-160 `__validate_gate_inputs` for one register. -/
def Circuit.validate (c : Circuit R) (q : Int) (dims : Option Nat) : PyM Unit :=
  if q > (c.regLength : Int) - 1 then .error .value
  else match dims with
    | none => .ok ()
    | some 0 => .ok ()
    | some k => match pyGet c.regDims q with
      | .error e => .error e
      | .ok d => if k > d then .error .value else .ok ()

/-- `dims or self._reg_dims[qreg]`. -/
def Circuit.gateDims (c : Circuit R) (q : Int) (dims : Option Nat) : PyM Nat :=
  match dims with
  | some (k + 1) => .ok (k + 1)
  | _ => pyGet c.regDims q

/-- quantum_circuit.py:184-194: one round of the loop over the registers. `space` is the range of
`operation_action_space` (lines 176-182); the state is `_moment_data` and `gate_obj_added`. -/
def momentStep (dims : List Nat) (space : Option (Int × Int)) (q : RegArg) (g : GateObj R)
    (st : List (GateObj R) × Bool) (reg : Nat) : List (GateObj R) × Bool :=
  let inSpace : Bool := match space with
    | none => false
    | some (lb, ub) => decide (lb ≤ reg ∧ (reg : Int) ≤ ub)
  if inSpace then
    -- lines 185-187
    if st.2 then st else (st.1 ++ [g], true)
  else
    -- lines 189-192
    let data := st.1 ++ [.ident reg (dims.getD reg 0)]
    -- lines 193-194: `_reg == qreg` is False when `qreg` is a list
    match q with
    | .int q => if (reg : Int) = q then (data.set reg g, st.2) else (data, st.2)
    | .list _ => (data, st.2)

/-- quantum_circuit.py:174-194: the operators of the moment for gate `g` on `q`. -/
def Circuit.momentData (c : Circuit R) (q : RegArg) (g : GateObj R) : PyM (List (GateObj R)) := do
  -- lines 176-182
  let space : Option (Int × Int) ← match q with
    | .int _ => .ok none
    | .list qs => do .ok (some (← pyMin qs, ← pyMax qs))
  .ok ((List.range c.regLength).foldl (momentStep c.regDims space q g) ([], false)).1

/-- quantum_circuit.py:162-197 `__add_moment_to_opflow`. -/
def Circuit.addMoment (c : Circuit R) (q : RegArg) (g : GateObj R) : PyM (Circuit R × Bool) := do
  let m ← c.momentData q g
  let (f, r) ← c.flow.populate m
  .ok ({ c with flow := f }, r)

/-- The gate-building and measuring methods of `QuantumCircuit`. `gate`'s `U` is the `_unitary`
that the user's class sets. -/
inductive Call (R : Type) where
  | h (q : Int) (dims : Option Nat)
  | x (q : Int) (dims : Option Nat) (plus : Int)
  | z (q : Int) (dims : Option Nat)
  | cx (ctl tgt : Int) (plus : Int)
  | toffoli (ctls : List Int) (tgt : Int) (plus : Int)
  | gate (U : Mat R) (q : RegArg) (dims : Option Nat)
  | measure (q : Int)
  | measureAll

variable [CommRing R]

/-- The body of each method; an exception is raised before anything is changed or not at all. -/
def Circuit.callM (c : Circuit R) : Call R → PyM (Circuit R × Bool)
  -- lines 199-212
  | .h q dims => do
    c.validate q dims
    let d ← c.gateDims q dims
    c.addMoment (.int q) (.h q d)
  -- lines 214-230
  | .x q dims plus => do
    c.validate q dims
    let d ← c.gateDims q dims
    c.addMoment (.int q) (.x q d plus)
  -- lines 232-245
  | .z q dims => do
    c.validate q dims
    let d ← c.gateDims q dims
    c.addMoment (.int q) (.z q d)
  -- lines 287-312
  | .cx ctl tgt plus =>
    let active := if ctl < tgt then pySlice c.regDims ctl (tgt + 1)
      else pySlice c.regDims tgt (ctl + 1)
    c.addMoment (.list [ctl, tgt]) (.cx active ctl tgt plus)
  -- lines 247-285; toffoli_utility.py:79-85. Always returns True.
  | .toffoli ctls tgt plus => do
    let (U, lb, ub, ds) ← toffoliDm ctls tgt plus c.qregs.seq
    let acting := pyRange lb (ub + 1)
    let (c', _) ← c.addMoment (.list acting) (.toffoli ctls tgt acting ds U plus)
    .ok (c', true)
  -- lines 314-333
  | .gate U (.int q) dims => do
    c.validate q dims
    let d ← c.gateDims q dims
    c.addMoment (.int q) (.arb (.int q) (.int d) U)
  | .gate U (.list qs) dims => do
    qs.forM fun q => c.validate q dims
    let d : DimArg ← match dims with
      | some (k + 1) => .ok (.int (k + 1))
      | _ => do .ok (.list (← qs.mapM (pyGet c.regDims)))
    c.addMoment (.list qs) (.arb (.list qs) d U)
  -- lines 335-343
  | .measure _ => .error .notImplemented
  -- lines 345-361. Always returns True.
  | .measureAll => do
    let (f, _) ← c.flow.populate ((List.range c.regLength).map .meas)
    .ok ({ c with flow := f }, true)

/-- One method call: the circuit afterwards and the returned value or exception. -/
def Circuit.call (c : Circuit R) (k : Call R) : Circuit R × PyM Bool :=
  match c.callM k with
  | .ok (c', b) => (c', .ok b)
  | .error e => (c, .error e)

/-- A history of calls (exceptions are caught by the caller, who carries on). -/
def Circuit.calls (c : Circuit R) (ks : List (Call R)) : Circuit R :=
  ks.foldl (fun c k => (c.call k).1) c

/-! ### Execution -/

variable [StarRing R] [DecidableEq R] [UnitaryCheck R]

/-- moment.py:199-213 `Moment.exec`. -/
def momentExec (N : Numerics R) (B : Backend R) : List (GateObj R) → PyM B.M
  | [] => .error .index
  | g :: gs => do
    let u ← g.unitary N B
    gs.foldlM (fun acc g => do .ok (B.kron acc (← g.unitary N B))) u

/-- operator_flow.py:267-281: the loop over the moments, newest first. -/
def flowLoop (N : Numerics R) (B : Backend R) :
    List (List (GateObj R)) → Option B.M → PyM (Option B.M)
  | [], acc => .ok acc
  | m :: ms, acc => do
    let k ← momentExec N B m
    match acc with
    | none => flowLoop N B ms (some k)
    | some d => do
      let p ← B.dot d k
      flowLoop N B ms (some p)

/-- operator_flow.py:243-284 `OperatorFlow.exec`. -/
def Flow.exec (N : Numerics R) (B : Backend R) (f : Flow R) : PyM (Option B.M) :=
  if f.measCount.all (· ≠ 0) then
    if f.moments.isEmpty then .error .index
    else flowLoop N B f.moments.dropLast.reverse none
  else .error .assertion

/-- quantum_circuit.py:382-389 `run`, the returned value. With no operator left the result is
`None`, which has no `nonzero` (`AttributeError`). -/
def Circuit.runResult (N : Numerics R) (B : Backend R) (c : Circuit R) : PyM (List (Key × R)) := do
  match ← c.flow.exec N B with
  | none => .error .attribute
  | some m => c.output.call (B.toarray m)

/-- quantum_circuit.py:382-389 `run`: the circuit afterwards (`circuit_output` is stored) and the
returned value or exception. -/
def Circuit.run (N : Numerics R) (B : Backend R) (c : Circuit R) :
    Circuit R × PyM (List (Key × R)) :=
  match c.runResult N B with
  | .ok r => ({ c with circuitOutput := some r }, .ok r)
  | .error e => (c, .error e)

end

/-! ### Reports -/

section
variable {R : Type}

/-- `get_circuit_config()['width']`, quantum_circuit.py:136-140: for the tuple form (with an
integer `cregs`) it is the tuple itself. -/
inductive Width where
  | num (n : Nat)
  | pair (n d : Nat)
  deriving DecidableEq, Repr

/-- quantum_circuit.py:135-141, the `width` entry. -/
def Circuit.width (c : Circuit R) : Width :=
  match c.qregs with
  | .list ds => .num ds.length
  | .tuple n d => .pair n d

/-- `get_circuit_config()['depth']`, quantum_circuit.py:127-134. -/
def Circuit.depth (c : Circuit R) : Int :=
  let depth : Int := (c.flow.moments.length : Int) - 1
  if (c.flow.moments.getLast?.getD []).any (·.isMeas) then depth - 1 else depth

/-- Gate kinds of `get_circuit_info()['details']`. -/
inductive Kind where | h | x | z | cx | toffoli | arbitary
  deriving DecidableEq, Repr

/-- quantum_circuit.py:534-545: which counter an operator increments. -/
def GateObj.kind : GateObj R → Option Kind
  | .x .. => some .x
  | .h .. => some .h
  | .z .. => some .z
  | .cx .. => some .cx
  | .toffoli .. => some .toffoli
  | .arb .. => some .arbitary
  | _ => none

/-- quantum_circuit.py:511-562: the returned dictionary. -/
structure Info where
  depth : Int
  gateCount : Nat
  details : List (Kind × Nat)
  qudit : Nat
  deriving DecidableEq, Repr

/-- quantum_circuit.py:546-549: the `depth` adjustment inside the loop over one moment. -/
def infoDepthMoment (qudit : Nat) (depth : Int) (m : List (GateObj R)) : Int :=
  (m.foldl (fun (st : Nat × Int) g =>
    if g.isMeas then (st.1 + 1, if st.1 + 1 = qudit then st.2 - 1 else st.2) else st) (0, depth)).2

/-- quantum_circuit.py:519-526, 555-558: order of the counters; zero ones are removed. -/
def Kind.order : List Kind := [.h, .x, .z, .cx, .toffoli, .arbitary]

/-- quantum_circuit.py:511-562 `get_circuit_info`. -/
def Circuit.info (c : Circuit R) : Info :=
  let qudit := c.qregs.seq.length
  let moments := c.flow.moments
  let depth := moments.foldl (infoDepthMoment qudit) ((moments.length : Int) - 1)
  let count := fun k => (moments.flatten.filter fun g => g.kind = some k).length
  let details := (Kind.order.map fun k => (k, count k)).filter fun p => p.2 ≠ 0
  { depth := depth, gateCount := (details.map (·.2)).sum, details := details, qudit := qudit }

end

end QuDiet
