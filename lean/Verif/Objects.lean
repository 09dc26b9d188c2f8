import Verif.Semantics

/-!
# Objects and aliasing

`Circuit.lean` treats a circuit as a value. Here the same methods are modelled on mutable objects, one
statement at a time: the caller's lists, the `_opflow_list` list objects and the `Moment` objects live in
arenas and are shared by reference, an exception keeps every change made before it was raised, and several
circuits share one world. Addresses of lists and moments that nobody refers to any more are simply left
behind (there is no garbage collection).
-/

namespace QuDiet

/-- The `qregs` argument by reference: the tuple `(n, d)`, or the address of the caller's list. -/
inductive RegsRef where
  | tuple (n : Nat) (d : Int)
  | list (a : Nat)
  deriving DecidableEq, Repr

/-- A `QuantumCircuit` object (quantum_circuit.py:59-123). `self.qregs` is the caller's object, and for a
list `self._reg_dims` is that same object (line 118). `opflow` is the address of `op_flow._opflow_list`.
`output = none` is the default processor, whose `base` is the caller's `qregs` object (lines 90-93). The
measurement count list is never shared and is kept as a field. -/
structure CircObj (R : Type) where
  regs : RegsRef
  regLength : Nat
  opflow : Nat
  measCount : List Nat
  output : Option Output
  circuitOutput : Option (List (Key × R))

/-- The memory of one Python session. -/
structure World (R : Type) where
  /-- the caller's lists of integers -/
  ints : List (List Int)
  /-- list objects holding references to moments -/
  refs : List (List Nat)
  /-- `Moment` objects: their `_moment_list` -/
  moms : List (List (GateObj R))
  /-- `QuantumCircuit` objects -/
  circs : List (CircObj R)

/-- The memory before the first statement. -/
def World.empty {R : Type} : World R := ⟨[], [], [], []⟩

/-- A statement: it may raise, and keeps what it changed so far. -/
def Act (R α : Type) : Type := World R → PyM α × World R

instance {R : Type} : Monad (Act R) where
  pure a := fun w => (.ok a, w)
  bind x f := fun w => match x w with
    | (.ok a, w') => f a w'
    | (.error e, w') => (.error e, w')

section
variable {R : Type}

/-- A computation without effects. -/
def Act.lift {α : Type} (x : PyM α) : Act R α := fun w => (x, w)

/-- `raise`. -/
def Act.raise {α : Type} (e : Err) : Act R α := fun w => (.error e, w)

/-- Attribute access on the circuit object at address `i` (`NameError` is not modelled: an event on a
circuit that does not exist is ignored, see `Event`). -/
def circ (i : Nat) : Act R (CircObj R) := fun w =>
  match w.circs[i]? with
  | some o => (.ok o, w)
  | none => (.error .attribute, w)

/-- Attribute update on the circuit object. -/
def setCirc (i : Nat) (f : CircObj R → CircObj R) : Act R Unit := fun w =>
  (.ok (), { w with circs := w.circs.modify i f })

/-- Contents of the caller's list at address `a`. -/
def intList (a : Nat) : Act R (List Int) := fun w => (.ok (w.ints.getD a []), w)

/-- `list.extend` in place. -/
def extendInts (a : Nat) (l : List Int) : Act R Unit := fun w =>
  (.ok (), { w with ints := w.ints.modify a (· ++ l) })

/-- Contents of a list of moments. -/
def refList (a : Nat) : Act R (List Nat) := fun w => (.ok (w.refs.getD a []), w)

/-- In-place change of a list of moments. -/
def setRefs (a : Nat) (f : List Nat → List Nat) : Act R Unit := fun w =>
  (.ok (), { w with refs := w.refs.modify a f })

/-- A new list object. -/
def newRefs (l : List Nat) : Act R Nat := fun w =>
  (.ok w.refs.length, { w with refs := w.refs ++ [l] })

/-- `_moment_list` of the moment at address `m`. -/
def momentList (m : Nat) : Act R (List (GateObj R)) := fun w => (.ok (w.moms.getD m []), w)

/-- `self._moment_list[index] = gate_obj` (moment.py:146). -/
def setMoment (m j : Nat) (g : GateObj R) : Act R Unit := fun w =>
  (.ok (), { w with moms := w.moms.modify m (·.set j g) })

/-- `Moment(...)`: a new object. -/
def newMoment (gs : List (GateObj R)) : Act R Nat := fun w =>
  (.ok w.moms.length, { w with moms := w.moms ++ [gs] })

/-! ### Reading a circuit -/

/-- The register argument as a value, in the present memory. -/
def RegsRef.read (w : World R) : RegsRef → RegsArg
  | .tuple n d => .tuple n d
  | .list a => .list (w.ints.getD a [])

/-- The circuit as a value, in the present memory: what its attributes and the objects they refer to
contain. -/
def CircObj.read (w : World R) (o : CircObj R) : Circuit R where
  qregs := (o.regs.read w).toRegs
  regLength := o.regLength
  regDims := (o.regs.read w).dims.map Int.toNat
  flow := { moments := (w.refs.getD o.opflow []).map fun m => w.moms.getD m [], measCount := o.measCount }
  output := o.output.getD { base := (o.regs.read w).toRegs.seq, type := .print, method := .amplitude }
  circuitOutput := o.circuitOutput

/-- The circuit at address `i`. -/
def World.view (w : World R) (i : Nat) : Option (Circuit R) := w.circs[i]?.map (·.read w)

/-- Read-only use of the circuit at address `i`, for the parts of a method that change nothing. -/
def look {α : Type} (i : Nat) (f : Circuit R → PyM α) : Act R α := fun w =>
  match w.view i with
  | some c => (f c, w)
  | none => (.error .attribute, w)

/-! ### Adding moments -/

/-- operator_flow.py:231-241 `__detect_measurement_and_add_count`. -/
def detectObj (i : Nat) (m : Nat) : Act R Unit := do
  let cur ← momentList m
  cur.zipIdx.foldlM (fun _ gi =>
    if gi.1.isMeas then setCirc i fun o => { o with measCount := o.measCount.set gi.2 1 } else pure ()) ()

/-- moment.py:135-149 `replace_igate(gate_obj)` on the moment at address `m`. -/
def replaceObj (m : Nat) (q : Int) (g : GateObj R) : Act R Bool := do
  let gs ← momentList m
  match ← Act.lift (getQregMoment q gs 0) with
  | none => Act.raise .type
  | some (g', j) =>
    if g'.isIdent then do
      setMoment m j g
      pure true
    else pure false

/-- operator_flow.py:215-219, 227 (the `prev`/`next` pointers are never read). -/
def appendObj (i m : Nat) : Act R Bool := do
  let o ← circ i
  setRefs o.opflow (· ++ [m])
  detectObj i m
  pure true

/-- operator_flow.py:150-229 `populate_opflow_test` with the moment at address `m`. -/
def populateObj (i m : Nat) : Act R Bool := do
  let o ← circ i
  let cur ← momentList m
  let l ← refList o.opflow
  match l.getLast? with
  | none => do
    -- lines 221-227
    setCirc i fun o => { o with measCount := List.replicate cur.length 0 }
    appendObj i m
  | some last =>
    -- lines 161-162
    if o.measCount.all (· ≠ 0) then pure false
    else
      -- lines 169-178
      match cur.find? (·.isHXZ) with
      | none => appendObj i m
      | some g => do
        -- lines 193-197
        let gs ← momentList last
        -- lines 198-200
        let acting ← Act.lift g.actingOn
        let (q, gateQreg) := match acting with
          | .int q => (q, [q])
          | .list qs => (0, qs)
        -- line 201
        if gateQreg.all (· ∈ identRegs gs) then do
          -- lines 202-207
          let added ← replaceObj last q g
          if added then pure true else appendObj i m
        else appendObj i m

/-- quantum_circuit.py:162-197 `__add_moment_to_opflow`. -/
def addMomentObj (i : Nat) (q : RegArg) (g : GateObj R) : Act R Bool := do
  let data ← look i fun c => c.momentData q g
  let m ← newMoment data
  populateObj i m

variable [CommRing R]

/-- quantum_circuit.py:199-361: the methods, on the circuit at address `i`. -/
def callObj (i : Nat) : Call R → Act R Bool
  -- lines 199-212
  | .h q dims => do
    look i fun c => c.validate q dims
    let d ← look i fun c => c.gateDims q dims
    addMomentObj i (.int q) (.h q d)
  -- lines 214-230
  | .x q dims plus => do
    look i fun c => c.validate q dims
    let d ← look i fun c => c.gateDims q dims
    addMomentObj i (.int q) (.x q d plus)
  -- lines 232-245
  | .z q dims => do
    look i fun c => c.validate q dims
    let d ← look i fun c => c.gateDims q dims
    addMomentObj i (.int q) (.z q d)
  -- lines 287-312
  | .cx ctl tgt plus => do
    let active ← look i fun c => .ok (if ctl < tgt then pySlice c.regDims ctl (tgt + 1)
      else pySlice c.regDims tgt (ctl + 1))
    addMomentObj i (.list [ctl, tgt]) (.cx active ctl tgt plus)
  -- lines 247-285
  | .toffoli ctls tgt plus => do
    let (U, lb, ub, ds) ← look i fun c => toffoliDm ctls tgt plus c.qregs.seq
    let acting := pyRange lb (ub + 1)
    let _ ← addMomentObj i (.list acting) (.toffoli ctls tgt acting ds U plus)
    pure true
  -- lines 314-333
  | .gate U (.int q) dims => do
    look i fun c => c.validate q dims
    let d ← look i fun c => c.gateDims q dims
    addMomentObj i (.int q) (.arb (.int q) (.int d) U)
  | .gate U (.list qs) dims => do
    look i fun c => qs.forM fun q => c.validate q dims
    let d : DimArg ← match dims with
      | some (k + 1) => pure (.int (k + 1))
      | _ => do pure (.list (← look i fun c => qs.mapM (pyGet c.regDims)))
    addMomentObj i (.list qs) (.arb (.list qs) d U)
  -- lines 335-343
  | .measure _ => Act.raise .notImplemented
  -- lines 345-361
  | .measureAll => do
    let o ← circ i
    let m ← newMoment ((List.range o.regLength).map .meas)
    let _ ← populateObj i m
    pure true

/-! ### Construction -/

/-- quantum_circuit.py:112-118: the list of dimensions, in the present memory. -/
def readDims (q : RegsRef) : Act R (List Int) := fun w => (.ok (q.read w).dims, w)

/-- A new circuit object. -/
def newCirc (o : CircObj R) : Act R Nat := fun w =>
  (.ok w.circs.length, { w with circs := w.circs ++ [o] })

/-- quantum_circuit.py:60-123 `QuantumCircuit.__init__`, with the address of the caller's `init_states`
list (`none` when the argument is omitted). Returns the address of the circuit. The object is entered in
the arena once `__initialize_states` can no longer raise: after an exception nobody holds it. -/
def newObj (q : RegsRef) (init : Option Nat) (out : Option Output) : Act R Nat := do
  let dims ← readDims q
  -- line 102: `init_states or []` keeps the caller's object unless it is empty
  let given ← match init with
    | none => pure []
    | some a => intList a
  -- lines 120-121
  let pad := List.replicate (dims.length - given.length) 0
  match init, given with
    | some a, _ :: _ => extendInts a pad
    | _, _ => pure ()
  let states := given ++ pad
  -- lines 116-118 for a list: `_reg_dims` is the caller's object
  let dims ← readDims q
  -- lines 363-380
  let gs ← Act.lift (initMoment dims states)
  let f ← newRefs []
  let i ← newCirc ⟨q, dims.length, f, [0], out, none⟩
  let m ← newMoment gs
  let _ ← populateObj i m
  pure i

/-! ### Execution -/

variable [StarRing R] [DecidableEq R] [UnitaryCheck R]

/-- operator_flow.py:267-281: the loop over the moments, newest first. -/
def loopObj (N : Numerics R) (B : Backend R) : List Nat → Option B.M → Act R (Option B.M)
  | [], acc => pure acc
  | m :: ms, acc => do
    let gs ← momentList m
    let k ← Act.lift (momentExec N B gs)
    match acc with
    | none => loopObj N B ms (some k)
    | some d => do
      let p ← Act.lift (B.dot d k)
      loopObj N B ms (some p)

/-- operator_flow.py:243-284 `OperatorFlow.exec`. -/
def execObj (N : Numerics R) (B : Backend R) (i : Nat) : Act R (Option B.M) := do
  let o ← circ i
  -- line 253: `self._opflow_list.copy()`
  let l ← refList o.opflow
  let a ← newRefs l
  -- lines 255-258
  if o.measCount.all (· ≠ 0) then do
    if (← refList a).isEmpty then Act.raise .index
    else do
      setRefs a List.dropLast
      -- lines 261-284
      let all ← refList a
      loopObj N B all.reverse none
  else Act.raise .assertion

/-- quantum_circuit.py:382-389 `run`. -/
def runObj (N : Numerics R) (B : Backend R) (i : Nat) : Act R (List (Key × R)) := do
  match ← execObj N B i with
  | none => Act.raise .attribute
  | some m => do
    let r ← look i fun c => c.output.call (B.toarray m)
    setCirc i fun o => { o with circuitOutput := some r }
    pure r

end

/-! ### Sessions -/

/-- One statement of a session. Circuits and lists are named by the order of their creation. -/
inductive Event (R : Type) where
  /-- the caller makes a list -/
  | list (l : List Int)
  /-- the caller looks at their list -/
  | peek (a : Nat)
  /-- the caller changes their list in place (`lst[:] = l`; any `append`, `pop`, `sort`, … comes to this) -/
  | put (a : Nat) (l : List Int)
  /-- `QuantumCircuit(qregs, init_states=..., output=...)` -/
  | new (q : RegsRef) (init : Option Nat) (out : Option Output)
  /-- a gate or measurement method -/
  | call (i : Nat) (k : Call R)
  /-- `run()` -/
  | run (i : Nat)
  /-- `get_circuit_config()` -/
  | config (i : Nat)
  /-- `get_circuit_info()` -/
  | info (i : Nat)

/-- What the caller sees of one statement. -/
inductive Obs (R : Type) where
  | unit
  | ints (l : List Int)
  | made (r : PyM Nat)
  | ret (r : PyM Bool)
  | result (r : PyM (List (Key × R)))
  | config (w : Width) (depth : Int)
  | info (x : Info)
  /-- there is no such circuit or list -/
  | undefined

section
variable {R : Type} [CommRing R] [StarRing R] [DecidableEq R] [UnitaryCheck R]

/-- The statement only names lists that exist. -/
def listsExist (n : Nat) (q : RegsRef) (init : Option Nat) : Bool :=
  (match q with
    | .tuple _ _ => true
    | .list a => decide (a < n)) &&
  (match init with
    | none => true
    | some a => decide (a < n))

/-- One statement: what is seen, and the memory afterwards. -/
def World.step (N : Numerics R) (B : Backend R) (w : World R) : Event R → Obs R × World R
  | .list l => (.unit, { w with ints := w.ints ++ [l] })
  | .peek a => (.ints (w.ints.getD a []), w)
  | .put a l => if a < w.ints.length then (.unit, { w with ints := w.ints.set a l }) else (.undefined, w)
  | .new q init out => if listsExist w.ints.length q init then let r := newObj q init out w; (.made r.1, r.2)
    else (.undefined, w)
  | .call i k => if i < w.circs.length then let r := callObj i k w; (.ret r.1, r.2) else (.undefined, w)
  | .run i => if i < w.circs.length then let r := runObj N B i w; (.result r.1, r.2) else (.undefined, w)
  | .config i => match w.view i with
    | some c => (.config c.width c.depth, w)
    | none => (.undefined, w)
  | .info i => match w.view i with
    | some c => (.info c.info, w)
    | none => (.undefined, w)

/-- What is seen during a session. -/
def World.observe (N : Numerics R) (B : Backend R) (w : World R) : List (Event R) → List (Obs R)
  | [] => []
  | e :: es => (w.step N B e).1 :: World.observe N B (w.step N B e).2 es

end

end QuDiet
