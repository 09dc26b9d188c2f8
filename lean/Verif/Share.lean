import Verif.Objects
import Verif.Moments

/-!
# Layers made by hand, as objects

`Moments.lean` treats the layers that a user makes and hands to a circuit as values. Here they are `Moment`
objects in the memory of `Objects.lean`: the user keeps a reference to them, can hand the same object over
several times, to the same circuit or to different ones, and can take layers out of one circuit
(`op_flow.peek()`) and hand them to another.
-/

namespace QuDiet

section
variable {R : Type}

/-! ### Handing layers over -/

/-- operator_flow.py:231-241 `__detect_measurement_and_add_count` for a moment of any length, as `detectAny`. -/
def detectAnyObj (i : Nat) : List (GateObj R × Nat) → Act R Unit
  | [] => pure ()
  | (g, j) :: gs =>
    if g.isMeas then do
      let o ← circ i
      if j < o.measCount.length then do
        setCirc i fun o => { o with measCount := o.measCount.set j 1 }
        detectAnyObj i gs
      else Act.raise .index
    else detectAnyObj i gs

/-- operator_flow.py:216-219 and 227: append the object at address `m` itself, and count. -/
def addAnyObj (i m : Nat) : Act R Fed := do
  let o ← circ i
  setRefs o.opflow (· ++ [m])
  let cur ← momentList m
  detectAnyObj i cur.zipIdx
  pure .added

/-- operator_flow.py:157-227: one round of the loop over the arguments of `populate_opflow_test`. -/
def feedOneObj (i m : Nat) : Act R Fed := do
  let o ← circ i
  let cur ← momentList m
  let l ← refList o.opflow
  match l.getLast? with
  | none => do
    -- lines 221-227
    setCirc i fun o => { o with measCount := List.replicate cur.length 0 }
    addAnyObj i m
  | some last =>
    -- lines 161-162
    if o.measCount.all (· ≠ 0) then pure .refused
    else
      -- lines 169-178
      match cur.find? (·.isHXZ) with
      | none => addAnyObj i m
      | some g => do
        -- lines 193-197
        let gs ← momentList last
        -- lines 198-200
        let acting ← Act.lift g.actingOn
        let (q, gateQreg) := match acting with
          | .int q => (q, [q])
          | .list qs => (0, qs)
        -- line 201
        if gateQreg.all (· ∈ identRegs gs) then do
          -- lines 202-207
          let added ← replaceObj last q g
          if added then pure .joined else addAnyObj i m
        else addAnyObj i m

/-- operator_flow.py:68-74, 150-229 `populate_opflow(*args)` with the objects at these addresses. -/
def feedObj (i : Nat) : List Nat → Act R Bool
  | [] => pure true
  | m :: ms => do
    match ← feedOneObj i m with
    | .refused => pure false
    | .joined => pure true
    | .added => feedObj i ms

variable [CommRing R] [StarRing R] [DecidableEq R] [UnitaryCheck R]

/-! ### Execution -/

/-- operator_flow.py:267-281 for any moments, newest first, as `flowLoopAny`. -/
def loopAnyObj (N : Numerics R) (B : Backend R) : List Nat → Option B.M → Act R (Option B.M)
  | [], acc => pure acc
  | m :: ms, acc => do
    let gs ← momentList m
    let k ← Act.lift (momentExecAny N B gs)
    match acc, k with
    | none, k => loopAnyObj N B ms k
    | some _, none => Act.raise .type
    | some d, some k => do
      let p ← Act.lift (B.dot d k)
      loopAnyObj N B ms (some p)

/-- operator_flow.py:243-284 `OperatorFlow.exec` for circuits with any moments. -/
def execAnyObj (N : Numerics R) (B : Backend R) (i : Nat) : Act R (Option B.M) := do
  let o ← circ i
  -- line 253: `self._opflow_list.copy()`
  let l ← refList o.opflow
  let a ← newRefs l
  -- lines 255-258
  if o.measCount.all (· ≠ 0) then do
    if (← refList a).isEmpty then Act.raise .index
    else do
      setRefs a List.dropLast
      -- lines 261-284
      let all ← refList a
      loopAnyObj N B all.reverse none
  else Act.raise .assertion

/-- quantum_circuit.py:382-389 `run` for circuits with any moments. -/
def runAnyObj (N : Numerics R) (B : Backend R) (i : Nat) : Act R (List (Key × R)) := do
  match ← execAnyObj N B i with
  | none => Act.raise .attribute
  | some m => do
    let r ← look i fun c => c.output.call (B.toarray m)
    setCirc i fun o => { o with circuitOutput := some r }
    pure r

end

/-! ### Sessions -/

/-- A layer that the user can name: one they made (in order of creation), or
`qc.op_flow.peek()[p]` of the circuit at address `i`. -/
inductive LayerRef where
  | made (a : Nat)
  | own (i p : Nat)
  deriving DecidableEq, Repr

/-- One statement of a session with layers. -/
inductive Action (R : Type) where
  | plain (e : Event R)
  /-- `Moment("", *gs)` (moment.py:40-64) -/
  | layer (gs : List (GateObj R))
  /-- `peek_list()` of a layer (moment.py:151-157) -/
  | peekLayer (a : Nat)
  /-- `qc.op_flow.populate_opflow(*layers)` on the circuit at address `i` -/
  | hand (i : Nat) (as : List LayerRef)

/-- What the user sees of one statement. -/
inductive Sight (R : Type) where
  | plain (o : Obs R)
  | gates (l : List (GateObj R))

/-- The memory, and the addresses of the layers that the user made. -/
structure Bench (R : Type) where
  world : World R
  made : List Nat

/-- Before the first statement. -/
def Bench.empty {R : Type} : Bench R := ⟨World.empty, []⟩

section
variable {R : Type} [CommRing R] [StarRing R] [DecidableEq R] [UnitaryCheck R]

/-- The address of a layer. -/
def Bench.find (b : Bench R) : LayerRef → Option Nat
  | .made a => b.made[a]?
  | .own i p => b.world.circs[i]?.bind fun o => (b.world.refs.getD o.opflow [])[p]?

/-- One statement: what is seen, and the memory afterwards. `run()` is the one for any moments. -/
def Bench.step (N : Numerics R) (B : Backend R) (b : Bench R) : Action R → Sight R × Bench R
  | .plain (.run i) =>
    if i < b.world.circs.length then
      let r := runAnyObj N B i b.world
      (.plain (.result r.1), { b with world := r.2 })
    else (.plain .undefined, b)
  | .plain e =>
    let r := b.world.step N B e
    (.plain r.1, { b with world := r.2 })
  | .layer gs => (.plain .unit,
      ⟨{ b.world with moms := b.world.moms ++ [gs] }, b.made ++ [b.world.moms.length]⟩)
  | .peekLayer a => match b.made[a]? with
    | some m => (.gates (b.world.moms.getD m []), b)
    | none => (.plain .undefined, b)
  | .hand i as => match as.mapM b.find with
    | some ms =>
      if i < b.world.circs.length then
        let r := feedObj i ms b.world
        (.plain (.ret r.1), { b with world := r.2 })
      else (.plain .undefined, b)
    | none => (.plain .undefined, b)

/-- What is seen during a session. -/
def Bench.observe (N : Numerics R) (B : Backend R) (b : Bench R) : List (Action R) → List (Sight R)
  | [] => []
  | e :: es => (b.step N B e).1 :: Bench.observe N B (b.step N B e).2 es

/-! ### Specification -/

/-- The statements without layers. -/
def plains (es : List (Action R)) : List (Event R) :=
  es.filterMap fun e => match e with
    | .plain e => some e
    | _ => none

/-- The layers that the user makes, in order. -/
def layersMade (es : List (Action R)) : List (List (GateObj R)) :=
  es.filterMap fun e => match e with
    | .layer gs => some gs
    | _ => none

/-- The layers handed over, in order and with repetitions. -/
def layersHanded (es : List (Action R)) : List LayerRef :=
  es.flatMap fun e => match e with
    | .hand _ as => as
    | _ => []

/-- The user is careful with layers: they only hand over layers they made, and a layer with an idle register
(an `IGate`) is handed over at most once, and not looked at if it is handed over. -/
structure Careful (es : List (Action R)) : Prop where
  made : ∀ r ∈ layersHanded es, ∃ a, r = .made a
  once : ∀ a gs, (layersMade es)[a]? = some gs → (∃ g ∈ gs, g.isIdent = true) →
    (layersHanded es).count (.made a) ≤ 1
  look : ∀ a gs, (layersMade es)[a]? = some gs → (∃ g ∈ gs, g.isIdent = true) →
    .made a ∈ layersHanded es → .peekLayer a ∉ es

end

end QuDiet
