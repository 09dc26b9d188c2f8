import Verif.Semantics

/-!
# Layers made by hand

Besides calling gate methods, a user can build `Moment`s from gate objects and hand several of them to the
`OperatorFlow` of a circuit (`qc.op_flow.populate_opflow(m1, m2, ...)`). Each `Moment` object is used once
(sharing one between circuits is in `Share`). Measuring through such layers is at the end of the model part.
-/

namespace QuDiet

variable {R : Type}

/-- What becomes of one `Moment` in the loop of `populate_opflow_test`. -/
inductive Fed where
  /-- line 207: a gate went into the newest moment; `break` leaves the loop over the arguments -/
  | joined
  /-- lines 215-219 or 225: the moment was appended -/
  | added
  /-- line 162: all registers are measured -/
  | refused
  deriving DecidableEq, Repr

/-- operator_flow.py:231-241 `__detect_measurement_and_add_count` for a moment of any length:
`IndexError` for a measurement at a position without an entry, earlier entries stay changed. -/
def detectAny : List Nat → List (GateObj R × Nat) → List Nat × PyM Unit
  | mc, [] => (mc, .ok ())
  | mc, (g, i) :: gs =>
    if g.isMeas then
      if i < mc.length then detectAny (mc.set i 1) gs else (mc, .error .index)
    else detectAny mc gs

/-- operator_flow.py:216-219 and 227: append and count. -/
def Flow.addAny (f : Flow R) (mc : List Nat) (cur : List (GateObj R)) : Flow R × PyM Fed :=
  match detectAny mc cur.zipIdx with
  | (mc', .ok ()) => ({ moments := f.moments ++ [cur], measCount := mc' }, .ok .added)
  | (mc', .error e) => ({ moments := f.moments ++ [cur], measCount := mc' }, .error e)

/-- operator_flow.py:157-227: one round of the loop over the arguments of `populate_opflow_test`, with
the effects that an exception leaves behind. -/
def Flow.feedOne (f : Flow R) (cur : List (GateObj R)) : Flow R × PyM Fed :=
  match f.moments.getLast? with
  -- lines 221-227
  | none => f.addAny (List.replicate cur.length 0) cur
  | some last =>
    -- lines 161-162
    if f.measCount.all (· ≠ 0) then (f, .ok .refused)
    else
      -- lines 169-178
      match cur.find? (·.isHXZ) with
      | none => f.addAny f.measCount cur
      | some g =>
        -- lines 198-200
        match g.actingOn with
        | .error e => (f, .error e)
        | .ok a =>
          let (q, gateQreg) := match a with
            | .int q => (q, [q])
            | .list qs => (0, qs)
          -- line 201
          if gateQreg.all (· ∈ identRegs last) then
            -- lines 202-207
            match replaceIgate last q g with
            | .error e => (f, .error e)
            | .ok (last', true) => ({ f with moments := f.moments.dropLast ++ [last'] }, .ok .joined)
            | .ok (_, false) => f.addAny f.measCount cur
          else f.addAny f.measCount cur

/-- operator_flow.py:68-74, 150-229 `populate_opflow(*args)`. -/
def Flow.feed (f : Flow R) : List (List (GateObj R)) → Flow R × PyM Bool
  | [] => (f, .ok true)
  | cur :: rest =>
    match f.feedOne cur with
    | (f', .error e) => (f', .error e)
    | (f', .ok .refused) => (f', .ok false)
    | (f', .ok .joined) => (f', .ok true)
    | (f', .ok .added) => f'.feed rest

/-- `qc.op_flow.populate_opflow(*args)`. -/
def Circuit.feed (c : Circuit R) (ms : List (List (GateObj R))) : Circuit R × PyM Bool :=
  ({ c with flow := (c.flow.feed ms).1 }, (c.flow.feed ms).2)

/-- Several such statements, carrying on after exceptions: the circuit afterwards and the answers. -/
def Circuit.feeds (c : Circuit R) : List (List (List (GateObj R))) → Circuit R × List (PyM Bool)
  | [] => (c, [])
  | ms :: rest =>
    let r := (c.feed ms).1.feeds rest
    (r.1, (c.feed ms).2 :: r.2)

section
variable [CommRing R]

/-- The gate object for a call, as the user writes it for registers of dimensions `dims`:
`HGate(qreg, dims)` (h.py:38), `XGate(qreg, dims, plus)` (x.py:37), `ZGate` (z.py:36),
`CXGate(qreg=dims[lo:hi+1], acting_on=(ctl, tgt), plus)` (cx.py:39), `Toffoli(dims, qreg=(ctls, tgt), plus)`
(toffoli_utility.py:79-85), and the user's subclass of `ArbitaryGate` (circuit_library/__init__.py:39-51). -/
def Call.op (dims : List Nat) : Call R → PyM (GateObj R)
  | .h q k => .ok (.h q (if k.getD 0 = 0 then dimAt dims q else k.getD 0))
  | .x q k p => .ok (.x q (if k.getD 0 = 0 then dimAt dims q else k.getD 0) p)
  | .z q k => .ok (.z q (if k.getD 0 = 0 then dimAt dims q else k.getD 0))
  | .cx c t p => .ok (.cx (if c < t then pySlice dims c (t + 1) else pySlice dims t (c + 1)) c t p)
  | .toffoli cs t p => do
    let (U, lb, ub, ds) ← toffoliDm cs t p dims
    .ok (.toffoli cs t (pyRange lb (ub + 1)) ds U p)
  | .gate U (.int q) k => .ok (.arb (.int q) (.int (if k.getD 0 = 0 then dimAt dims q else k.getD 0)) U)
  | .gate U (.list qs) k =>
    .ok (.arb (.list qs) (if k.getD 0 = 0 then .list (qs.map (dimAt dims)) else .int (k.getD 0)) U)
  | .measure _ => .error .notImplemented
  | .measureAll => .error .notImplemented

/-- Identity operators on registers `a, …, b-1`: `IGate(qreg=r, dims=dims[r])` (i.py:35). -/
def idle (dims : List Nat) (a b : Nat) : List (GateObj R) :=
  (List.range' a (b - a)).map fun r => .ident r (dims.getD r 0)

/-- The operators of a layer made by hand from register `off` on: the given gates, which must be in the
order of their registers, with identity operators on all registers in between. -/
def layerFrom (dims : List Nat) : Nat → List (Call R) → PyM (List (GateObj R))
  | off, [] => .ok (idle dims off dims.length)
  | off, k :: ks => do
    let g ← k.op dims
    let rest ← layerFrom dims ((spanOf k.regs).1 + (spanOf k.regs).2) ks
    .ok (idle dims off (spanOf k.regs).1 ++ g :: rest)

variable [StarRing R] [DecidableEq R] [UnitaryCheck R]

/-- A user's script: construct a circuit, hand it layers (one list for each call of `populate_opflow`),
`measure_all()` and `run()`. -/
def handmade (N : Numerics R) (B : Backend R) (qregs : RegsArg) (init : List Int) (out : Option Output)
    (groups : List (List (List (GateObj R)))) : PyM (List (PyM Bool) × List (Key × R)) := do
  let c ← Circuit.new qregs init out
  let (c, answers) := c.feeds groups
  let r ← ((c.calls [.measureAll]).run N B).2
  .ok (answers, r)

/-! ### Measuring by hand -/

/-- moment.py:199-213 `Moment.exec` for any moment: the matrix of a lone `Measurement` is `None`
(measurement.py:53-58), which is only returned, no backend operation sees it. -/
def momentExecAny (N : Numerics R) (B : Backend R) : List (GateObj R) → PyM (Option B.M)
  | [.meas _] => .ok none
  | m => do .ok (some (← momentExec N B m))

/-- operator_flow.py:267-281 for any moments, newest first: a moment that gives `None` is passed over as long
as there is no product yet (lines 274-275), later `backend.dot` raises. -/
def flowLoopAny (N : Numerics R) (B : Backend R) :
    List (List (GateObj R)) → Option B.M → PyM (Option B.M)
  | [], acc => .ok acc
  | m :: ms, acc => do
    match acc, ← momentExecAny N B m with
    | none, k => flowLoopAny N B ms k
    | some _, none => .error .type
    | some d, some k => do
      let p ← B.dot d k
      flowLoopAny N B ms (some p)

/-- operator_flow.py:243-284 `OperatorFlow.exec` and quantum_circuit.py:382-389 `run` (the returned value) for
circuits with any moments; `Circuit.run` is the same for circuits without a lone `Measurement`. -/
def Circuit.runAny (N : Numerics R) (B : Backend R) (c : Circuit R) : PyM (List (Key × R)) :=
  if c.flow.measCount.all (· ≠ 0) then
    if c.flow.moments.isEmpty then .error .index
    else do
      match ← flowLoopAny N B c.flow.moments.dropLast.reverse none with
      | none => .error .attribute
      | some m => c.output.call (B.toarray m)
  else .error .assertion

/-- What a user does with a circuit: call a method, or hand over layers in one call of `populate_opflow`. -/
inductive Deed (R : Type) where
  | call (k : Call R)
  | hand (ms : List (List (GateObj R)))

/-- The circuit after a deed; an exception is caught by the user, who carries on. -/
def Circuit.deed (c : Circuit R) : Deed R → Circuit R
  | .call k => (c.call k).1
  | .hand ms => (c.feed ms).1

/-- The circuit after several deeds. -/
def Circuit.deeds (c : Circuit R) (ds : List (Deed R)) : Circuit R := ds.foldl Circuit.deed c

end

/-! ### Specification -/

section
variable [CommRing R]

/-- There is a measurement at position `i` of the layer. -/
def MeasAt (m : List (GateObj R)) (i : Nat) : Prop := ∃ g, m[i]? = some g ∧ g.isMeas = true

/-- The deed measures registers `0, …, n-1` at once. -/
def Deed.measuresAll (n : Nat) : Deed R → Prop
  | .call .measureAll => True
  | .call _ => False
  | .hand ms => ∃ m ∈ ms, ∀ i < n, MeasAt m i

/-- The deed hands over a layer that is nothing but one measurement. -/
def Deed.lone : Deed R → Prop
  | .call _ => False
  | .hand ms => ∃ q, [.meas q] ∈ ms

/-- The gates are in the order of their registers and no two share a register. -/
def Ascending : Nat → List (Call R) → Prop
  | _, [] => True
  | off, k :: ks => off ≤ (spanOf k.regs).1 ∧ Ascending ((spanOf k.regs).1 + (spanOf k.regs).2) ks

/-- Register `r` lies between registers that the call names. -/
def Call.covers (k : Call R) (r : Nat) : Prop :=
  (spanOf k.regs).1 ≤ r ∧ r < (spanOf k.regs).1 + (spanOf k.regs).2

instance (k : Call R) (r : Nat) : Decidable (k.covers r) := inferInstanceAs (Decidable (_ ∧ _))

/-- The registers of `k` are idle in the newest layer, given by its gates; `none`: nothing has been added
yet, the newest layer prepares the registers, and none is idle. -/
def Room (newest : Option (List (Call R))) (k : Call R) : Prop :=
  ∃ L, newest = some L ∧ ∀ q ∈ k.regs, ∀ k' ∈ L, ¬ k'.covers q.toNat

instance (newest : Option (List (Call R))) (k : Call R) : Decidable (Room newest k) :=
  match newest with
  | none => .isFalse (by rintro ⟨L, h, _⟩; cases h)
  | some L => decidable_of_iff (∀ q ∈ k.regs, ∀ k' ∈ L, ¬ k'.covers q.toNat)
      ⟨fun h => ⟨L, rfl, h⟩, by rintro ⟨L', h, h'⟩; cases h; exact h'⟩

/-- Which gates of the layers take effect that are handed over in one call of `populate_opflow`, and the
newest layer afterwards. If there is room in the newest layer for the first `h`, `x` or `z` of a layer, that
gate alone is moved there, the other gates of its layer and all further layers are dropped. -/
def taken : Option (List (Call R)) → List (List (Call R)) → List (Call R) × Option (List (Call R))
  | newest, [] => ([], newest)
  | newest, L :: rest =>
    match L.find? (·.isHXZ) with
    | some k =>
      if Room newest k then ([k], newest.map (· ++ [k]))
      else (L ++ (taken (some L) rest).1, (taken (some L) rest).2)
    | none => (L ++ (taken (some L) rest).1, (taken (some L) rest).2)

/-- The same for several calls of `populate_opflow`. -/
def takenAll : Option (List (Call R)) → List (List (List (Call R))) → List (Call R)
  | _, [] => []
  | newest, group :: groups => (taken newest group).1 ++ takenAll (taken newest group).2 groups

end

end QuDiet
