import Verif.Mat
import Verif.Radix

/-!
# Gate objects and their matrices

Models `src/qudiet/circuit_library/` and `src/qudiet/core/init_states.py`.
-/

namespace QuDiet

/-- What the numeric libraries supply: `roots d` is `np.roots` of the coefficient list of
`x^d - 1` (h.py:72-75, z.py:70-73) and `invSqrt d` is `1 / math.sqrt(d)` (h.py:82).
No law is built in; theorems state what they assume. -/
structure Numerics (R : Type) where
  roots : Nat → List R
  invSqrt : Nat → R

/-- A register argument: an `int`, or a list/tuple of `int`s. -/
inductive RegArg where
  | int (q : Int)
  | list (qs : List Int)
  deriving DecidableEq, Repr

/-- The `dims` attribute of a custom gate: an `int` or a list. -/
inductive DimArg where
  | int (d : Nat)
  | list (ds : List Nat)
  deriving DecidableEq, Repr

/-- The operator objects that a `Moment` holds. -/
inductive GateObj (R : Type) where
  /-- init_states.py:33-54 `InitState(dim, state, qreg)` -/
  | init (dim : Nat) (state : Int) (qreg : Nat)
  /-- i.py:35-44 `IGate(qreg, dims)` -/
  | ident (qreg : Nat) (dims : Nat)
  /-- h.py:38-47 `HGate(qreg, dims)` -/
  | h (qreg : Int) (dims : Nat)
  /-- x.py:37-47 `XGate(qreg, dims, plus)` -/
  | x (qreg : Int) (dims : Nat) (plus : Int)
  /-- z.py:36-45 `ZGate(qreg, dims)` -/
  | z (qreg : Int) (dims : Nat)
  /-- cx.py:39-60 `CXGate(qreg=active_qregs, acting_on=(ctl, tgt), plus)` -/
  | cx (qreg : List Nat) (ctl tgt : Int) (plus : Int)
  /-- toffoli_utility.py:79-85 `Toffoli`: `_unitary` is computed by the constructor -/
  | toffoli (ctls : List Int) (tgt : Int) (actingOn : List Int) (dims : List Nat) (U : Mat R)
      (plus : Int)
  /-- circuit_library/__init__.py:39-51 `ArbitaryGate` with the user's `_unitary` -/
  | arb (qreg : RegArg) (dims : DimArg) (U : Mat R)
  /-- measurement.py:32-34 `Measurement(qreg)` -/
  | meas (qreg : Nat)

section
variable {R : Type} [CommRing R]

/-- init_states.py:43-54: the checks of `InitState.__init__`. `dim < state or dim < 2` raises
`ValueError`; `self.init_state[state] = 1` raises `IndexError` outside `-dim..dim-1`. -/
def initState (dim state : Int) (qreg : Nat) : PyM (GateObj R) :=
  if dim < state ∨ dim < 2 then .error .value
  else match pyIndex dim.toNat state with
    | .ok _ => .ok (.init dim.toNat state qreg)
    | .error e => .error e

/-- init_states.py:50-51: the column vector `zeros((dim,1))` with a one at `state`. -/
def initVec (dim : Nat) (state : Int) : PyM (Mat R) :=
  match pyIndex dim state with
  | .ok k => .ok { rows := dim, cols := 1, e := fun i _ => if i = k then 1 else 0 }
  | .error e => .error e

/-- x.py:71-73: `zeros((dims,1))`, entry `plus` set to one (`IndexError` when out of range),
then `circulant`. -/
def xMat (dims : Nat) (plus : Int) : PyM (Mat R) :=
  match pyIndex dims plus with
  | .ok k => .ok (circulant ((List.replicate dims 0).set k 1))
  | .error e => .error e

/-- h.py:72-82. `np.delete(roots, len-1)` drops the last root; the circulant of the others is
bordered by a first row and a first column of ones and scaled. -/
def hMat (N : Numerics R) (dims : Nat) : Mat R :=
  let usable := (N.roots dims).dropLast
  let builder := circulant usable
  { rows := usable.length + 1, cols := usable.length + 1,
    e := fun i j =>
      N.invSqrt dims * (if j = 0 then 1 else if i = 0 then 1 else builder.e (i - 1) (j - 1)) }

/-- z.py:70-75: `diag` of the roots; `flipud` is applied twice. -/
def zMat (N : Numerics R) (dims : Nat) : Mat R :=
  diagMat (N.roots dims).reverse.reverse

/-- cx.py:141-159 `CXGate.update(index, row, plus, target, target_i)` for the (still untouched)
identity row number `i`: the row with a one where the table row `i`, with its target digit
incremented, is found. `np.where(row == 1)` finds `i` itself. If the lookup gave `None`,
`res[None] = 1` would fill the whole row with ones. -/
def cxUpdate (index : List (List Nat)) (i : Nat) (plus : Int) (target : Nat) (targetI : Nat) :
    Nat → R :=
  let src := index.getD i []
  let changeTo := (((src.getD targetI 0 : Int) + plus) % (target : Int)).toNat
  let trgt := src.set targetI changeTo
  match getIndex index trgt with
  | some k => fun j => if j = k then 1 else 0
  | none => fun _ => 1

/-- cx.py:92-132: the matrix `I` before the final transposition. The `_slice` computation of
lines 122-125 has no effect on the result and is omitted. -/
def cxRows (qreg : List Nat) (ctl tgt plus : Int) : PyM (Mat R) :=
  -- lines 97-102
  let sourceI : Int := if ctl < tgt then 0 else ctl - tgt
  let targetI : Int := if ctl < tgt then tgt - ctl else 0
  -- lines 106, 109
  match pyGet qreg sourceI with
  | .error e => .error e
  | .ok source =>
    match pyGet qreg targetI with
    | .error e => .error e
    | .ok target =>
      let dim := qreg.prod
      let index := ttg qreg
      -- lines 128-132
      .ok { rows := dim, cols := dim,
            e := fun i j =>
              if (index.getD i []).getD sourceI.toNat 0 + 1 = source then
                cxUpdate index i plus target targetI.toNat j
              else if i = j then 1 else 0 }

/-- toffoli_utility.py:49-63, 73-75: the number of the row that replaces row `idx` of the identity.
`sub` are the dimensions of the registers from `lb` on, `dt` is `dims[t]`. -/
def toffoliRow (ctls : List Int) (t plus lb : Int) (sub : List Nat) (dt : Nat)
    (indexes : List (List Nat)) (idx : Nat) : PyM Nat :=
  let row := indexes.getD idx []
  -- line 51: all controls at `max_cap`
  if ctls.all (fun c => row.getD (c - lb).toNat 0 + 1 == sub.getD (c - lb).toNat 0) then
    let tgtIndex := row.set (t - lb).toNat
      (((row.getD (t - lb).toNat 0 : Int) + plus) % (dt : Int)).toNat
    -- line 62: `indexes.index(tgt_index)`
    match getIndex indexes tgtIndex with
    | some k => .ok k
    | none => .error .value
  else .ok idx

/-- toffoli_utility.py:16-77 `toffoli_dm(qargs, plus, dims)`: matrix, `lb`, `ub`, and the slice of
dimensions `[dims[x] for x in range(lb, ub+1)]`. -/
def toffoliDm (ctls : List Int) (t : Int) (plus : Int) (dims : List Nat) :
    PyM (Mat R × Int × Int × List Nat) := do
  -- line 24
  let lb ← pyMin (ctls ++ [t])
  let ub ← pyMax (ctls ++ [t])
  -- lines 27, 30
  let sub ← (pyRange lb (ub + 1)).mapM (pyGet dims)
  let sizeExp := sub.prod
  -- line 34
  let indexes := generateCombinations sub
  -- line 60 (evaluated for each index; `dims[t]` is in range because `t` is between lb and ub)
  let dt ← pyGet dims t
  -- lines 49-63 and 73-75
  let repl ← (List.range sizeExp).mapM (toffoliRow ctls t plus lb sub dt indexes)
  -- line 77: transposed
  .ok ({ rows := sizeExp, cols := sizeExp,
         e := fun i j => if repl.getD j 0 = i then 1 else 0 }, lb, ub, sub)

/-- circuit_library/__init__.py:75-94 `ArbitaryGate.unitary` up to `backend.matrix`.
Line 85 compares the tuple `shape` with the list `dims`: never equal in Python. -/
def arbMat [StarRing R] [DecidableEq R] [UnitaryCheck R] (dims : DimArg) (U : Mat R) : PyM (Mat R) :=
  if !U.isUnitary then .error .exception
  else match dims with
    | .int d => if U.rows = d ∧ U.cols = d then .ok U else .error .assertion
    | .list [d] => if U.rows = d ∧ U.cols = d then .ok U else .error .assertion
    | .list [_, _] => .error .assertion
    | .list _ => .ok U

/-- The `unitary` property of each operator, through the backend. -/
def GateObj.unitary [StarRing R] [DecidableEq R] [UnitaryCheck R] (N : Numerics R) (B : Backend R) :
    GateObj R → PyM B.M
  -- init_states.py:54, 64-66
  | .init dim state _ => match initVec dim state with
    | .ok m => .ok (B.matrix m)
    | .error e => .error e
  -- i.py:68
  | .ident _ d => .ok (B.eye d)
  -- h.py:84
  | .h _ d => .ok (B.matrix (hMat N d))
  -- x.py:73
  | .x _ d plus => match xMat d plus with
    | .ok m => .ok (B.matrix m)
    | .error e => .error e
  -- z.py:77
  | .z _ d => .ok (B.matrix (zMat N d))
  -- cx.py:139
  | .cx qreg c t plus => match cxRows qreg c t plus with
    | .ok m => .ok (B.transpose (B.matrix m))
    | .error e => .error e
  -- circuit_library/__init__.py:69-94 (inherited by Toffoli)
  | .toffoli _ _ _ ds U _ => match arbMat (.list ds) U with
    | .ok m => .ok (B.matrix m)
    | .error e => .error e
  | .arb _ ds U => match arbMat ds U with
    | .ok m => .ok (B.matrix m)
    | .error e => .error e
  -- measurement.py:53-58 returns `None`, which no backend operation accepts
  | .meas _ => .error .type

end

variable {R : Type}

/-- The `acting_on` property. `InitState` has none (`AttributeError`). `Toffoli` inherits
`ArbitaryGate.acting_on` and returns the pair `(controls, target)`; its only use is
`qreg in acting_on`, which compares `qreg` with the control *list* (never equal) and the target. -/
def GateObj.actingOn : GateObj R → PyM RegArg
  | .init .. => .error .attribute
  | .ident q _ => .ok (.int q)
  | .h q _ => .ok (.int q)
  | .x q _ _ => .ok (.int q)
  | .z q _ => .ok (.int q)
  | .cx _ c t _ => .ok (.list [c, t])
  | .toffoli _ t _ _ _ _ => .ok (.list [t])
  | .arb q _ _ => .ok q
  | .meas q => .ok (.int q)

/-- `isinstance(g, (HGate, XGate, ZGate))`, operator_flow.py:174. -/
def GateObj.isHXZ : GateObj R → Bool
  | .h .. | .x .. | .z .. => true
  | _ => false

/-- `isinstance(g, IGate)`. -/
def GateObj.isIdent : GateObj R → Bool
  | .ident .. => true
  | _ => false

/-- `isinstance(g, Measurement)`. -/
def GateObj.isMeas : GateObj R → Bool
  | .meas .. => true
  | _ => false

end QuDiet
