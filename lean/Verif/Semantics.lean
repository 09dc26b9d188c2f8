import Verif.Spec
import Verif.Circuit

/-!
# Meaning of the API calls

The documented effect of each gate method on a state, and what becomes of a call with arbitrary
arguments. Nothing here refers to moments, operator flows or matrices products.
-/

namespace QuDiet
open Spec

variable {R : Type}

/-- Number of registers from the lowest to the highest in `qs`, and the lowest: `(lb, len)`. -/
def spanOf (qs : List Int) : Nat × Nat :=
  let lb := qs.foldl min (qs.headD 0)
  let ub := qs.foldl max (qs.headD 0)
  (lb.toNat, (ub + 1 - lb).toNat)

/-- The documented effect of a gate call on the state of registers of dimensions `dims`. -/
def meaning [CommRing R] (N : Numerics R) (dims : List Nat) : Call R → State R → State R
  | .h q _ =>
    let d := dims.getD q.toNat 0
    onReg d q.toNat (hadamard (N.roots d) (N.invSqrt d) d)
  | .x q _ p => move dims (bump dims q.toNat p)
  | .z q _ =>
    let d := dims.getD q.toNat 0
    onReg d q.toNat (phases (N.roots d))
  | .cx c t p => move dims (controlled dims [c.toNat] t.toNat p)
  | .toffoli cs t p => move dims (controlled dims (cs.map Int.toNat) t.toNat p)
  | .gate U (.int q) _ => onReg (dims.getD q.toNat 0) q.toNat U.e
  | .gate U (.list qs) _ => onBlock dims (spanOf qs).1 (spanOf qs).2 U.e
  | .measure _ => id
  | .measureAll => id

/-- What becomes of a call. -/
inductive Fate where
  /-- it raises, and nothing changes -/
  | rejected
  /-- it is accepted and has no effect -/
  | skipped
  /-- it takes effect -/
  | applied
  /-- it is accepted, and every later `run` raises -/
  | broken
  /-- not classified (see `Regular`) -/
  | odd
  deriving DecidableEq, Repr

/-- Dimension of register `q`, negative numbers counting from the end. -/
def dimAt (dims : List Nat) (q : Int) : Nat := dims.getD (q % (dims.length : Int)).toNat 0

/-- Fate of a call for a gate on the single register `q` with the optional dimension `k`;
`good` says that the gate's own parameters suit that dimension. -/
def fateOne (dims : List Nat) (q : Int) (k : Option Nat) (good : Bool) : Fate :=
  if q < -(dims.length : Int) ∨ (dims.length : Int) ≤ q then .rejected
  else if dimAt dims q < k.getD 0 then .rejected
  else if q < 0 then .skipped
  else if (k.getD 0 = 0 ∨ k.getD 0 = dimAt dims q) ∧ good then .applied
  else .broken

/-- Fate of a call on a circuit whose registers were given as the list `dims`. -/
def fate [CommRing R] [StarRing R] [DecidableEq R] [UnitaryCheck R] (dims : List Nat) : Call R → Fate
  | .h q k => fateOne dims q k true
  | .z q k => fateOne dims q k true
  | .x q k p => fateOne dims q k (-(dimAt dims q : Int) ≤ p ∧ p < dimAt dims q)
  | .cx c t _ =>
    let n : Int := dims.length
    if 0 ≤ min c t ∧ max c t < n then .applied
    else if max c t < 0 ∨ n ≤ min c t then .skipped
    else .broken
  | .toffoli cs t p =>
    let n : Int := dims.length
    let (_, len) := spanOf (cs ++ [t])
    if ∃ q ∈ cs ++ [t], q < -n ∨ n ≤ q then .rejected
    else if ∀ q ∈ cs ++ [t], q < 0 then .skipped
    else if ∃ q ∈ cs ++ [t], q < 0 then .odd
    else if len ≠ 2 ∧ (t ∉ cs ∨ p % (dimAt dims t : Int) = 0) then .applied
    else .broken
  | .gate U (.int q) k =>
    fateOne dims q k (U.isUnitary && U.rows == dimAt dims q && U.cols == dimAt dims q)
  | .gate U (.list qs) k =>
    let n : Int := dims.length
    let (lb, len) := spanOf qs
    let size := ((dims.drop lb).take len).prod
    if qs = [] ∨ (∃ q ∈ qs, q < -n ∨ n ≤ q) ∨ (∃ q ∈ qs, dimAt dims q < k.getD 0) then .rejected
    else if ∀ q ∈ qs, q < 0 then .skipped
    else if ∃ q ∈ qs, q < 0 then .odd
    else if U.isUnitary = false then .broken
    else if (k.getD 0 ≠ 0 ∧ ¬ (U.rows = k.getD 0 ∧ U.cols = k.getD 0)) ∨
        (k.getD 0 = 0 ∧ qs.length = 2) ∨
        (k.getD 0 = 0 ∧ qs.length = 1 ∧ ¬ (U.rows = size ∧ U.cols = size)) then .broken
    else if U.rows = size ∧ U.cols = size then .applied
    else if U.rows = U.cols ∧ U.rows < size then .broken
    else .odd
  | .measure _ => .rejected
  | .measureAll => .applied

/-- Calls that break the circuit because no matrix can be built for them (as opposed to one that is too
small for its registers). -/
def Call.Faulty [CommRing R] [StarRing R] [DecidableEq R] [UnitaryCheck R] (dims : List Nat) : Call R → Prop
  | .x q k _ => k.getD 0 = 0 ∨ k.getD 0 = dimAt dims q
  | .cx .. => True
  | .toffoli .. => True
  | .gate U (.int _) k =>
    k.getD 0 = 0 ∨ ¬ (U.isUnitary = true ∧ U.rows = k.getD 0 ∧ U.cols = k.getD 0)
  | .gate U (.list qs) k =>
    U.isUnitary = false ∨ (k.getD 0 = 0 ∧ qs.length ≤ 2) ∨
      (k.getD 0 ≠ 0 ∧ ¬ (U.rows = k.getD 0 ∧ U.cols = k.getD 0))
  | _ => False

/-- Calls whose fate is classified. Left out: a Toffoli or a list-register custom gate with both
negative and non-negative registers, and a list-register custom gate whose matrix passes the
gate's own checks although it is larger than the registers it is put on (or not square). -/
def Regular [CommRing R] [StarRing R] [DecidableEq R] [UnitaryCheck R] (dims : List Nat) (k : Call R) : Prop :=
  fate dims k ≠ .odd

/-- Arguments that the constructor documents: dimensions of at least two, at most as many initial
levels as registers, each below its dimension (negative levels count from the top). -/
def ValidStart (ds init : List Int) : Prop :=
  (∀ d ∈ ds, 2 ≤ d) ∧ init.length ≤ ds.length ∧
    ∀ i (h : i < init.length) (h' : i < ds.length), -ds[i] ≤ init[i] ∧ init[i] < ds[i]

/-- The levels in which the registers start; registers without an entry in `init` start in 0. -/
def startLevels (dims : List Nat) (init : List Int) : List Nat :=
  (List.range dims.length).map fun i => (init.getD i 0 % (dims.getD i 0 : Int)).toNat

/-- Is it `measure_all()`? -/
def Call.isMeasureAll : Call R → Bool
  | .measureAll => true
  | _ => false

/-- The calls before the first `measure_all()`. -/
def live (ks : List (Call R)) : List (Call R) := ks.takeWhile fun k => !k.isMeasureAll

/-- The state after the calls that take effect, from the basis state `init`. -/
def finalState [CommRing R] [StarRing R] [DecidableEq R] [UnitaryCheck R] (N : Numerics R) (dims init : List Nat)
    (ks : List (Call R)) : State R :=
  (ks.filter fun k => fate dims k = .applied).foldl (fun ψ k => meaning N dims k ψ) (basis init)

/-! ### What a call names -/

/-- The registers that a call names. -/
def Call.regs : Call R → List Int
  | .h q _ => [q]
  | .x q _ _ => [q]
  | .z q _ => [q]
  | .cx c t _ => [c, t]
  | .toffoli cs t _ => cs ++ [t]
  | .gate _ (.int q) _ => [q]
  | .gate _ (.list qs) _ => qs
  | .measure q => [q]
  | .measureAll => []

/-- The kind of gate that a call adds. -/
def Call.kind : Call R → Option Kind
  | .h .. => some .h
  | .x .. => some .x
  | .z .. => some .z
  | .cx .. => some .cx
  | .toffoli .. => some .toffoli
  | .gate .. => some .arbitary
  | .measure _ => none
  | .measureAll => none

/-- What there is to see of a gate: its kind, registers and increment. -/
inductive Drawn where
  | h (q : Int)
  | x (q plus : Int)
  | z (q : Int)
  | cx (ctl tgt plus : Int)
  | toffoli (ctls : List Int) (tgt plus : Int)
  | custom (q : RegArg)
  deriving DecidableEq, Repr

/-- The gate that a call asks for. -/
def Call.drawn : Call R → Option Drawn
  | .h q _ => some (.h q)
  | .x q _ p => some (.x q p)
  | .z q _ => some (.z q)
  | .cx c t p => some (.cx c t p)
  | .toffoli cs t p => some (.toffoli cs t p)
  | .gate _ q _ => some (.custom q)
  | .measure _ => none
  | .measureAll => none

/-- The gate that an operator is. -/
def GateObj.drawn : GateObj R → Option Drawn
  | .h q _ => some (.h q)
  | .x q _ p => some (.x q p)
  | .z q _ => some (.z q)
  | .cx _ c t p => some (.cx c t p)
  | .toffoli cs t _ _ _ p => some (.toffoli cs t p)
  | .arb q _ _ => some (.custom q)
  | _ => none

/-- Is it one of `h`, `x`, `z`? -/
def Call.isHXZ : Call R → Bool
  | .h .. | .x .. | .z .. => true
  | _ => false

/-- Does the call name register `r` (for a custom gate on several registers: or one in between)? -/
def Call.touches : Call R → Nat → Prop
  | .h q _, r => q = r
  | .x q _ _, r => q = r
  | .z q _, r => q = r
  | .cx c t _, r => c = r ∨ t = r
  | .toffoli cs t _, r => (r : Int) ∈ cs ∨ t = r
  | .gate _ (.int q) _, r => q = r
  | .gate _ (.list qs) _, r => (∃ a ∈ qs, a ≤ r) ∧ ∃ b ∈ qs, (r : Int) ≤ b
  | .measure q, r => q = r
  | .measureAll, _ => True

/-! ### Scripts -/

/-- A user's script: construct a circuit, make the calls (carrying on after exceptions), and `run`.
The value is what `run` returns, or the exception of the constructor or of `run`. -/
def script [CommRing R] [StarRing R] [DecidableEq R] [UnitaryCheck R] (N : Numerics R) (B : Backend R) (qregs : RegsArg)
    (init : List Int) (out : Option Output) (ks : List (Call R)) : PyM (List (Key × R)) := do
  let c ← Circuit.new qregs init out
  ((c.calls ks).run N B).2

/-- A user's script that ends with the call `k` instead of `run()`: what that call returns or raises. -/
def answer [CommRing R] (qregs : RegsArg) (init : List Int) (out : Option Output) (ks : List (Call R))
    (k : Call R) : PyM Bool := do
  let c ← Circuit.new qregs init out
  ((c.calls ks).call k).2

/-- The dictionaries that the output format `o` shows for a state: the basis states of non-zero
amplitude, in lexicographic order. -/
def listing [CommRing R] [DecidableEq R] (o : Output) (dims : List Nat) (ψ : State R) :
    List (Key × R) :=
  (outcome dims ψ).map fun e => (o.key e.1, o.val e.2)

/-- The output format: the one given, or labels and amplitudes for the registers `dims`. -/
def format (dims : List Nat) (out : Option Output) : Output :=
  out.getD { base := dims, type := .print, method := .amplitude }

/-- What `run()` returns for a state when no output format is given: labels and amplitudes of the basis
states of non-zero amplitude, in lexicographic order. -/
def shown [CommRing R] [DecidableEq R] (dims : List Nat) (ψ : State R) : List (Key × R) :=
  (outcome dims ψ).map fun e => (.str (label e.1), e.2)

/-- The register exists. -/
def InRange (dims : List Nat) (q : Int) : Prop := 0 ≤ q ∧ q < dims.length

instance (dims q) : Decidable (InRange dims q) := inferInstanceAs (Decidable (_ ∧ _))

/-- The optional `dims` argument is absent (or 0) or the dimension of the register. -/
def DimOK (dims : List Nat) (q : Int) (k : Option Nat) : Prop :=
  k = none ∨ k = some 0 ∨ k = some (dims.getD q.toNat 0)

/-- The calls that the documentation allows. A Toffoli gate on exactly two adjacent registers and a
custom gate on two registers are left out: they never run (see C06, C38). -/
def Call.Valid [CommRing R] [StarRing R] [DecidableEq R] [UnitaryCheck R] (dims : List Nat) : Call R → Prop
  | .h q k => InRange dims q ∧ DimOK dims q k
  | .z q k => InRange dims q ∧ DimOK dims q k
  | .x q k p => InRange dims q ∧ DimOK dims q k ∧
      -(dims.getD q.toNat 0 : Int) ≤ p ∧ p < dims.getD q.toNat 0
  | .cx c t _ => InRange dims c ∧ InRange dims t
  | .toffoli cs t _ => InRange dims t ∧ (∀ c ∈ cs, InRange dims c) ∧ t ∉ cs ∧ (spanOf (cs ++ [t])).2 ≠ 2
  | .gate U (.int q) k => InRange dims q ∧ DimOK dims q k ∧ U.isUnitary = true ∧
      U.rows = dims.getD q.toNat 0 ∧ U.cols = dims.getD q.toNat 0
  | .gate U (.list qs) k => qs ≠ [] ∧ (∀ q ∈ qs, InRange dims q) ∧ k.getD 0 = 0 ∧ qs.length ≠ 2 ∧
      U.isUnitary = true ∧ U.rows = ((dims.drop (spanOf qs).1).take (spanOf qs).2).prod ∧
      U.cols = ((dims.drop (spanOf qs).1).take (spanOf qs).2).prod
  | .measure _ => False
  | .measureAll => False

/-- The state after the calls `ks`, one after the other, from the initial levels. -/
def stateAfter [CommRing R] (N : Numerics R) (dims : List Nat) (init : List Int) (ks : List (Call R)) :
    State R :=
  ks.foldl (fun ψ k => meaning N dims k ψ) (basis (startLevels dims init))

end QuDiet
