import Verif.Semantics
import Mathlib.Data.Finset.Image

/-!
# The shipped decomposition example

test_circuit/circuit.py builds a network of controlled increments for a NOT with `n - 1` controls;
test_circuit/useQudiet.py runs it with QuDiet; test_circuit/main.py has closed formulas for its size.
-/

namespace QuDiet.Tree

/-! ### circuit.py -/

/-- The three values of `Gate.inc_or_dec`, circuit.py:14, 304, 340. -/
inductive Sign where
  | plus
  | minus
  | dollar
  deriving DecidableEq, Repr

/-- The two values of `Gate.tq`, circuit.py:15. -/
inductive Kind where
  | ternary
  | quaternary
  deriving DecidableEq, Repr

/-- circuit.py:6-32 `Gate`. -/
structure Gate where
  target : Nat
  control : Nat
  targetState : Nat
  controlState : Nat
  sign : Sign
  tq : Kind
  deriving DecidableEq, Repr

/-- circuit.py:34-40 `Gate.flip`. -/
def Gate.flip (g : Gate) : Gate := { g with sign := .minus }

/-- What `self.levels[i]` holds: a list of pairs of optional gates, circuit.py:81. -/
abbrev Level := List (Option Gate × Option Gate)

/-- The stages of circuit.py:223, 255, 271. -/
inductive Stage where
  | id
  | gpll
  | sd

/-- circuit.py:336-355 `make_gates`; `condition` is the truth value of the argument. -/
def makeGates (left center right : Nat) (condition : Bool) : Stage → Option Gate × Option Gate
  | .id =>
    if condition then (some ⟨center, left, 3, 1, .plus, .ternary⟩, none)
    else (some ⟨right, left, 3, 1, .plus, .ternary⟩, some ⟨center, right, 3, 2, .plus, .ternary⟩)
  | .gpll =>
    if condition then
      (some ⟨right, left, 4, 2, .plus, .quaternary⟩, some ⟨center, right, 3, 3, .plus, .quaternary⟩)
    else (some ⟨right, left, 3, 2, .plus, .ternary⟩, some ⟨center, right, 3, 2, .plus, .ternary⟩)
  | .sd =>
    (some ⟨right, left, 4, 2, .plus, .quaternary⟩, some ⟨center, right, 3, 3, .plus, .quaternary⟩)

/-- circuit.py:358-365 `generate_inorder`. (The code calls it on 1 only; on 0 it would not return, and
the model gives the empty list.) -/
def inorder (c : Nat) (parent : Nat) : List Nat :=
  if _ : c < parent ∨ parent = 0 then []
  else inorder c (2 * parent) ++ [parent] ++ inorder c (2 * parent + 1)
termination_by c + 1 - parent

/-- `actual_mapping.get(k)`, circuit.py:367-374 (the last assignment to key `n` wins). -/
def position (n : Nat) (k : Nat) : Option Nat :=
  if k = n then some (n - 1)
  else if k ∈ inorder (n - 1) 1 then some ((inorder (n - 1) 1).idxOf k) else none

/-- The mutable state of `simulate`: the queue, `current_depth + 1`, and the fields of `Circuit` that
it changes (circuit.py:104-112). -/
structure Sim where
  queue : List Nat
  depth1 : Nat
  levels : List Level
  quat : Nat
  tern : Nat
  qubits : Finset Nat
  qutrits : Finset Nat
  ququads : Finset Nat

/-- circuit.py:104-112 and 160-165: the state when the loop starts. `depth = floor(log(c, 2))`, taken
as the exact integer logarithm (floating point agrees with it for `c < 2^47`). -/
def Sim.start (n : Nat) : Sim where
  queue := [1]
  depth1 := 0
  levels := List.replicate (Nat.log2 (n - 1)) []
  quat := 0
  tern := 0
  qubits := {n}
  qutrits := {1}
  ququads := ∅

/-- circuit.py:137-145 `gpll_has_right_grandchild`. -/
def hasRightGrandchild (c : Nat) : Bool := ((2 * (c / 2) : Nat) : Int) - ((4 * (c / 4) : Nat) : Int) == 2

/-- circuit.py:202-271 (with `check_id`, `check_gpll`, `check_sd`, circuit.py:115-135 and 147-156, and the first-in-first-out queue
`Q`, circuit.py:46-69): what the three branches do to the counters, the sets and the queue for the
node `k` (already dequeued), and the arguments `condition` and `stage` for `make_gates`. In the `gpll`
branch the condition is a bound method, which is always true. -/
def branch (c k : Nat) (s : Sim) : Sim × Bool × Stage :=
  let left := 2 * k
  let right := 2 * k + 1
  if c / 4 < k then
    if c < right then
      ({ s with tern := s.tern + 2, qubits := insert left s.qubits }, true, .id)
    else
      ({ s with tern := s.tern + 4, qubits := insert left s.qubits,
                qutrits := insert right s.qutrits }, false, .id)
  else if k = c / 4 then
    if hasRightGrandchild c then
      ({ s with quat := s.quat + 4, queue := s.queue ++ [left, right],
                qutrits := insert left s.qutrits, ququads := insert right s.ququads,
                depth1 := s.depth1 + 1 }, true, .gpll)
    else
      ({ s with tern := s.tern + 4, queue := s.queue ++ [left],
                qutrits := insert right (insert left s.qutrits), depth1 := s.depth1 + 1 }, true, .gpll)
  else
    ({ s with quat := s.quat + 4, queue := s.queue ++ [left, right],
              qutrits := insert left s.qutrits, ququads := insert right s.ququads }, false, .sd)

/-- circuit.py:187-274: one pass of the loop body for the dequeued node `k`. `self.levels[index]` is
Python indexing: a negative index counts from the end. -/
def step (c k : Nat) (s : Sim) : PyM Sim :=
  let s := if k = 2 ^ s.depth1 then { s with depth1 := s.depth1 + 1 } else s
  let index : Int := (s.levels.length : Int) - 1 - ((s.depth1 : Int) - 1)
  let b := branch c k s
  match pyIndex s.levels.length index with
  | .ok i => .ok { b.1 with levels := b.1.levels.modify i (· ++ [makeGates (2 * k) k (2 * k + 1) b.2.1 b.2.2]) }
  | .error e => .error e

/-- circuit.py:167: the loop, cut off after `fuel` passes. -/
def loop (c : Nat) : Nat → Sim → PyM Sim
  | 0, s => .ok s
  | fuel + 1, s =>
    match s.queue with
    | [] => .ok s
    | k :: q => do loop c fuel (← step c k { s with queue := q })

/-- circuit.py:309-334 `get_reflection`. The left gate of a pair is never `None` here (`None.flip()`
would be an `AttributeError`); the model maps over the option. -/
def reflection (levels : List Level) : List Level :=
  levels.reverse.map fun level => level.map fun d => (d.2.map Gate.flip, d.1.map Gate.flip)

/-- What `Circuit(n)` followed by `simulate()` leaves behind. -/
structure Result where
  tern : Nat
  quat : Nat
  qubits : Finset Nat
  qutrits : Finset Nat
  ququads : Finset Nat
  finalLevels : List Level

/-- circuit.py:94-113 and 158-307: `Circuit(n)`, `simulate()`. `math.log` of 0 or of a negative number
is a `ValueError`. The loop gets `n` passes, which `loop_ends` in Verif.Lemmas.Tree shows is enough to
empty the queue. -/
def simulate (n : Nat) : PyM Result :=
  if n ≤ 1 then .error .value
  else
    match loop (n - 1) n (Sim.start n) with
    | .error e => .error e
    | .ok s => .ok
      { tern := s.tern + 1
        quat := s.quat
        qubits := s.qubits
        qutrits := s.qutrits
        ququads := s.ququads
        finalLevels := s.levels ++ [[(some ⟨n, 1, 1, 2, .dollar, .ternary⟩, none)]] ++ reflection s.levels }

/-! ### useQudiet.py -/

/-- useQudiet.py:17-30: the register dimensions. -/
def registers (n : Nat) (r : Result) : List Nat :=
  (List.range n).map fun i =>
    if some i ∈ r.ququads.image (position n) then 4
    else if some i ∈ r.qutrits.image (position n) then 3
    else 2

/-- useQudiet.py:66-73 `make_CNOT_gate`, and the `cx` call of lines 49-50, 53-54. Nodes outside the
mapping would give `None` as a register, on which QuDiet raises a `TypeError`. -/
def gateCall {R : Type} (n : Nat) (g : Gate) : PyM (Call R) :=
  match position n g.control, position n g.target with
  | some c, some t => .ok (.cx c t (if g.sign = .minus then -1 else 1))
  | _, _ => .error .type

/-- useQudiet.py:44-54: the gates in the order in which they are put on the circuit. -/
def gates (levels : List Level) : List Gate :=
  levels.flatten.flatMap fun d => d.1.toList ++ d.2.toList

/-- useQudiet.py:44-54: put the gates on the circuit; an exception ends the function. -/
def build {R : Type} [CommRing R] (n : Nat) : List Gate → Circuit R → PyM (Circuit R)
  | [], c => .ok c
  | g :: gs, c =>
    match gateCall n g with
    | .error e => .error e
    | .ok k =>
      match c.call k with
      | (c', .ok _) => build n gs c'
      | (_, .error e) => .error e

/-- useQudiet.py:5-63 `RUN_CIRC`. -/
def runCirc {R : Type} [CommRing R] [StarRing R] [DecidableEq R] [UnitaryCheck R] (N : Numerics R) (B : Backend R)
    (n : Nat) (input : Option (List Int)) : PyM Key := do
  let r ← simulate n
  let c ← Circuit.new (R := R) (.list ((registers n r).map Int.ofNat)) (input.getD (List.replicate n 1)) none
  let c ← build n (gates r.finalLevels) c
  match c.call .measureAll with
  | (_, .error e) => .error e
  | (c, .ok _) => do
    match ← (c.run N B).2 with
    | [] => .error .index
    | e :: _ => .ok e.1

/-! ### main.py -/

/-- main.py:10-24 `mathematical_expectation`: `tern, quat, qb, qt, qq`. -/
def mathematicalExpectation (n : Int) : Int × Int × Int × Int × Int :=
  let c := n - 1
  let tern := 4 * (c / 4) + 5
  (if c % 2 = 0 then tern - 2 else tern, 4 * (c / 2) - 4 * (c / 4) - 4,
    c / 2 - c / 4 + 1, 2 * (c / 4) + 2, c / 2 - c / 4 - 1)

/-- main.py:34-53: the gates counted by their label. -/
def counted (tq : Kind) (r : Result) : Nat := (gates r.finalLevels).countP fun g => g.tq == tq

end QuDiet.Tree
