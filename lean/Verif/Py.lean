/-!
# Python runtime fragments

Exceptions as values, list indexing and slicing with negative indices.
-/

namespace QuDiet

/-- The exception classes that the modelled code can raise. -/
inductive Err where
  /-- `ValueError` (also numpy shape mismatches) -/
  | value
  /-- `IndexError` -/
  | index
  /-- `AssertionError` -/
  | assertion
  /-- `TypeError` -/
  | type
  /-- `AttributeError` -/
  | attribute
  /-- `ZeroDivisionError` -/
  | zeroDiv
  /-- a bare `Exception(...)`, e.g. circuit_library/__init__.py:76 -/
  | exception
  /-- `NotImplementedError` -/
  | notImplemented
  /-- `OSError`, e.g. `IsADirectoryError` of `open` -/
  | os
  deriving DecidableEq, Repr

/-- Result of a Python expression that may raise. -/
abbrev PyM := Except Err

/-- Python's resolution of an index `i` into a sequence of length `n`:
negative indices count from the end, anything else out of range is an `IndexError`. -/
def pyIndex (n : Nat) (i : Int) : PyM Nat :=
  if 0 ≤ i then
    if i < n then .ok i.toNat else .error .index
  else
    if 0 ≤ i + n then .ok (i + n).toNat else .error .index

/-- `l[i]`. -/
def pyGet {α} (l : List α) (i : Int) : PyM α :=
  match pyIndex l.length i with
  | .ok k => match l[k]? with
    | some a => .ok a
    | none => .error .index
  | .error e => .error e

/-- Clamp of a slice bound: negative bounds are relative to the end, then clamped to `[0, n]`. -/
def sliceBound (n : Nat) (i : Int) : Nat :=
  if 0 ≤ i then min i.toNat n else (i + n).toNat

/-- `l[a:b]`. -/
def pySlice {α} (l : List α) (a b : Int) : List α :=
  (l.take (sliceBound l.length b)).drop (sliceBound l.length a)

/-- `range(a, b)` as a list of integers. -/
def pyRange (a b : Int) : List Int :=
  (List.range (b - a).toNat).map fun (k : Nat) => a + (k : Int)

/-- Python's `min` of a non-empty list (`ValueError` on the empty one). -/
def pyMin : List Int → PyM Int
  | [] => .error .value
  | a :: l => .ok (l.foldl min a)

/-- Python's `max` of a non-empty list (`ValueError` on the empty one). -/
def pyMax : List Int → PyM Int
  | [] => .error .value
  | a :: l => .ok (l.foldl max a)

/-- Did the expression raise? -/
def Raises {α} (x : PyM α) : Prop := ∃ e, x = .error e

end QuDiet
