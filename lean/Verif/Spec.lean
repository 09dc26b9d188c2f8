import Mathlib.Algebra.Ring.Defs
import Mathlib.Algebra.BigOperators.Group.List.Defs

/-!
# Specification

A small description of what a qudit circuit means, independent of the code model: a state is a
function from level lists (one level per register, register 0 first) to amplitudes.
-/

namespace QuDiet.Spec

/-- All level lists for the register dimensions `dims`, in lexicographic order. -/
def states : List Nat → List (List Nat)
  | [] => [[]]
  | d :: ds => (List.range d).flatMap fun k => (states ds).map (k :: ·)

/-- `s` gives every register of `dims` a level below its dimension. -/
def Fits (dims s : List Nat) : Prop :=
  s.length = dims.length ∧ ∀ i (h : i < s.length) (h' : i < dims.length), s[i] < dims[i]

/-- Positional value of the level list `s` in the radices `dims`, register 0 most significant. -/
def value : List Nat → List Nat → Nat
  | _ :: ds, k :: s => k * ds.prod + value ds s
  | _, _ => 0

variable {R : Type}

/-- A (pure) state: the amplitude of each basis state. -/
abbrev State (R : Type) := List Nat → R

/-- The basis state `|s₀⟩`. -/
def basis [Zero R] [One R] (s₀ : List Nat) : State R := fun s => if s = s₀ then 1 else 0

/-- Apply the `d × d` matrix `G` to register `q`. -/
def onReg [Semiring R] (d q : Nat) (G : Nat → Nat → R) (ψ : State R) : State R := fun s =>
  ((List.range d).map fun k => G (s.getD q 0) k * ψ (s.set q k)).sum

/-- Move every basis state `|t⟩` to `|f t⟩`. -/
def move [AddMonoid R] (dims : List Nat) (f : List Nat → List Nat) (ψ : State R) : State R :=
  fun s => (((states dims).filter fun t => f t = s).map ψ).sum

/-- Apply the matrix `U` to the registers `lb, …, lb+len-1`, taken together. -/
def onBlock [Semiring R] (dims : List Nat) (lb len : Nat) (U : Nat → Nat → R) (ψ : State R) :
    State R := fun s =>
  let ds := (dims.drop lb).take len
  ((states ds).map fun m =>
    U (value ds ((s.drop lb).take len)) (value ds m) * ψ (s.take lb ++ m ++ s.drop (lb + len))).sum

/-- The basis states of non-zero amplitude, in lexicographic order, with their amplitudes. -/
def outcome [Zero R] [DecidableEq R] (dims : List Nat) (ψ : State R) : List (List Nat × R) :=
  ((states dims).filter fun s => ψ s ≠ 0).map fun s => (s, ψ s)

/-- The matrix of QuDiet's Hadamard gate in terms of the roots of `x^d - 1` (in the order in which
they are found) and the factor `c`: first row and column constant, the rest circulant. -/
def hadamard [Semiring R] (roots : List R) (c : R) (d : Nat) : Nat → Nat → R := fun i j =>
  c * if i = 0 ∨ j = 0 then 1 else roots.getD ((i + (d - 1) - j) % (d - 1)) 0

/-- The diagonal matrix of the given phases. -/
def phases [Zero R] (roots : List R) : Nat → Nat → R := fun i j =>
  if i = j then roots.getD i 0 else 0

/-! ### Classical level arithmetic -/

/-- Add `p` to register `q` modulo its dimension. -/
def bump (dims : List Nat) (q : Nat) (p : Int) (s : List Nat) : List Nat :=
  s.set q (((s.getD q 0 : Int) + p) % (dims.getD q 0 : Int)).toNat

/-- Is register `q` at its top level? -/
def atTop (dims : List Nat) (q : Nat) (s : List Nat) : Prop := s.getD q 0 + 1 = dims.getD q 0

instance (dims q s) : Decidable (atTop dims q s) := inferInstanceAs (Decidable (_ = _))

/-- Add `p` to register `t` if every register in `cs` is at its top level. -/
def controlled (dims : List Nat) (cs : List Nat) (t : Nat) (p : Int) (s : List Nat) : List Nat :=
  if ∀ c ∈ cs, atTop dims c s then bump dims t p s else s

end QuDiet.Spec
