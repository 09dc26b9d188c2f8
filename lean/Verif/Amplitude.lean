import Verif.Semantics

/-!
# What `run()` shows, as one number

The amplitude of one outcome, read off the dictionary that `run()` returns. Nothing here models code; the
statements about whole algorithms (`Props/Algorithms.lean`) are made in these terms.
-/

namespace QuDiet
open Spec

variable {R : Type} [CommRing R] [StarRing R] [DecidableEq R] [UnitaryCheck R]

/-- The amplitude that `run()` shows for the levels `s` after the calls `ks` and `measure_all()`, for registers of
dimensions `dims` that start in `init`; 0 if `s` is not listed (or `run()` raises). -/
def amplitude (N : Numerics R) (B : Backend R) (dims : List Nat) (init : List Int) (ks : List (Call R))
    (s : List Nat) : R :=
  match script N B (.list (dims.map Int.ofNat)) init (some ⟨dims, .state, .amplitude⟩) (ks ++ [.measureAll]) with
  | .ok d => (d.lookup (.tup s)).getD 0
  | .error _ => 0

/-- Levels as the argument `init_states`. -/
def asInit (s : List Nat) : List Int := s.map Int.ofNat

/-- `qc.h(0)`, `qc.h(1)`, …, on the first `m` registers. -/
def hOnFirst (m : Nat) : List (Call R) := (List.range m).map fun i => .h (Int.ofNat i) none

end QuDiet
