import Verif.InfoWhile
import Verif.Pages

/-! # `draw('mpl')` while other threads build the circuit

`draw_circuit_mpl` looks at the list of layers and at the operators of each layer where they are: it copies neither. What it
draws on is local to the thread that called it. -/

namespace QuDiet

section
variable {R : Type}

/-- Where the thread is that has called `draw('mpl')`. -/
inductive Mc (R : Type) where
  /-- circuit_draw.py:231: the call has begun -/
  | start
  /-- circuit_draw.py:236: there was no `moments[1]` -/
  | failed
  /-- circuit_draw.py:265-278 and 213: within or after the loops over the layers and their operators. They ask for the next
  element as those of `get_circuit_info` do; the number that `Ic` notes is not used. -/
  | looping (r : Ic R)

/-- The next access of `draw('mpl')` to the shared parts. The loop over the initial layer (circuit_draw.py:252-257) is left
out: that layer never changes, and nothing of it is among the shapes. -/
def Mc.step (f : Flow R) : Mc R → Mc R
  -- lines 235-236
  | .start => match pyGet f.moments 1 with
    | .error _ => .failed
    | .ok _ => .looping (Ic.start.step f)
  | .failed => .failed
  -- lines 213, 265-266
  | .looping r => .looping (r.step f)

/-- What `draw('mpl')` has come to, if it has come to an end: it raises where an operator cannot be drawn, and otherwise has
drawn shapes, layer by layer (circuit_draw.py:231-281). -/
def Mc.value : Mc R → Option (PyM (List (List Shape)))
  | .start => none
  | .failed => some (.error .index)
  | .looping .start => none
  | .looping (.reading _ seen cur) => match (seen ++ [cur]).mapM drawLayer with
    | .error e => some (.error e)
    | .ok _ => none
  | .looping (.finished _ seen) => some (seen.mapM drawLayer)

/-- The figures that `draw('mpl', compress)` has drawn, if it has come to an end (circuit_draw.py:231-281). `c` is the circuit as
constructed: neither its number of registers nor its initial layer changes. -/
def Mc.figures (W : Shape → ℚ) (w : ℚ) (compress : Nat) (c : Circuit R) (r : Mc R) : Option (PyM (List Page)) :=
  r.value.map fun v => do
    let ls ← v
    let labels ← stateLabels (c.flow.moments.headD [])
    .ok (paginate W (15 + c.qregs.seq.length * compress) ls ⌈w + 1⌉
      { number := 1, labels := labels, wireFrom := ⌈w + 1⌉, wireTo := 15 + c.qregs.seq.length * compress - 1, layers := [] })

variable [CommRing R]

/-- A step of thread number `i`, or of the thread that has called `draw('mpl')` (`none`). -/
def stepMpl (s : (Circuit R × List (Thread R)) × Mc R) : Option Nat → (Circuit R × List (Thread R)) × Mc R
  | some i => (stepThread s.1 i, s.2)
  | none => (s.1, s.2.step s.1.1.flow)

/-- Threads that are about to make the calls `ks` run on circuit `c`, and one that is about to call `draw('mpl')`, in the
order given by `sched`. -/
def runMpl (c : Circuit R) (ks : List (List (Call R))) (sched : List (Option Nat)) :
    (Circuit R × List (Thread R)) × Mc R :=
  sched.foldl stepMpl ((c, ks.map fun l => { pc := .idle, todo := l }), .start)

end

end QuDiet
