import Mathlib.Algebra.Order.Floor.Ring
import Mathlib.Data.Rat.Floor
import Verif.Draw

/-!
# The figures of `draw('mpl')`

Models how `draw_circuit_mpl` (utility/circuit_draw.py:231-281) distributes the layers over figures. How wide matplotlib
renders a text is a parameter. Lengths are in inches, which is also the unit of the x-axis, and exact.
-/

namespace QuDiet

/-- How wide a shape is drawn; `W` says how wide its text is rendered. -/
def Shape.width (W : Shape → ℚ) : Shape → ℚ
  -- circuit_draw.py:52, 63: `s / dpi` with `s = dpi / 6`
  | .cnot .. => 1 / 6
  -- circuit_draw.py:114
  | .wide _ => 1
  -- circuit_draw.py:27-29, 49 and 89-92
  | s => W s

/-- circuit_draw.py:210-229 `_draw_layer`: `max(width)`, where `width` starts as `[0]`. -/
def layerWidth (W : Shape → ℚ) (ss : List Shape) : ℚ := (ss.map (Shape.width W)).foldl max 0

/-- One figure. -/
structure Page where
  /-- the number in the title "Fig:- n" -/
  number : Nat
  /-- circuit_draw.py:158-164: the dimension and the initial level written before each line, from line 0 on -/
  labels : List (Nat × Int)
  /-- circuit_draw.py:116-124: each line goes from here … -/
  wireFrom : Int
  /-- … to here -/
  wireTo : Int
  /-- the x-coordinate of each layer, and what is drawn there -/
  layers : List (ℚ × List Shape)

/-- circuit_draw.py:265-278: the loop over the layers; `i` is the x-coordinate, `page` the current figure. After a
layer, a new figure is begun if there is no room left. The result are the figures from the current one on. -/
def paginate (W : Shape → ℚ) (x : Int) : List (List Shape) → ℚ → Page → List Page
  | [], _, page => [page]
  | ss :: rest, i, page =>
    let page' := { page with layers := page.layers ++ [(i, ss)] }
    let i' := i + layerWidth W ss + 1
    if ⌈i'⌉ ≥ x - 1 then
      page' :: paginate W x rest 2
        { number := page.number + 1, labels := [], wireFrom := 1, wireTo := x - 1, layers := [] }
    else paginate W x rest i' page'

section
variable {R : Type}

/-- circuit_draw.py:253-257: dimensions and initial levels, from the operators of the first layer. (Only initial states
have a `state`; circuits built by the constructor have nothing else there.) -/
def stateLabels (m : List (GateObj R)) : PyM (List (Nat × Int)) :=
  m.mapM fun g => match g with
    | .init d s _ => .ok (d, s)
    | _ => .error .attribute

/-- circuit_draw.py:231-281 `draw_circuit_mpl(cir, compress)`. `w` is the width of the widest of the labels of the lines
(circuit_draw.py:125-171). -/
def Circuit.drawPages (W : Shape → ℚ) (w : ℚ) (compress : Nat) (c : Circuit R) : PyM (List Page) := do
  -- line 233
  let bit := c.qregs.seq.length
  -- line 236
  let _ ← pyGet c.flow.moments 1
  -- lines 241, 252-257
  let x : Int := 15 + bit * compress
  let labels ← stateLabels (c.flow.moments.headD [])
  -- lines 259-262
  let start := ⌈w + 1⌉
  -- lines 265-278; the shapes do not depend on the figure
  let ls ← c.flow.moments.mapM drawLayer
  .ok (paginate W x ls start
    { number := 1, labels := labels, wireFrom := start, wireTo := x - 1, layers := [] })

end

end QuDiet
