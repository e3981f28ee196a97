import Verif.Model.Run

/-!
# Drawings (`qip/svgwriter.py`)

An SVG text is represented by the list of its elements; formatting of numbers and tags is not modelled.  All numbers that
occur are multiples of 1/4, on which float arithmetic is exact.
-/

namespace QIP

open Heap

/-- An SVG element, with the attributes that vary. -/
inductive Shape where
  | line (x1 x2 y1 y2 width : ℚ)
  | rect (x y width height stroke : ℚ)
  | circle (cx cy r : ℚ) (fill : String)
  | text (x y size : ℚ) (s : String)
  deriving DecidableEq

/-- `repr` of a gate up to the first parenthesis: operators.py:45, 56, 71, 86, 101, 117, 129, 150, 229. -/
def Gate.name : Gate → String
  | .not => "Not"
  | .x => "X"
  | .y => "Y"
  | .z => "Z"
  | .h => "H"
  | .r _ => "R"
  | .rm m _ => "R[" ++ toString m ++ "]"
  | .swap _ => "Swap"
  | .c op => "C" ++ op.name

/-- `trim_op_name`, svgwriter.py:27-32, with the `repr` of each class (also operators.py:294, qip.py:101, 131, 157, 184). -/
def Kind.name : Kind → String
  | .qubit => "Q"
  | .split _ => "SplitQubit"
  | .gate g _ => g.name
  | .fop _ => "F"
  | .measure => "M"
  | .smeasure _ => "SM"

/-- The parameters of `SvgFeeder.__init__`, svgwriter.py:10-19. -/
structure Layout where
  linespacing : Int := 20
  opheight : Int := 10
  opbuffer : Int := 10
  linewidth : Int := 2
  opoutlinewidth : Int := 1
  fontwidth : Int := 7

/-- `index * linespacing + opheight`. -/
def Layout.y (lay : Layout) (i : Nat) : ℚ := (i : ℚ) * lay.linespacing + lay.opheight

/-- The line behind the elements of an operation, svgwriter.py:38-44. -/
def connector (lay : Layout) (x : ℚ) (idx : List Nat) : List Shape :=
  if 1 < idx.length then
    [.line x x (lay.y (idx.tail.foldl min (idx.headD 0))) (lay.y (idx.tail.foldl max (idx.headD 0))) (lay.linewidth / 2)]
  else []

/-- The boxes, svgwriter.py:92-108. -/
def boxes (lay : Layout) (x : ℚ) (name : String) (idx : List Nat) : List Shape :=
  idx.flatMap fun i =>
    let half_x : ℚ := lay.fontwidth * name.length / 2 / 2 + 1
    let half_y : ℚ := lay.opheight / 2
    [.rect (x - half_x) (lay.y i - half_y) (2 * half_x) (2 * half_y) lay.opoutlinewidth,
      .text x (lay.y i) lay.fontwidth name]

/-- `get_op_string` for gates, svgwriter.py:34-109.  The empty index list has no first element. -/
def gateShapes (lay : Layout) (x : ℚ) : Gate → List Nat → Except PyErr (List Shape)
  | .swap _, idx =>
    .ok (connector lay x idx ++ idx.flatMap fun i =>
      [.line (x - lay.opheight / 2) (x + lay.opheight / 2) (lay.y i - lay.opheight / 2) (lay.y i + lay.opheight / 2) lay.linewidth,
        .line (x - lay.opheight / 2) (x + lay.opheight / 2) (lay.y i + lay.opheight / 2) (lay.y i - lay.opheight / 2) lay.linewidth])
  | .c op, idx =>
    match idx with
    | [] => .error .indexError
    | i :: rest => do
      let inner ← gateShapes lay x op rest
      .ok (connector lay x idx ++ [.circle x (lay.y i) (lay.opheight / 2) "black"] ++ inner)
  | .not, idx =>
    .ok (connector lay x idx ++ idx.flatMap fun i =>
      [.circle x (lay.y i) (lay.opheight / 2) "white",
        .line x x (lay.y i - lay.opheight / 2) (lay.y i + lay.opheight / 2) (lay.linewidth / 2),
        .line (x - lay.opheight / 2) (x + lay.opheight / 2) (lay.y i) (lay.y i) (lay.linewidth / 2)])
  | g, idx => .ok (connector lay x idx ++ boxes lay x g.name idx)

/-- `get_op_string`, svgwriter.py:34-109. -/
def kindShapes (lay : Layout) (x : ℚ) : Kind → List Nat → Except PyErr (List Shape)
  | .gate g _, idx => gateShapes lay x g idx
  | k, idx => .ok (connector lay x idx ++ boxes lay x k.name idx)

/-- The changing attributes of `SvgFeeder`, svgwriter.py:12, 21-25; `last_x_center` is never read. -/
structure SvgState where
  acc : List Shape
  lastMax : ℚ
  ops : List (List Shape)

/-- `SvgFeeder.feed`, svgwriter.py:111-127, after line 113: `name` is what `trim_op_name` returned. -/
def svgFeedNamed (lay : Layout) (name : String) (k : Kind) (st : SvgState) (own : List Nat) : Except PyErr SvgState :=
  if name ∉ ["SplitQubit", "Q"] then do
    let total : ℚ := lay.fontwidth * name.length / 2 + 1
    let center : ℚ := st.lastMax + lay.opbuffer + ⌊total / 2⌋
    let newMax : ℚ := center + total - ⌊total / 2⌋
    let shapes ← kindShapes lay center k own
    .ok ⟨st.acc, newMax, st.ops ++ [shapes]⟩
  else .ok st

/-- `SvgFeeder.feed`, svgwriter.py:111-127, if the name of the node is found (see `Model/Repr.lean`). -/
def svgFeed (lay : Layout) (h : Heap) (st : SvgState) (_gs : List (List Nat)) (own : List Nat) (x : Nat) :
    Except PyErr SvgState :=
  svgFeedNamed lay (h.kind x).name (h.kind x) st own

/-- The text of a drawing: view box, and the two groups of elements. -/
structure Svg where
  width : ℚ
  height : ℚ
  lines : List Shape
  ops : List (List Shape)
  deriving DecidableEq

/-- `get_svg_text` with `build`, svgwriter.py:129-152: the text and the object afterwards. -/
def svgText (lay : Layout) (n : Nat) (st : SvgState) : Svg × SvgState :=
  let acc := st.acc ++ (List.range n).map fun i =>
    Shape.line 0 (st.lastMax + lay.opbuffer) (lay.y i) (lay.y i) lay.linewidth
  (⟨st.lastMax + lay.opbuffer, lay.linespacing * n + 2 * lay.opheight, acc, st.ops⟩, ⟨acc, st.lastMax, st.ops⟩)

/-- The `SvgFeeder` of `make_svg` after `run_graph`, and `n`, svgwriter.py:156-160. -/
def svgFeeder (h : Heap) (args : List Nat) (pick : List Nat → Nat) (shuffle : List Nat → List Nat) :
    Except PyErr (Nat × SvgState) := do
  let (deps, graphnodes) ← getDeps h pick args
  let frontier := sortQid h (shuffle deps)
  let st ← runGraph h frontier graphnodes (svgFeed {} h) ⟨[], 0, []⟩
  .ok ((frontier.map h.n).sum, st)

/-- `make_svg`, svgwriter.py:155-165: the text returned or written. -/
def makeSvg (h : Heap) (args : List Nat) (pick : List Nat → Nat) (shuffle : List Nat → List Nat) : Except PyErr Svg := do
  let (n, st) ← svgFeeder h args pick shuffle
  .ok (svgText {} n st).1

end QIP
