import Verif.Model.Svg
import Verif.Spec.Graph

/-!
# Specification: drawings
-/

namespace QIP

/-- Horizontal and vertical extent of an element (for a text, the point where it is centred). -/
def Shape.left : Shape → ℚ
  | .line x1 x2 _ _ _ => min x1 x2
  | .rect x _ w _ _ => min x (x + w)
  | .circle cx _ r _ => cx - r
  | .text x _ _ _ => x

def Shape.right : Shape → ℚ
  | .line x1 x2 _ _ _ => max x1 x2
  | .rect x _ w _ _ => max x (x + w)
  | .circle cx _ r _ => cx + r
  | .text x _ _ _ => x

def Shape.top : Shape → ℚ
  | .line _ _ y1 y2 _ => min y1 y2
  | .rect _ y _ h _ => min y (y + h)
  | .circle _ cy r _ => cy - r
  | .text _ y _ _ => y

def Shape.bottom : Shape → ℚ
  | .line _ _ y1 y2 _ => max y1 y2
  | .rect _ y _ h _ => max y (y + h)
  | .circle _ cy r _ => cy + r
  | .text _ y _ _ => y

namespace Spec

/-- Symbols in a circuit diagram. -/
inductive Sym where
  | control
  | plus
  | cross
  | box (name : String)

/-- The symbol of a gate on its `j`-th qubit. -/
def gateSym : Gate → Nat → Sym
  | .c _, 0 => .control
  | .c op, j + 1 => gateSym op j
  | .not, _ => .plus
  | .swap _, _ => .cross
  | .x, _ => .box "X"
  | .y, _ => .box "Y"
  | .z, _ => .box "Z"
  | .h, _ => .box "H"
  | .r _, _ => .box "R"
  | .rm m _, _ => .box ("R[" ++ toString m ++ "]")

/-- The symbol of an operation on its `j`-th qubit. -/
def sym : Kind → Nat → Sym
  | .gate g _, j => gateSym g j
  | .fop _, _ => .box "F"
  | .measure, _ => .box "M"
  | .smeasure _, _ => .box "SM"
  | .qubit, _ => .box "Q"
  | .split _, _ => .box "SplitQubit"

/-- The symbol is drawn around a point. -/
def Shows (ss : List Shape) (x y : ℚ) : Sym → Prop
  | .control => ∃ r > 0, .circle x y r "black" ∈ ss
  | .plus => ∃ r > 0, .circle x y r "white" ∈ ss ∧ (∃ w, .line x x (y - r) (y + r) w ∈ ss) ∧
      ∃ w, .line (x - r) (x + r) y y w ∈ ss
  | .cross => ∃ r > 0, ∃ w, .line (x - r) (x + r) (y - r) (y + r) w ∈ ss ∧ .line (x - r) (x + r) (y + r) (y - r) w ∈ ss
  | .box s => ∃ a > 0, ∃ b > 0, ∃ w z, .rect (x - a) (y - b) (2 * a) (2 * b) w ∈ ss ∧ .text x y z s ∈ ss

/-- Height of a qubit's line. -/
def lineY (k : Nat) : ℚ := 20 * k + 10

/-- The drawing of a node on the given qubits: the symbol on every qubit, a vertical line that joins them, nothing beyond the
outermost qubits (apart from the height of a symbol). -/
structure Drawn (k : Kind) (qs : List Nat) (x : ℚ) (ss : List Shape) : Prop where
  symbols : ∀ j q, qs[j]? = some q → Shows ss x (lineY q) (sym k j)
  joined : 1 < qs.length → ∃ a ∈ qs, ∃ b ∈ qs, (∀ q ∈ qs, a ≤ q ∧ q ≤ b) ∧ ∃ w, .line x x (lineY a) (lineY b) w ∈ ss
  within : ∀ s ∈ ss, ∃ a ∈ qs, ∃ b ∈ qs, lineY a - 5 ≤ s.top ∧ s.bottom ≤ lineY b + 5

/-- Nodes that are operations: not input qubits, joins and splits. -/
def isOp (h : Heap) (x : Nat) : Bool :=
  match h.kind x with
  | .qubit => false
  | .split _ => false
  | _ => true

end Spec

end QIP
