import Verif.Model.Svg

/-!
# Text drawings (`PrintFeeder`, `print_circuit` in `qip/pipeline.py`)

A printed line is represented by its cells, which are joined by `linespacing` spaces.
-/

namespace QIP

open Heap

/-- Strings of `k` copies. -/
def rep (k : Nat) (c : Char) : String := String.ofList (List.replicate k c)

/-- `qubit_line`, pipeline.py:259. -/
def wireCell (w : Nat) : String := rep w ' ' ++ "|" ++ rep w ' '

/-- `"-" * (2 * opwidth + 1)`, pipeline.py:277 and 301. -/
def dashCell (w : Nat) : String := rep (2 * w + 1) '-'

/-- A character in a box, pipeline.py:283-284 and 297-298. -/
def charCell (w : Nat) (c : Char) : String :=
  "|" ++ rep (w - 1) ' ' ++ String.singleton c ++ rep (w - 1) ' ' ++ "|"

/-- `for i, index in enumerate(indices): default_line[index] = …`. -/
def putCells (idx : List Nat) (f : Nat → String) (line : List String) : List String :=
  (idx.zipIdx).foldl (fun l p => l.set p.1 (f p.2)) line

/-- `index_strs`, pipeline.py:287-294: padded on the left. -/
def indexStrs (m : Nat) : List String :=
  let maxLen := ((List.range m).map fun i => (toString i).length).foldl max 0
  (List.range m).map fun i => rep (maxLen - (toString i).length) ' ' ++ toString i

/-- `PrintFeeder.feed`, pipeline.py:261-302, after line 267: the lines written for a node called `name` on `indices`. -/
def printNamed (w n : Nat) (name : String) (indices : List Nat) : List (List String) :=
  if name ∉ ["SplitQubit", "Q"] then
    let plain := List.replicate n (wireCell w)
    let top := putCells indices (fun _ => dashCell w) plain
    let chars := name.toList.map fun c => putCells indices (fun _ => charCell w c) plain
    let maxLen := ((List.range indices.length).map fun i => (toString i).length).foldl max 0
    let strs := indexStrs indices.length
    -- `default_line` is not made new for the remaining lines
    let r := (List.range maxLen).foldl (fun (st : List String × List (List String)) l =>
      let line := putCells indices (fun i => charCell w (((strs.getD i "").toList).getD l ' ')) st.1
      (line, st.2 ++ [line])) ((chars.getLast?).getD top, [])
    [plain, top] ++ chars ++ r.2 ++ [putCells indices (fun _ => dashCell w) r.1]
  else []

/-- `PrintFeeder.feed`, pipeline.py:261-302, if the name of the node is found (see `Model/Repr.lean`). -/
def printRows (w n : Nat) (h : Heap) (gs : List (List Nat)) (x : Nat) : List (List String) :=
  let indices := gs.flatten
  if indices.length > 0 then printNamed w n (h.kind x).name indices else []

/-- `print_circuit`, pipeline.py:305-310: the lines written. -/
def printCircuit (w : Nat) (h : Heap) (args : List Nat) (pick : List Nat → Nat) (shuffle : List Nat → List Nat) :
    Except PyErr (List (List String)) := do
  let (deps, graphnodes) ← getDeps h pick args
  let frontier := sortQid h (shuffle deps)
  let n := (frontier.map h.n).sum
  runGraph h frontier graphnodes (fun out gs _ x => .ok (out ++ printRows w n h gs x)) []

end QIP
