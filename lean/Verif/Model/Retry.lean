import Verif.Model.Run

/-!
# What a run leaves behind, also if it raises

The node objects keep the matrices of the first run (`self.ms`).  `run` (`Model/Run.lean`) reports them if it ends normally;
here they are followed through exceptions.
-/

namespace QIP

open Heap

/-- `self.ms` after `MatrixOp.feed_indices`, operators.py:15-26, whether it raises or not.  Line 18 stores the matrices
before line 20 takes the adjoints, so that those of the gate itself stay if taking the adjoints raises; `kronselect_dot`
(line 25) does not change them. -/
noncomputable def msLeft (ms : Option (List (Key × Mat ℂ))) (g : Gate) (dagger : Bool) (gs : List (List Nat)) :
    Option (List (Key × Mat ℂ)) :=
  match ms with
  | some m => some m
  | none =>
    match g.makemats gs with
    | .error _ => none
    | .ok m =>
      match g.feedMats dagger gs with
      | .error _ => some m
      | .ok m' => some m'

/-- The matrices of all nodes after `NodeFeeder.feed`, pipeline.py:235-240: only matrix ops have some. -/
noncomputable def nodeLeft (h : Heap) (ms : MsTable) (gs : List (List Nat)) (x : Nat) : MsTable :=
  match h.kind x with
  | .gate g d => fun y => if y = x then msLeft (ms x) g d gs else ms y
  | _ => ms

/-- `NodeFeeder.feed`, with an exception and the matrices left behind as part of the result: nothing is fed after an
exception. -/
noncomputable def keepFeed (h : Heap) (orc : Nat → Oracle) (acc : Except PyErr Feeder × MsTable) (gs : List (List Nat))
    (own : List Nat) (x : Nat) : Except PyErr (Except PyErr Feeder × MsTable) :=
  match acc with
  | (.error e, left) => .ok (.error e, left)
  | (.ok st, _) => .ok (nodeFeed h orc st gs own x, nodeLeft h st.ms gs x)

/-- `run`, pipeline.py:71-135, with the local backend, as in `Model/Run.lean`; in addition the matrices the nodes hold
afterwards, also after an exception.  (Exceptions of `run_graph` itself, which do not occur in circuits made through the
API, are taken to leave the matrices as they were.) -/
noncomputable def runKeep (h : Heap) (ms : MsTable) (args : List Nat) (feed : List (List Nat × InitState)) (strict : Bool)
    (state : Option StateKw) (pick : List Nat → Nat) (shuffle : List Nat → List Nat) (orc : Nat → Oracle)
    (arena : List ℂ) : Except PyErr (List ℂ × List (Nat × Classic)) × MsTable :=
  let start : Except PyErr (List Nat × List Nat × BState) := do
    let fed := (feed.map (·.1)).flatten
    let (deps, graphnodes) ← getDeps h pick args
    let deps := shuffle deps
    let feed := feed ++ deps.flatMap (defaultFeed h fed)
    let frontier := sortQid h deps
    if strict ∧ ∃ q ∈ frontier, q ∉ fed then .error .valueError
    let index := blocks h frontier 0
    let n := (frontier.map h.n).sum
    let groups ← feed.mapM fun f => do
      let gs ← f.1.mapM (lookup index)
      pure gs.flatten
    let states := feed.map (·.2)
    let arg ← stateArg state
    let (groups, states) := match arg with
      | some s => ([List.range n], [s])
      | none => (groups, states)
    let b ← makeState n groups states 0 (2 ^ n) arena
    pure (frontier, graphnodes, b)
  match start with
  | .error e => (.error e, ms)
  | .ok (frontier, graphnodes, b) =>
    match runGraph h frontier graphnodes (keepFeed h orc) (.ok ⟨b, ms, []⟩, ms) with
    | .error e => (.error e, ms)
    | .ok (r, left) => (r.map fun st => (st.state.state, st.classic), left)

end QIP
