import Verif.Model.Repr

/-!
# Running with a limited stack

`run` puts nodes into sets and dicts, and hashing a node computes its whole `repr` (pipeline.py:66-67), which contains
those of the nodes before it.
-/

namespace QIP

open Heap

/-- `run`, pipeline.py:71-135, with the local backend, as in `Model/Run.lean`, called where `frames` nested calls are
allowed: the keys of `feed` are hashed for the copy (pipeline.py:90), the nodes by `get_deps`, `qbitindex`, `classic_map`
and `run_graph`.  (`qbitindex`, `classic_map` and the defaults added to `feed` hash only nodes that `get_deps` has hashed
before.) -/
noncomputable def runIn (frames : Nat) (h : Heap) (ms : MsTable) (args : List Nat) (feed : List (List Nat × InitState))
    (strict : Bool) (state : Option StateKw) (pick : List Nat → Nat) (shuffle : List Nat → List Nat) (orc : Nat → Oracle)
    (arena : List ℂ) : Except PyErr (List ℂ × List (Nat × Classic) × MsTable) := do
  let fed := (feed.map (·.1)).flatten
  h.hashes frames fed
  let (deps, graphnodes) ← getDepsIn frames h pick args
  let deps := shuffle deps
  let feed := feed ++ deps.flatMap (defaultFeed h fed)
  let frontier := sortQid h deps
  if strict ∧ ∃ q ∈ frontier, q ∉ fed then .error .valueError
  let index := blocks h frontier 0
  let n := (frontier.map h.n).sum
  let groups ← feed.mapM fun f => do
    let gs ← f.1.mapM (lookup index)
    pure gs.flatten
  let states := feed.map (·.2)
  let arg ← stateArg state
  let (groups, states) := match arg with
    | some s => ([List.range n], [s])
    | none => (groups, states)
  let b ← makeState n groups states 0 (2 ^ n) arena
  let acc ← runGraph h frontier graphnodes (hashing frames h (nodeFeed h orc)) ⟨b, ms, []⟩
  .ok (acc.state.state, acc.classic, acc.ms)

end QIP
