import Verif.Spec.Graph
import Verif.Model.Repr

/-!
# The nodes whose text is computed
-/

namespace QIP.Spec

open QIP

/-- The nodes the outputs depend on, and everything that was made directly from one of them, whether the outputs depend
on it or not. -/
noncomputable def around (h : Heap) (args : List Nat) : List Nat :=
  needed h args ++ (needed h args).flatMap h.sinks

/-- The `repr` of every node that `run` hashes can be computed: of the nodes given in `feed`, of those the outputs depend
on, and of everything made directly from one of those. -/
noncomputable def reads (frames : Nat) (h : Heap) (args : List Nat) (feed : List (List Nat × InitState)) : Bool :=
  ((feed.map (·.1)).flatten ++ around h args).all fun x => (h.repr frames x).isSome

end QIP.Spec
