import Verif.Model.Conn

/-!
# Specification: connections of a job
-/

namespace QIP.Spec

open QIP

/-- The connections made for `job` since it was last closed (the history read from its end). -/
def openSince (job : Nat) : List ConnEvent → List (Ends × Nat)
  | [] => []
  | .add j e sock :: past => if j = job then openSince job past ++ [(e, sock)] else openSince job past
  | .close none :: _ => []
  | .close (some j) :: past => if j = job then [] else openSince job past

/-- The connections of `job` after a history, in the order in which they were made. -/
def openConns (job : Nat) (es : List ConnEvent) : List (Ends × Nat) := openSince job es.reverse

/-- The calls of the history that concern `job`. -/
def concerns (job : Nat) : ConnEvent → Bool
  | .add j _ _ => decide (j = job)
  | .close none => true
  | .close (some j) => decide (j = job)

end QIP.Spec
