import Verif.Spec.Born

/-!
# Specification: what some of the measurements of a circuit report
-/

namespace QIP.Spec

/-- The draws in `[0, 1)` with which the run succeeds and every measurement `x` among the nodes `P` reports the outcome `o x`,
whatever the other measurements report. -/
def reportsOf (h : Heap) (args : List Nat) (feed : List (List Nat × List ℂ)) (e : Env) (P : Nat → Prop) (o : Nat → Nat) :
    Set (measures h args → ℝ) :=
  {u | (∀ x, 0 ≤ u x ∧ u x < 1) ∧ ∃ out cl ms,
    QIP.run h (fun _ => none) args (feed.map asFeed) false none e.pick e.shuffle (withDraws e (measures h args) u).orc e.arena
      = .ok (out, cl, ms) ∧ ∀ x ∈ measures h args, P x → ∃ p, (x, Classic.bits (o x) p) ∈ cl}

end QIP.Spec
