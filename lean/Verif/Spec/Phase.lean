import Verif.Spec.Run

/-!
# Specification: global phases of fed states
-/

namespace QIP.Spec

/-- The feed in which the `i`-th vector is multiplied by the `i`-th number. -/
noncomputable def rotate (zs : List ℂ) (feed : List (List Nat × List ℂ)) : List (List Nat × List ℂ) :=
  List.zipWith (fun z kv => (kv.1, kv.2.map (z * ·))) zs feed

/-- The measurements of two runs draw the same random numbers and find the same content in their accumulators.  Set orders,
thread schedules and the content of the second buffer may differ. -/
def SameDraws (e e' : Env) : Prop := ∀ x, (e'.orc x).u = (e.orc x).u ∧ (e'.orc x).garbage = (e.orc x).garbage

end QIP.Spec
